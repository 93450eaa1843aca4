{"id": "C01", "title": "Perm(list) accepts exactly the arrangements of 0..n-1", "statement": "Perm(seq) for a list of naturals raises SequenceError if and only if seq is not a rearrangement of 0..len(seq)-1; otherwise p[i] == seq[i] for i < len(seq), p[i] == i for all larger i, and p is a bijection of the natural numbers.", "quantifier": "every finite list of natural numbers, every natural index", "why_tests_cant": "The claim ranges over infinitely many inputs; a test can only sample some of them.", "anchors": ["discretehelpers/perm/__init__.py: Perm.__init__ (list branch), Perm.__getitem__"]}
{"id": "C02", "title": "Perm(dict) accepts exactly the self-maps that are bijective on their key set", "statement": "Perm(d) for a dict of naturals raises DictError iff the sorted keys differ from the sorted values; otherwise p[i] == d.get(i, i) for every i and p is a bijection of the natural numbers.", "quantifier": "every finite dict from naturals to naturals, every index", "why_tests_cant": "The claim ranges over infinitely many inputs; a test can only sample some of them.", "anchors": ["discretehelpers/perm/__init__.py: Perm.__init__ (dict branch)"]}
{"id": "C03", "title": "Perm(cycles) sends each entry to the next one in its cycle, and is a permutation if the cycles are disjoint", "statement": "Perm(cycles) is constructed for every list of lists of naturals. If no number occurs twice, the result is a bijection of the naturals which sends every entry of a cycle to its cyclic successor and fixes everything else. In general, a number x is sent to its cyclic successor at the last place where that differs from x, and fixed if there is no such place. The result need not be a permutation: Perm([[0, 1], [0, 2]]) sends 1 and 2 to 0, and its cycles attribute raises a KeyError; it is a permutation iff Perm(dict) would accept the same mapping (which otherwise raises a DictError).", "quantifier": "every list of lists of naturals", "why_tests_cant": "The claim ranges over infinitely many inputs; a test can only sample some of them.", "anchors": ["discretehelpers/perm/__init__.py: Perm.__init__ (cycles branch)"]}
{"id": "C04", "title": "Periodic permutations repeat with their period", "statement": "For a periodic Perm built from a permutation of {0..L-1} with perilen=L: p[i + k*L] == p[i] + k*L for all i, k, and on {0..L-1} p is the given permutation - no matter by how much the constructor shortened the period. Construction fails (PerilenTooSmallError) exactly when something is moved, and L < 2 or L <= some moved element; the identity is accepted with each L.", "quantifier": "every permutation, every period length, all indices and repetitions", "why_tests_cant": "The claim ranges over infinitely many inputs; a test can only sample some of them.", "anchors": ["discretehelpers/perm/__init__.py: Perm.__init__, __getitem__", "discretehelpers/perm/a/reduce_period/__init__.py"]}
{"id": "C05", "title": "Perm equality is extensional (period reduction is canonical)", "statement": "For all well-formed permutations p, q (any mix of finite and periodic): p == q iff p[i] == q[i] for all natural numbers i. In particular the period length stored by the constructor is the least one possible.", "quantifier": "all pairs of constructible permutations, all indices", "why_tests_cant": "Requires that the greedy loop over prime factors reaches the least period for every permutation and every period length; tests only look at a handful of period lengths.", "anchors": ["discretehelpers/perm/__init__.py: Perm.__eq__", "discretehelpers/perm/a/reduce_period/__init__.py: reduce_period, block_repeats"]}
{"id": "C06", "title": "Multiplication is function composition", "statement": "(a * b)[i] == a[b[i]] for all i whenever a and b are both finite, both periodic, or one is neutral; a finite and a periodic non-neutral factor raise OtherPerilenMismatchError; no other exception is possible.", "quantifier": "all pairs of constructible permutations, all indices", "why_tests_cant": "The claim ranges over infinitely many inputs; a test can only sample some of them.", "anchors": ["discretehelpers/perm/__init__.py: Perm.__mul__", "discretehelpers/perm/a/broaden_moved/__init__.py"]}
{"id": "C07", "title": "Permutations of one kind form a group under * and inverse", "statement": "For finite perms and for periodic perms: (a*b)*c == a*(b*c); Perm()*a == a == a*Perm(); a*a.inverse == Perm() == a.inverse*a, (a*b).inverse == b.inverse*a.inverse, a.inverse.inverse == a; and none of these expressions raises.", "quantifier": "all triples of constructible permutations of the same kind", "why_tests_cant": "The claim ranges over infinitely many inputs; a test can only sample some of them.", "anchors": ["discretehelpers/perm/__init__.py: Perm.__mul__, __eq__", "discretehelpers/perm/metributes/inverse.py"]}
{"id": "C08", "title": "Powers", "statement": "p**n for every integer n never raises and (p**n) applied to i is the n-fold (for negative n: (-n)-fold inverse) iterate; hence p**(m+n) == p**m * p**n and p**(m*n) == (p**m)**n.", "quantifier": "all permutations, all integers m, n", "why_tests_cant": "The claim ranges over infinitely many inputs; a test can only sample some of them.", "anchors": ["discretehelpers/perm/__init__.py: Perm.__pow__"]}
{"id": "C09", "title": "order is the least positive exponent giving the identity", "statement": "For each permutation whose order is below 2**63 (C165 says what happens otherwise): p**p.order == Perm(), p.order >= 1, and for every n, p**n == Perm() iff p.order divides n.", "quantifier": "all permutations with an order below 2**63, all exponents", "why_tests_cant": "The claim ranges over infinitely many inputs; a test can only sample some of them.", "anchors": ["discretehelpers/perm/metributes/order.py", "discretehelpers/perm/metributes/cycles.py"]}
{"id": "C10", "title": "cycles is the disjoint cycle decomposition, canonical, and round-trips", "statement": "p.cycles terminates without error, lists every moved element exactly once, each cycle starts with its smallest element, has length >= 2, lists successive images, cycles are ordered by first element; Perm(p.cycles, p.perilen) == p.", "quantifier": "all permutations", "why_tests_cant": "The claim ranges over infinitely many inputs; a test can only sample some of them.", "anchors": ["discretehelpers/perm/metributes/cycles.py"]}
{"id": "C11", "title": "sequence() round-trips and extends by fixed points / periods", "statement": "p.sequence(n)[i] == p[i] for every i < n; for finite p it fails iff n < p.length, for periodic p iff n is not a multiple of p.perilen; Perm(p.sequence(n)) == p for finite p and Perm(p.sequence(n), perilen=n) == p for periodic p (n > 0).", "quantifier": "all permutations, all lengths", "why_tests_cant": "The claim ranges over infinitely many inputs; a test can only sample some of them.", "anchors": ["discretehelpers/perm/__init__.py: Perm.sequence"]}
{"id": "C12", "title": "apply_on_vector is a left group action", "statement": "For a vector v whose length is compatible with p: p.apply_on_vector(v)[p[i]] == v[i]; (a*b).apply_on_vector(v) == a.apply_on_vector(b.apply_on_vector(v)); the result is a rearrangement of v.", "quantifier": "all permutations, all vectors of any entry type", "why_tests_cant": "The claim ranges over infinitely many inputs; a test can only sample some of them.", "anchors": ["discretehelpers/perm/__init__.py: Perm.apply_on_vector"]}
{"id": "C13", "title": "str/hash are consistent with ==", "statement": "p == q iff str(p) == str(q); in particular equal permutations have equal hashes and can be used as dict keys or set members.", "quantifier": "all pairs of constructible permutations", "why_tests_cant": "The claim ranges over infinitely many inputs; a test can only sample some of them.", "anchors": ["discretehelpers/perm/__init__.py: Perm.__str__, __hash__"]}
{"id": "C14", "title": "Inversion counts are inverse to the decoders", "statement": "For every permutation sequence s of 0..n-1, right_inversion_count_to_permutation(right_inversion_count(s)) == s and left_inversion_count_to_permutation(left_inversion_count(s)) == s. Conversely for every vector v with v[i] <= i, left_inversion_count_to_permutation(v) is a permutation whose left inversion count is v (and symmetrically right with v[i] < n-i).", "quantifier": "all permutations of all lengths, all inversion count vectors", "why_tests_cant": "The claim ranges over infinitely many inputs; a test can only sample some of them.", "anchors": ["discretehelpers/perm/a/inversion_related_vectors/__init__.py"]}
{"id": "C15", "title": "int_to_perm and left_rank are mutually inverse bijections between naturals and finite permutations", "statement": "int_to_perm(n).left_rank == n for every natural n, and int_to_perm(p.left_rank) == p for every finite permutation p. left_rank raises PermNotFiniteError exactly for periodic permutations.", "quantifier": "all natural numbers, all finite permutations", "why_tests_cant": "The claim ranges over infinitely many inputs; a test can only sample some of them.", "anchors": ["discretehelpers/a/int_to_perm/__init__.py", "discretehelpers/a/int_to_factoradic/__init__.py", "discretehelpers/perm/metributes/ranks/left_rank.py"]}
{"id": "C16", "title": "inversion_set determines a finite permutation; parity is multiplicative", "statement": "inversion_set_to_permutation(p.inversion_set) gives back p for every finite p; inversion_set_to_count of that set gives p's left and right inversion counts; parity(a*b) == (parity(a)+parity(b)) mod 2 for all finite a, b.", "quantifier": "all finite permutations", "why_tests_cant": "The claim ranges over infinitely many inputs; a test can only sample some of them.", "anchors": ["discretehelpers/perm/metributes/inversion_set/__init__.py", "discretehelpers/perm/metributes/parity/__init__.py", "discretehelpers/perm/a/inversion_related_vectors/__init__.py"]}
{"id": "C17", "title": "cycle_partition joins exactly the elements of the same orbit", "statement": "p.cycle_partition is a partition of N. Two different naturals a, b are in the same block iff some power of p maps a to b and, for periodic p, a is in the first period.", "quantifier": "all permutations, all pairs of naturals", "why_tests_cant": "Orbits are unbounded iterations of arbitrary permutations; the equivalence must hold for every permutation and every pair of naturals.", "anchors": ["discretehelpers/perm/metributes/cycle_partition/__init__.py"]}
{"id": "C18", "title": "cycles_dynamic are the cycles of the repeated pattern", "statement": "For periodic p and n = k*p.perilen: Perm(p.cycles_dynamic(n), perilen=n) == p; every moved element below n occurs exactly once. Non-multiples raise LengthMismatchPerilenError, finite p raises NotPeriodicError.", "quantifier": "all periodic permutations, all lengths", "why_tests_cant": "The claim ranges over infinitely many inputs; a test can only sample some of them.", "anchors": ["discretehelpers/perm/__init__.py: Perm.cycles_dynamic"]}
{"id": "C19", "title": "int_to_exposet / exposet_to_int / vector_to_int", "statement": "exposet_to_int(int_to_exposet(n)) == n for every natural n; int_to_exposet(exposet_to_int(s)) == s for every strictly ascending list s; i is in int_to_exposet(n) iff bit i of n is set; int_to_weight(n) == len(int_to_exposet(n)); vector_to_int sums 2**i over the places of ones.", "quantifier": "all naturals, all finite sets of naturals, all binary vectors", "why_tests_cant": "The claim ranges over infinitely many inputs; a test can only sample some of them.", "anchors": ["discretehelpers/a/_binary/__init__.py"]}
{"id": "C20", "title": "Evil and odious numbers", "statement": "index_to_evil is a strictly monotone bijection from the naturals to the numbers with even binary weight, evil_to_index is its inverse and rejects exactly the odious numbers; the same for odious. Every natural is exactly one of the two.", "quantifier": "all natural numbers", "why_tests_cant": "The claim ranges over infinitely many inputs; a test can only sample some of them.", "anchors": ["discretehelpers/a/evil_odious/__init__.py"]}
{"id": "C21", "title": "int_to_factoradic is the factorial number system", "statement": "Digit i of int_to_factoradic(n) is at most i, the sum of digit_i * i! is n, and the last digit is nonzero for n > 0; the representation is unique.", "quantifier": "all natural numbers", "why_tests_cant": "The claim ranges over infinitely many inputs; a test can only sample some of them.", "anchors": ["discretehelpers/a/int_to_factoradic/__init__.py"]}
{"id": "C22", "title": "Logical negation of signed integers", "statement": "logic_negate is an involution; logic_abs is idempotent and invariant under negation; logic_negate_vector(where=...) applied twice is the identity and negates exactly the chosen places; logic_negate_vector(which=...) negates exactly the entries whose absolute value is chosen, fails iff a chosen value does not occur; logic_abs_increase keeps the sign and shifts the absolute value; logic_str is injective. logic_abs_increase_vector does the same place by place, and shifting back by the opposite vector gives the original again; vectors of different lengths, or an absolute value that would become negative, raise ArgValueError. With want_string=True it gives the string of the same vector. Flags 0 and 1 act like the booleans. (Exception: the flag '0' is accepted, but it is a string that is not empty, so it negates like '1'.)", "quantifier": "all integers, all vectors, all selections", "why_tests_cant": "The claim ranges over infinitely many inputs; a test can only sample some of them.", "anchors": ["discretehelpers/a/logic_negate/__init__.py:6-57", "discretehelpers/a/logic_abs/__init__.py", "discretehelpers/a/logic_abs_increase/__init__.py:6-35", "discretehelpers/a/logic_str/__init__.py"]}
{"id": "C23", "title": "vector_zip_apart and vector_zip_together are inverse", "statement": "For a vector and a pattern of natural numbers of the same non-zero length, part k of vector_zip_apart(vector, pattern) lists in order the entries whose pattern entry is k, and vector_zip_together(vector_zip_apart(vector, pattern), pattern) == vector; conversely, taking apart what vector_zip_together(short_vectors, pattern) returned gives the short vectors back, provided the last of them is not empty (empty ones at the end leave no trace in the pattern). Unequal lengths and negative pattern entries are rejected.", "quantifier": "all vectors, all patterns, all lists of short vectors", "why_tests_cant": "The round trip has to hold for every interleaving of entries; a test tries a handful of patterns.", "anchors": ["discretehelpers/a/vector_zip_apart/__init__.py", "discretehelpers/a/vector_zip_together/__init__.py"]}
{"id": "C24", "title": "prime_factors is the prime factorisation", "statement": "For every n >= 1 the keys of prime_factors(n) are primes, all exponents are positive and the product of key**exponent is n; with expected_factors the exponents are listed in ascending order of factor and UnexpectedFactorError is raised iff some prime factor is not expected.", "quantifier": "all positive integers, all sets of expected factors", "why_tests_cant": "The claim ranges over infinitely many inputs; a test can only sample some of them.", "anchors": ["discretehelpers/a/prime_factors/__init__.py", "discretehelpers/a/inventory_dict/__init__.py"]}
{"id": "C25", "title": "integer_determinant is the determinant", "statement": "For every square integer matrix integer_determinant(M) equals the Leibniz determinant; the divisibility assertion in the elimination never fails.", "quantifier": "all integer matrices of all sizes", "why_tests_cant": "Exact divisibility in fraction-free elimination is an identity about minors of arbitrary matrices; tests only try particular matrices.", "anchors": ["discretehelpers/a/integer_determinant/__init__.py"]}
{"id": "C26", "title": "Binv: the three construction forms agree and round-trip", "statement": "Binv(exposet=b.exposet, length=b.length) == b and Binv(b.string) == b for all b, Binv(intval=b.intval, length=b.length) == b for all non-empty b (for the empty one the result is the vector 0 of length 1); for positive L, Binv(intval=n, length=L) has length L and intval n, and fails with LengthError iff n >= 2**L; without length the result has no unnecessary digit; b.intval == sum of 2**i over b.exposet; b.weight == len(b.exposet); ArgumentError is raised iff not exactly one of vector, intval, exposet is given, or length beside vector. A list or string is accepted iff all its entries are 0 or 1 (spaces in strings are ignored), otherwise VectorEntryError; negative intvals raise IntvalError; Binv(exposet=x, minimal_length=m) for non-empty x has exposet x and the least length that is at least m and exceeds all elements. (Binary lengths of integers are taken to be exact; C163 and C166 show where floating point errors spoil this, which needs integers from 2**44 on.)", "quantifier": "all binary vectors, all naturals, all lengths", "why_tests_cant": "The three representations have to agree for every length and value; an off-by-one in padding or bit order shows only for some combinations.", "anchors": ["discretehelpers/binv/__init__.py: Binv.__init__", "discretehelpers/binv/metributes/intval.py", "discretehelpers/binv/metributes/exposet.py"]}
{"id": "C27", "title": "Binv bitwise operations form a Boolean algebra and match integers", "statement": "For equal lengths &, |, ^, ~ act bitwise, satisfy the Boolean algebra laws and agree with &, |, ^ on intval (~ with 2**length-1-intval); bitwise_smaller is a strict partial order and holds iff the exposet is a proper subset.", "quantifier": "all pairs/triples of binary vectors of equal length", "why_tests_cant": "Algebraic laws quantify over triples of vectors of every length.", "anchors": ["discretehelpers/binv/methods/bitwise.py", "discretehelpers/binv/metributes/complement.py"]}
{"id": "C28", "title": "Binv comparison is a total order; str and hash respect equality", "statement": "<, <=, >, >= form a total (lexicographic) order consistent with ==; a == b iff str(a) == str(b).", "quantifier": "all binary vectors of any lengths", "why_tests_cant": "Injectivity of str (hence agreement of hash and ==) quantifies over pairs of vectors of any two lengths, including the switch of format at length 16 and the complement form.", "anchors": ["discretehelpers/binv/methods/comparisons.py", "discretehelpers/binv/methods/str.py"]}
{"id": "C29", "title": "Atom patterns and linear Boolean functions", "statement": "Entry i of make_atompattern(a, n) is bit a of i (negated for ~a). Entry i of make_linear_binv(w, n, parity) is the parity of the weight of w & i, xor parity; the coordinates leader and quadrant denote the same functions. With prefab_atom_patterns of length 2**n the result is the sum modulo 2 of the patterns at the digits 1 of w, xor parity; an empty list or one too short for w raises an IndexError, a first pattern of another length an ArgValueError. walsh_function_to_index(make_linear_binv(w, n)) == w with and without trust. Without trust, a vector of length 2**n (n > 0) is accepted iff it is a linear function without constant term, and otherwise NotWalshRowError is raised. A vector of length 1 that is not [0] raises an IntvalError, lengths that are no powers of two a ValueError.", "quantifier": "all arities, all Walsh indices, all lists of patterns, all binary vectors of length 2**n", "why_tests_cant": "For arity n there are 2**(2**n) vectors that could wrongly be accepted; the tests of the repository cover a few arities.", "anchors": ["discretehelpers/a/_atompatterns/__init__.py", "discretehelpers/a/make_linear_binv/__init__.py", "discretehelpers/a/walsh_function_to_index/__init__.py:12-45"]}
{"id": "C30", "title": "Walsh index/parity and leader/quadrant are two equivalent coordinates of linear functions", "statement": "linear_to_walsh_and_oddness(make_linear_binv(w, n, p)) == (w, p) and linear_to_leader_and_quadrant(make_linear_binv(leader=l, quadrant=q, arity=n)) == (l, q). Conversely the coordinates returned for a vector (without trust) give back this vector.", "quantifier": "all arities above 0, indices, parities and quadrants; all binary vectors whose length is a power of two", "why_tests_cant": "The inverse pair of translations must agree on infinitely many coordinates and vectors, at every arity.", "anchors": ["discretehelpers/a/_linear_to_index_pair/__init__.py:22-40", "discretehelpers/a/make_linear_binv/__init__.py"]}
{"id": "C31", "title": "The construction forms of SigPerm agree; which lists are accepted; when objects are equal", "statement": "SigPerm(sequence=l) succeeds iff the absolute values of l (n for n and ~n) are 0..len-1 in some order (else SequenceError), and then its entries are those of l followed by fixed points. sequence(n) works iff n >= length (else ValueError) and its entries do not depend on n; length is the least number from which on everything is fixed. With valneg b the entry p[i] is negated iff b has a 1 at p[i], with keyneg b iff b has a 1 at i. Rebuilding from sequence(n), from matrix(n), from pair, from (valneg_index, perm_index) and from (keyneg_index, perm_index) gives the same entries, and every pair of naturals is the pair of one signed permutation. Objects are equal iff they have the same entries and are neutral or have negators of equal length; the negator has the length of the object unless an over-long valneg was passed (then `==` is False although all entries agree). Non-square matrices raise ValueError, but a square matrix is not checked to be a signed permutation matrix. A pair together with any other argument is always rejected; if the lists and sets among the arguments are valid, the exception is ArgComboError only if no argument is a Binv, a Perm or a matrix with more than one entry. Otherwise the comparison with None in have_only raises first: AssertionError if valneg or keyneg is a Binv, else OtherNotPermError if perm is a Perm, else ValueError for the matrix. A negative valneg_index, keyneg_index, perm_index or number in a pair is always rejected, whatever the other arguments are; for a pair (v, r), and for the corresponding indices, a negative v is the IntvalError of Binv, and a negative r with natural v is a ValueError.", "quantifier": "all lists of integers, all binary vectors, all finite permutations, all signed permutations built by any constructor call from a finite permutation, all sizes n, all pairs of naturals, all combinations of a pair with other arguments, all combinations of a negative index with other arguments", "why_tests_cant": "There are 2^n n! signed permutations of each length and infinitely many lengths; the round trips run through five independent encodings (ranks, factoradics, matrices, two kinds of negators), and the over-long valneg exception was only found because the equality statement had to be proved for all constructor calls.", "anchors": ["discretehelpers/sig_perm/__init__.py: SigPerm.__init__, __getitem__, __eq__, sequence, matrix", "discretehelpers/sig_perm/metributes/sequence_minimal.py", "discretehelpers/sig_perm/metributes/_indices/__init__.py", "discretehelpers/sig_perm/a/matrix_to_sequence", "discretehelpers/sig_perm/a/sequence_to_matrix", "discretehelpers/a/have_only/__init__.py:4-18"]}
{"id": "C32", "title": "SigPerm multiplication is composition of signed maps; inverse is the group inverse", "statement": "s * t is defined for all finite signed permutations and its entry at i is s applied to t[i], where s sends ~j to ~s[j]. The product is associative, a neutral object is neutral for it on both sides, s.inverse undoes s on both sides, has the same length as s and its inverse has the entries of s, and (s * t).inverse == t.inverse * s.inverse.", "quantifier": "all finite signed permutations s, t, r, also of different lengths, and all signed integers", "why_tests_cant": "Group laws relate triples of objects of arbitrary different lengths; tests only sample triples, and errors in padding the matrices to a common size show only for particular combinations.", "anchors": ["discretehelpers/sig_perm/__init__.py: SigPerm.__mul__, matrix", "discretehelpers/sig_perm/metributes/inverse.py", "discretehelpers/sig_perm/a/matrix_to_sequence", "discretehelpers/sig_perm/a/sequence_to_matrix"]}
{"id": "C33", "title": "SigPerm acts on vectors and on natural numbers", "statement": "s.apply_on_vector(v) succeeds iff len(v) >= s.length (else ValueError), keeps the length, and moves the element at i to the place s[i] unchanged or to the place ~s[i] negated (~). s.apply_on_natural_number(n) does the same to the binary digits of n, for every natural n, and rejects negative n. Both are left actions: s * t acts like t followed by s, and s.inverse undoes s; numbers below 2^k stay below 2^k for every k >= s.length.", "quantifier": "all finite signed permutations, all vectors of integers of any length, all integers n", "why_tests_cant": "The direction of the action (place s[i] versus place inverse[i]) and the order of composition agree on involutions and small samples; only a proof over all lengths and all numbers separates them.", "anchors": ["discretehelpers/sig_perm/__init__.py: SigPerm.apply_on_vector, apply_on_natural_number", "discretehelpers/sig_perm/metributes/inverse.py"]}
{"id": "C34", "title": "Walsh permutations are exactly the invertible linear maps on binary digits", "statement": "A 0/1 matrix is accepted by WalshPerm iff it is invertible mod 2 (exception: diag(0, 1, …, 1) is silently taken for the neutral element); digit i of w[x] is then entry i of the product of the matrix with the digits of x. A vector with entries below 2**length is accepted iff no nonempty selection of its entries has xor 0 (exception [0, 2, 4, …]), and w[2**k] == vector[k]. A list is accepted as perm iff it is a permutation of length 2**n with l[i ^ j] == l[i] ^ l[j], and then w[i] == l[i]. All other inputs raise the documented exceptions. Every WalshPerm is a bijection with w[i ^ j] == w[i] ^ w[j], and every linear bijection of finitely many digits is a WalshPerm. The argument trust=True only postpones the check of a matrix or vector to the first read of mapping, and every input that is accepted without it gives the same object with it; but a permutation that is not linear can then be taken for another one. (Binary lengths of integers are taken to be exact; C163 and C166 show where floating point errors spoil this, which needs integers from 2**44 on.)", "quantifier": "all matrices, vectors and permutations of all sizes, all naturals as arguments", "why_tests_cant": "The number of binary matrices grows as 2**(n*n) and invertibility is a global condition; no finite set of matrices covers acceptance and rejection for every degree.", "anchors": ["discretehelpers/walsh_perm/__init__.py:15-49", "discretehelpers/walsh_perm/metributes/mapping/__init__.py:13-32", "discretehelpers/walsh_perm/a/perm_to_matrix/__init__.py:14-48", "discretehelpers/walsh_perm/a/vector_to_matrix/__init__.py:9-20", "discretehelpers/walsh_perm/a/shrink_matrix/__init__.py:9-29"]}
{"id": "C35", "title": "WalshPerm product is composition, inverse and transpose behave like matrices", "statement": "(a*b)[i] == a[b[i]], also when b is a Perm (periodic or neutral; otherwise the mismatch error is raised). a.inverse is the inverse function and a*a.inverse is neutral, in both branches of the computation (integer inverse and inverse permutation). a**n is the n-th power for every integer n. The transpose has the transposed matrix, a.transpose.transpose == a, (a*b).transpose == b.transpose*a.transpose, and the weights of a[x] & y and x & a.transpose[y] have the same parity. The determinant is that of the minimal matrix and odd.", "quantifier": "all Walsh permutations that can be constructed, all exponents, all naturals", "why_tests_cant": "The group laws quantify over all pairs of invertible binary matrices of all degrees; the branch for inverses that are not integral occurs only for matrices with determinant other than 1 and -1.", "anchors": ["discretehelpers/walsh_perm/__init__.py:77-90", "discretehelpers/walsh_perm/metributes/inverse/__init__.py:8-28", "discretehelpers/walsh_perm/metributes/transpose/__init__.py:4-11", "discretehelpers/walsh_perm/metributes/determinant/__init__.py:6-11"]}
{"id": "C36", "title": "WalshPerm degree is minimal and equality is extensional", "statement": "Two Walsh permutations are equal iff they are the same function, and a Walsh permutation equals a Perm iff they are the same function; so w == Perm(w.sequence(), perilen=w.perilen). The degree is minimal: 2**n is a period of w iff n >= degree; the degree is never 1, and it is 0 iff w is the identity. matrix(n), vector(n), transpose_vector(n), sequence and cycles_dynamic with degree or length have the right entries for n >= degree and raise RequestedDegreeSmallerActualDegreeError below; the permutation can be rebuilt from each of matrix(n), vector(n), sequence(degree=n). w[w.complement_pattern(n)] == 2**n - 1, and w.complement_pattern(n) == 2**n - 1 - w.complement_distance for each n >= degree; complement_distance is 0 iff w fixes 2**degree - 1.", "quantifier": "all Walsh permutations that can be constructed, all requested degrees", "why_tests_cant": "Minimality and extensional equality are statements about all naturals and about all pairs of permutations, however they were constructed.", "anchors": ["discretehelpers/walsh_perm/a/shrink_matrix/__init__.py:9-29", "discretehelpers/walsh_perm/a/vector_class/__init__.py:6-47", "discretehelpers/walsh_perm/__init__.py:69-110", "discretehelpers/walsh_perm/methods/matrix/__init__.py", "discretehelpers/walsh_perm/methods/complement_pattern/__init__.py", "discretehelpers/walsh_perm/metributes/complement_distance/__init__.py:4-15"]}
{"id": "C37", "title": "SetPart construction is canonical and equality means same equivalence relation", "statement": "SetPart(blocks, domain) fails with DuplicateElementsError iff two non-singleton blocks overlap or a non-singleton block repeats an element; otherwise two different elements a, b are in the same block iff some given block contains both. The blocks are stored without singletons, each sorted, in sorted order. Two SetParts with the same domain are equal iff they join the same pairs; different domains raise DomainsNotEqualError. (The constructor does not check that the elements are in the domain.)", "quantifier": "all lists of blocks, all domains, all pairs of elements", "why_tests_cant": "Equality is decided by comparing sorted block lists; that this means the same equivalence relation needs an argument about every possible way to write down the blocks.", "anchors": ["discretehelpers/set_part/__init__.py"]}
{"id": "C38", "title": "merge histories compute the equivalence closure", "statement": "After any sequence of merge_pair/merge_many calls on an unlabelled partition, a and b are in the same block iff they are connected by the initial blocks and merged pairs; the object stays well-formed (blocks sorted, disjoint, no singletons); the result does not depend on the order of the calls.", "quantifier": "all starting partitions, all finite histories of merges", "why_tests_cant": "Histories are unbounded and the state is rebuilt in place by re-running __init__ on mutated lists.", "anchors": ["discretehelpers/set_part/methods/merge_pair/__init__.py", "discretehelpers/set_part/methods/merge_many/__init__.py"]}
{"id": "C39", "title": "meet is the coarsest common refinement", "statement": "a, b are joined in p.meet(q) iff they are joined in p and in q; meet fails iff the domains differ; it agrees with the pairwise prototype, if the stored pairs are not outdated and the elements of p are in the domain.", "quantifier": "all pairs of partitions", "why_tests_cant": "The claim ranges over infinitely many inputs; a test can only sample some of them.", "anchors": ["discretehelpers/set_part/methods/meet_and_join/meet.py"]}
{"id": "C40", "title": "join is the finest common coarsening", "statement": "Two different elements are joined in p.join(q) iff they are connected by a chain of blocks of p and q, in whatever order the set of elements is traversed. join never fails. Its blocks are those found by _join_prototype (if pairs are not outdated and elements are in the domain) and by _join_prototype_improved (for natural numbers). The result always has domain 'N', even if p and q have a different domain.", "quantifier": "all pairs of partitions, all iteration orders of the set of elements", "why_tests_cant": "The result is the fixed point of a loop whose number of rounds and whose order of set iteration are not bounded.", "anchors": ["discretehelpers/set_part/methods/meet_and_join/join/_1_fast.py: join", "discretehelpers/set_part/methods/meet_and_join/join/_0_prototypes.py: _join_prototype, _join_prototype_improved"]}
{"id": "C41", "title": "Partitions form a lattice under <=, meet, join", "statement": "For partitions of the natural numbers p <= q iff p refines q; <= is a partial order, p < q means p <= q and p != q; meet and join satisfy the lattice laws (idempotent, commutative, associative, absorption), meet is the greatest lower bound and join the least upper bound. For all other domains p <= q raises DomainsNotEqualError, even for equal domains.", "quantifier": "all triples of partitions", "why_tests_cant": "Associativity and the bounds are statements about all triples of partitions of an infinite set.", "anchors": ["discretehelpers/set_part/__init__.py: __le__, __lt__"]}
{"id": "C42", "title": "Derived attributes of SetPart describe the partition at the time of the first read", "statement": "After any history of merges, refinements and label additions the first read of pairs, intval or singletons describes the current partition; the first read of canonical_blocks_with_singletons (each label addition counts as one) gives blocks_with_singletons() of the current partition. The values of pairs, intval and singletons that were read first are returned by all later reads, whatever merges happen in between, so they become outdated: equal partitions can have different intval. A stored canonical_blocks_with_singletons can even become a list that describes neither the old nor the new partition.", "quantifier": "all histories of changes interleaved with reads", "why_tests_cant": "Whether a cached value is stale depends on the history of reads and mutations.", "anchors": ["discretehelpers/set_part/metributes/pairs/__init__.py", "discretehelpers/set_part/metributes/intval/__init__.py", "discretehelpers/set_part/metributes/singletons/__init__.py", "discretehelpers/set_part/metributes/canonical_blocks_with_singletons/__init__.py"]}
{"id": "C43", "title": "intval identifies a partition of the naturals", "statement": "pairs is exactly the set of pairs a < b joined by the partition; bit a + (0 + ... + (b-1)) of intval tells whether a < b are joined, so two partitions of N are equal iff their intval is equal (values not outdated, see C42).", "quantifier": "all pairs of partitions", "why_tests_cant": "Injectivity of intval is a statement about all pairs of partitions of an infinite set.", "anchors": ["discretehelpers/set_part/metributes/intval/__init__.py", "discretehelpers/set_part/metributes/pairs/__init__.py"]}
{"id": "C44", "title": "Block labels stay a bijection between labelled blocks and labels", "statement": "After any history of merge_pair, merge_many, add_label_to_element, reads, and add_label_to_block for existing blocks, every label belongs to exactly one existing block and different blocks have different labels. get_block_from_element finds the current block of an element that has a label, and None for one that has none. A merge gives the united block the label of whichever part had one and leaves all other labels alone. If both parts have a label it raises LabelContradictionError and nothing changes. Labelling an element with a used label merges the two blocks. Labelling different elements of a finite domain one after the other, starting without blocks, never raises an exception: two elements end up in the same block iff they were given the same label, the labels are those given, and the block of a label is the ascending list of the elements with it. For a partition whose only block is the whole domain, a label for one element is the label of all. (Exceptions: add_label_to_block checks blocks in a cached list, so after merges it may accept a block that no longer exists and reject one that does; merge_many on the trivial partition drops the labels of singletons.)", "quantifier": "all histories of calls", "why_tests_cant": "The label dictionary is keyed by blocks, which every merge changes; that keys stay blocks is an invariant over unbounded histories.", "anchors": ["discretehelpers/set_part/methods/block_labels/__init__.py", "discretehelpers/set_part/methods/merge_pair/__init__.py"]}
{"id": "C45", "title": "SetPartComp computes exactly the consequences of the equalities and complementarities entered", "statement": "Start with SetPartComp() or SetPartComp(blocks, pairs), where no pair repeats an element and pairs that share a block are the same pair of blocks. After any history of set_equal and set_comp calls with different arguments (in any iteration order of the set comp_pairs), for different a, b: are_equal(a, b) iff equality follows from the facts entered so far, and are_comp(a, b) iff complementarity follows. A call is accepted iff its fact does not contradict the previous ones; otherwise SetEqualComplementsError or SetCompEqualsError is raised and the object is unchanged. get_comp(a) is the smallest complement, or None if there is none.", "quantifier": "all constructor arguments of that kind, all histories of calls, all iteration orders, all pairs of integers", "why_tests_cant": "Unbounded histories; the bookkeeping of representatives after merges has four cases, each of which renames the stored pairs.", "anchors": ["discretehelpers/set_part_comp/__init__.py", "discretehelpers/set_part_comp/methods/set_equal/__init__.py", "discretehelpers/set_part_comp/methods/set_comp/__init__.py"]}
{"id": "C46", "title": "An element is never its own complement", "statement": "No history of set_equal and set_comp calls with different arguments leads to a state where are_comp(a, a) holds. (With equal arguments this fails: set_comp(a, a) is accepted for a singleton, and set_equal(a, a) for a singleton with a complement raises KeyError and forgets the complement.)", "quantifier": "all histories, all elements", "why_tests_cant": "An invariant of unbounded histories: each of the branches of set_equal and set_comp rewrites the stored pairs, and a wrong representative after a long chain of merges could pair a block with itself.", "anchors": ["discretehelpers/set_part_comp/methods/set_comp/__init__.py"]}
{"id": "C47", "title": "int_matches tells whether binary digits satisfy a SetPartComp", "statement": "After any history like in C45, int_matches(n) returns True iff the binary digits of n satisfy all equalities and complementarities entered so far (elements that are negative or beyond the length have digit 0). It never raises an exception.", "quantifier": "all histories, all natural numbers", "why_tests_cant": "It relates every history to every integer; the length passed to Binv depends on both, and an error would show only for special combinations (like n = 0 without any facts).", "anchors": ["discretehelpers/set_part_comp/methods/int_matches/__init__.py"]}
{"id": "C48", "title": "Boolf is canonical: equality is equality of functions", "statement": "For every object returned by the constructor without skip_deflation: f[key] has a value for each key; two objects are equal (==) iff they have the same value for every key, and then all their attributes agree; the stored atoms are ascending and are exactly those x for which flipping bit x of some key changes the value; valency is their number, adicity one more than the largest of them (0 for none); is_constant holds iff the value is the same for all keys.", "quantifier": "all objects built by any constructor path (truth tables, fullspots, atoms, multi_*, zhe, Walsh spectra) of all arities, all keys", "why_tests_cant": "The number of tables of arity n is 2**2**n, so tests cover arities up to 3 or 4 at most; deflation has to remove all and only the inessential atoms for every table and atom list.", "anchors": ["discretehelpers/boolf/__init__.py:10-44", "discretehelpers/boolf/a/deflate/__init__.py", "discretehelpers/boolf/a/reorder_if_atomvals_not_asc/__init__.py", "discretehelpers/boolf/subinit_methods/tt/__init__.py:9-71"]}
{"id": "C49", "title": "Boolf operators are pointwise", "statement": "The value of f & g, f | g, f ^ g, ~f for a key is the Boolean combination of the values of f and g for that key, also when f and g use different atoms, and also for operands built with skip_deflation; the result is canonical. As a consequence the operators are commutative, associative, idempotent (& and |), distributive (& over ^) and fulfil De Morgan's law up to equality of objects.", "quantifier": "all pairs of Boolean functions, all assignments", "why_tests_cant": "Operands can have any atoms, so the tables that are combined have any arity; the claim is about all pairs of functions and all keys.", "anchors": ["discretehelpers/boolf/methods/bitwise/__init__.py:4-33,52-53", "discretehelpers/boolf/metributes/complement/__init__.py"]}
{"id": "C50", "title": "The twin (Moebius/Zhegalkin) transform is an involution and gives the algebraic normal form", "statement": "f.twin(n), for n at least the adicity, is a function whose value at j < 2**n is the parity of the number of true places i of f with i & j == i; f.twin(n).twin(n) == f; twin is linear ((f^g).twin(n) == f.twin(n) ^ g.twin(n)); smaller n raise an AssertionError. f.zhe is the algebraic normal form: f[key] is the parity of the number of binary exponents k of f.zhe with k & key == k; Boolf(zhe=z).zhe == z for every natural z and Boolf(zhe=f.zhe) == f; negative zhe is rejected. twin of integers and of vectors is an involution for the right sizes and raises an exception for others. For an object made with skip_deflation the values of twin and zhe are the same, and f.twin(n).twin(n) and Boolf(zhe=f.zhe) have the values of f, but they are equal to f iff f is not inflated. (Binary lengths of integers are taken to be exact; C163 and C166 show where floating point errors spoil this, which needs integers from 2**44 on.)", "quantifier": "all Boolean functions (also inflated ones where stated), all arities, all keys, all integers and vectors", "why_tests_cant": "The number of functions of arity n is 2**2**n; an index error in the subset sums would show up only for higher arities.", "anchors": ["discretehelpers/boolf/a/twin_misc/__init__.py", "discretehelpers/boolf/methods/twin/__init__.py", "discretehelpers/boolf/metributes/zhe/__init__.py", "discretehelpers/boolf/subinit_methods/zhe/__init__.py", "discretehelpers/boolf/a/intval_to_arity/__init__.py"]}
{"id": "C51", "title": "truth tables: tt(arity), reading entries, and extension", "statement": "f.tt(n) for n >= adicity has 2**n entries, and entry i is f[i]; smaller n raise ArgTooSmall, negative n ValueError. f.tt(S) for a set S of atoms that includes those of f has entry i equal to f[key] when bit j of i is the bit of key for the j-th element of sorted S; other sets raise ArgMismatch. Boolf(f.tt(n)) and Boolf(f.tt(n).intval, arity=n) equal f. (Binary lengths of integers are taken to be exact; C163 and C166 show where floating point errors spoil this, which needs integers from 2**44 on.)", "quantifier": "all Boolean functions, all arities (Boolean functions are made without skip_deflation)", "why_tests_cant": "All functions of all arities and all supersets of their atoms.", "anchors": ["discretehelpers/boolf/methods/tt/__init__.py", "discretehelpers/boolf/subinit_methods/tt/__init__.py:28-34"]}
{"id": "C52", "title": "complement, reverse and quadrant", "statement": "reverse has for each key the value of f for the key with all atoms of f flipped; complement and reverse are commuting involutions that keep the atoms, and the complement is never equal to the function; quadrant is f[0] + 2 * f[key] for a key in which all atoms are true.", "quantifier": "all Boolean functions (Boolean functions are made without skip_deflation)", "why_tests_cant": "All functions of all arities; the tables grow as 2**n.", "anchors": ["discretehelpers/boolf/metributes/complement/__init__.py", "discretehelpers/boolf/metributes/reverse/__init__.py", "discretehelpers/boolf/metributes/quadrant/__init__.py"]}
{"id": "C53", "title": "Bitwise comparison of Boolean functions", "statement": "f.bitwise_le(g) iff g is true for every key for which f is true; bitwise_lt is the same for unequal functions; bitwise_ge and bitwise_gt are both the converse of bitwise_le, so that f.bitwise_gt(f) is True. bitwise_le is a partial order with the constants as bottom and top.", "quantifier": "all pairs of Boolean functions (Boolean functions are made without skip_deflation)", "why_tests_cant": "All pairs of functions with any atoms.", "anchors": ["discretehelpers/boolf/methods/bitwise/__init__.py:4-21,36-49"]}
{"id": "C54", "title": "right_rank is the lexicographic rank among permutations of equal length", "statement": "For finite permutations p, q with the same length: p.right_rank < q.right_rank iff p.sequence() is lexicographically smaller than q.sequence(); the ranks are equal iff p == q; p.right_rank < p.length!. (Across different lengths the ranks are not unique: Perm([1,0]) and Perm([0,2,1]) both have right_rank 1.)", "quantifier": "all pairs of finite permutations of equal length", "why_tests_cant": "The claim ranges over infinitely many pairs of permutations.", "anchors": ["discretehelpers/perm/metributes/ranks/right_rank.py", "discretehelpers/perm/a/inversion_related_vectors/__init__.py"]}
{"id": "C55", "title": "left_rank orders all finite permutations reverse colexicographically", "statement": "For all finite permutations p, q and every N not below both lengths: p.left_rank < q.left_rank iff reversed(p.sequence(N)) is lexicographically larger than reversed(q.sequence(N)).", "quantifier": "all pairs of finite permutations, all sufficiently large N", "why_tests_cant": "The claim ranges over infinitely many pairs of permutations.", "anchors": ["discretehelpers/perm/metributes/ranks/left_rank.py", "discretehelpers/perm/a/inversion_related_vectors/__init__.py"]}
{"id": "C56", "title": "inventory_dict counts every entry", "statement": "The keys of inventory_dict(list) are the different entries of the list in ascending order, and the value of each key is the number of its occurrences.", "quantifier": "all lists of natural numbers", "why_tests_cant": "The claim ranges over lists of every length and multiplicity pattern; prime_factors and others rely on it for arbitrary input.", "anchors": ["discretehelpers/a/inventory_dict/__init__.py"]}
{"id": "C57", "title": "Binv: reverse, flip_bit, concatenation, changes and pretty", "statement": "reverse reads the digits backwards and is an involution; flip_bit(p) changes exactly digit p (intval ^ 2**p), is an involution, accepts negative positions down to -length and rejects all others; (b + c).intval == b.intval + 2**b.length * c.intval; changes is the number of neighbouring unequal digits and is invariant under complement and reverse; pretty exists exactly for the lengths 1, 2, 4, ..., 64, is string plus spaces, and the constructor reads it back. In pretty the groups of four digits are separated by one space and groups of sixteen by two.", "quantifier": "all binary vectors, all positions", "why_tests_cant": "The laws hold for vectors of every length; tests only try a few short ones.", "anchors": ["discretehelpers/binv/__init__.py: flip_bit, __add__", "discretehelpers/binv/metributes/reverse.py", "discretehelpers/binv/metributes/changes.py", "discretehelpers/binv/a/to_pretty_string/__init__.py"]}
{"id": "C58", "title": "blocks_with_singletons lists the blocks of the requested elements", "statement": "blocks_with_singletons(elements=...), (length=n), (range_pair=(low, high)) and () return, in sorted order and without repetition, exactly the blocks (singletons included) of the elements of the given set, range(n), range(low, high), or by default range(p.length), the span of the non-singletons, or the finite domain. If a non-singleton is not among the elements the corresponding error is raised, and for arguments that do not fit the domain LengthNotAllowedError or RangeNotAllowedError. The trivial partition of Z raises ValueError.", "quantifier": "all partitions with elements in their domain, all arguments", "why_tests_cant": "All partitions times all argument combinations; the error boundary (length, least and greatest element) must be exact for each of them.", "anchors": ["discretehelpers/set_part/methods/blocks_with_singletons/__init__.py: blocks_with_singletons"]}
{"id": "C59", "title": "refine_block splits exactly one block", "statement": "p.refine_block(new_blocks) succeeds iff the elements of new_blocks together (without repetition, in any order) are one of p.blocks. Then elements of that block are joined iff they are in a common new block, and all other pairs stay as they were. Otherwise ArgValueError is raised and nothing changes. With the wrong number of labels an error is raised after the blocks have been changed.", "quantifier": "all partitions, all lists of new blocks", "why_tests_cant": "All partitions times all lists of lists; a test covers a few splits of a few blocks.", "anchors": ["discretehelpers/set_part/methods/refine_block/__init__.py"]}
{"id": "C60", "title": "Outcomes of the SetPartComp constructor", "statement": "SetPartComp(None, pairs) raises CompWithoutPartError. With overlapping blocks DuplicateElementsError is raised, and otherwise PartCompMismatchError iff some pair has both elements in one block of more than one element. Otherwise the object is equal exactly on the blocks, and complementary exactly on the pairs up to order and equality. It draws no conclusions from the pairs: (0, 1), (0, 2) does not make 1 and 2 equal, and the pair (0, 0) is accepted.", "quantifier": "all lists of blocks, all lists of pairs", "why_tests_cant": "The pairs are replaced by pairs of smallest block elements before they are checked; that this loses and adds nothing is a claim about all block structures.", "anchors": ["discretehelpers/set_part_comp/__init__.py"]}
{"id": "C61", "title": "Values derived from a SetPartComp", "statement": "After any history like in C45: related_part joins different elements iff they are equal or complementary; affected_elements is the increasing list of the elements with an equal or complementary other element; length is the last of them plus one (ValueError if there is none); number_of_related_blocks is the size of a system of representatives of them; get_block and get_repr are the equal elements and the smallest of them; all_complement_pairs is the set of pairs x < y with are_comp(x, y); and == holds iff are_equal and are_comp agree on all pairs.", "quantifier": "all histories (for == all pairs of histories), all elements", "why_tests_cant": "The methods read the stored representatives, whose choice depends on the whole history; == compares stored representatives although the claim is about relations on infinitely many elements.", "anchors": ["discretehelpers/set_part_comp/__init__.py", "discretehelpers/set_part_comp/methods/all_complement_pairs/__init__.py"]}
{"id": "C62", "title": "SigPerm strings, flags and comparison with Perm describe the entries", "statement": "str(s) == str(t) iff s and t have the same entries (so hash agrees with the entries). sequence_string(n) shows the first n entries, with ~ before the complement of a negative one, separated by commas, in square brackets or round parentheses; it determines n and the entries; n below the length raises ValueError. neutral holds iff every entry is fixed, unsigned iff no entry is negative, unmoved iff each entry is i or ~i. A signed permutation compares equal to a Perm iff it has the same value at every index.", "quantifier": "all finite signed permutations, all constructed permutations (also periodic ones)", "why_tests_cant": "Injectivity of the string form is a claim about all pairs of objects; numbers have arbitrarily many digits.", "anchors": ["discretehelpers/sig_perm/__init__.py: SigPerm.__init__, __eq__, __str__, __hash__, sequence_string"]}
{"id": "C63", "title": "The truth tables of the simple operators", "statement": "atoms_to_and_gen, ..or.., ..xor.., ..xand.., ..eq.., ..sand.., ..gand.., ..esand.., ..osand.. for a list of m (possibly negated) atoms and an arity n give 2**n entries; entry i depends only on the number k of literals that are false in row i: AND k=0, XAND k even, OR k<m, XOR m-k odd, EQ m>0 and k in {0,m}, SAND k=1, GAND k<=1, ESAND k<=1 (k=1 for odd m), OSAND k<=1 (k=1 for even m). Atoms outside the arity raise an AssertionError.", "quantifier": "all lists of signed atoms (also empty, and with repetitions), all arities, all nine operators", "why_tests_cant": "Unbounded numbers of atoms and arities; the empty list takes a separate branch with a default value for each operator.", "anchors": ["discretehelpers/boolf/a/simple_gens/__init__.py:4-73", "discretehelpers/a/_atompatterns/__init__.py"]}
{"id": "C64", "title": "The truth table constructor: formats, order of digits and errors", "statement": "List, string (with blanks), Binv and integer with arity give the same result for the same table. Distinct non-negative atoms with a table of length 2**(number of atoms) are always accepted; for ascending atoms digit k of an index belongs to atom k of the list; otherwise it belongs to the atom given by the inverse of the sorting permutation (e.g. with [2,0,1] digit 0 belongs to atom 1). Repeated atoms, wrong lengths and negative atoms of a non-constant table raise their own exceptions; constant tables always give the constant. Without atoms they are 0..n-1. An integer without arity raises ArgTypeError, with a negative arity ValueError; a negative integer or one with more than 2**arity digits raises an exception of Binv; other tables with an arity raise AssertionError. A Boolean gives the constant and raises ArgComboError together with other arguments. Wrong entries or characters raise an exception of Binv. (Binary lengths of integers are taken to be exact; C163 and C166 show where floating point errors spoil this, which needs integers from 2**44 on.)", "quantifier": "all tables of any length, all atom lists", "why_tests_cant": "All tables and all atom orders; tests with two atoms cannot distinguish a permutation from its inverse.", "anchors": ["discretehelpers/boolf/subinit_methods/tt/__init__.py", "discretehelpers/boolf/a/reorder_if_atomvals_not_asc/__init__.py", "discretehelpers/boolf/a/deflate/__init__.py"]}
{"id": "C65", "title": "The Boolf constructor terminates exactly for fitting combinations of arguments", "statement": "Boolf(...) runs forever iff the combination of arguments does not fit, i.e. iff more than one of the groups tt, atom, fullspots, zhe, walsh_spectrum, multi_* is given, or atomvals/arity is given with neither tt nor fullspots (e.g. Boolf(arity=3), Boolf('01', zhe=3)); no argument at all or more than one multi_* argument raises an ArgComboError.", "quantifier": "all combinations of constructor arguments with all values", "why_tests_cant": "Non-termination cannot be observed by a test, and the absence of it has to be shown for all values of all arguments.", "anchors": ["discretehelpers/boolf/__init__.py:10-44", "discretehelpers/a/subinit_bouncer/__init__.py"]}
{"id": "C66", "title": "Inflated functions (skip_deflation)", "statement": "is_inflated is True iff some stored atom has no influence on the values. Rebuilding an object from its root and atoms gives an object with the same values, and the same object iff it is not inflated. With skip_deflation the object has exactly the given atoms and the same values as without. Without atoms it raises an exception. Two objects are equal (==) iff they have the same atoms and the same values, and then all their attributes agree; so an inflated object is never equal to one that is not inflated, even with the same values.", "quantifier": "all objects (also inflated ones), all tables and atom lists", "why_tests_cant": "All tables of all arities.", "anchors": ["discretehelpers/boolf/subinit_methods/tt/__init__.py", "discretehelpers/boolf/a/deflate/__init__.py"]}
{"id": "C67", "title": "Functions from lists of operands and from single atoms", "statement": "Boolf(multi_and=l), multi_or, multi_xor, multi_xand for a list l of signed atoms and functions are always built; for each key their value is: all operands true; some operand true; an odd number true; an even number false. Boolf(atom=z) has the single atom z or ~z and is true iff the literal is.", "quantifier": "all lists of any length of signed integers and functions (also inflated ones), all keys", "why_tests_cant": "Unbounded lists of arbitrary functions.", "anchors": ["discretehelpers/boolf/subinit_methods/multi/__init__.py", "discretehelpers/boolf/subinit_methods/atom/__init__.py", "discretehelpers/boolf/methods/bitwise/__init__.py"]}
{"id": "C68", "title": "Functions from their true places (fullspots)", "statement": "Boolf(fullspots=s, arity=n) is true for key < 2**n iff key is in s; with ascending atoms it equals the function of the table that is true at the places s; places beyond the table are rejected; exactly one of arity and atomvals has to be given. For atoms that are not ascending the places are read differently from those of a table (Boolf('01010101', [2,0,1]) is atom 1, Boolf(fullspots=[1,3,5,7], atomvals=[2,0,1]) is atom 2).", "quantifier": "all lists of places, all arities and atom lists", "why_tests_cant": "All sets of places; the disagreement for unsorted atoms shows only for permutations that are not involutions.", "anchors": ["discretehelpers/boolf/subinit_methods/fs/__init__.py"]}
{"id": "C69", "title": "Evaluation and substitution: val, vals, apply", "statement": "f.val(bits), with one bit for each atom, is f[key] for each key with these bits at the atoms; with Binvs it works place by place, the first Binv gives the length, surplus places of longer ones are ignored and a shorter one raises an IndexError; wrong numbers of arguments, entries other than 0 and 1 and constants raise exceptions. f.vals(z_0, ..) with a signed permutation of the atomkeys is a vector with 2**valency entries; entry i is f[key] for each key in which the k-th atom has the value of literal z_k in i; other arguments raise exceptions. f.apply(z_0, ..) with signed atoms of different absolute value is the function g with g[key] == f[key'] whenever each atom of f has in key' the value of the corresponding literal in key; repeated atoms, wrong numbers and constants raise exceptions.", "quantifier": "all Boolean functions with any number of atoms, all argument lists, all keys", "why_tests_cant": "All functions, all signed permutations of atoms; the direction of the permutation matters only from three atoms on.", "anchors": ["discretehelpers/boolf/methods/vals_apply/val.py", "discretehelpers/boolf/methods/vals_apply/vals.py", "discretehelpers/boolf/methods/vals_apply/apply.py"]}
{"id": "C70", "title": "Signed permutations act on Boolean functions", "statement": "f.apply_sigperm(s) is the function g with g[key] == f[key'] whenever every atom x of f has in key' the value that the literal s(x) has in key; acting with s and then with t is acting with t*s; a neutral s changes nothing; s.inverse undoes s; a finite Perm and a list act like the SigPerm with the same entries, a list that is no signed permutation raises an exception for non-constant f.", "quantifier": "all Boolean functions, all finite signed permutations, all keys (Boolean functions are made without skip_deflation)", "why_tests_cant": "Group action laws over infinitely many functions and signed permutations; for left and right actions to be distinguished non-commuting elements are needed.", "anchors": ["discretehelpers/boolf/methods/vals_apply/apply_sigperm.py", "discretehelpers/boolf/methods/vals_apply/apply.py"]}
{"id": "C71", "title": "Walsh spectra", "statement": "Entry k of f.walsh_spectrum(n), for n at least the adicity, is the number of true places i with an even number of binary digits in common with k, minus the number of those with an odd number; the sum of the squares is 2**n times the number of true places (Parseval); the complement has negated entries, except the first one, which is subtracted from 2**n; Boolf(walsh_spectrum=f.walsh_spectrum(n)) == f; a list of length 2**n is accepted iff it is the spectrum of some function of arity n, other lists raise an ArgValueError; lists of other lengths are filled up with zeros, the empty list is rejected.", "quantifier": "all Boolean functions, all arities, all lists of integers (Boolean functions are made without skip_deflation)", "why_tests_cant": "All functions of all arities; acceptance is a statement about all integer lists.", "anchors": ["discretehelpers/boolf/methods/walsh_spectrum/__init__.py:5-8", "discretehelpers/boolf/subinit_methods/ws/__init__.py"]}
{"id": "C72", "title": "Noble Boolean functions", "statement": "Call a table of length 2**n noble if each of its bits j is the parity of the true places i whose binary digits are among those of j (the function is its own twin). For n >= 1, index_to_noble(i, n) is an increasing bijection from the numbers below 2**2**(n-1) to the nobles below 2**2**n, and noble_to_index is its inverse; too big arguments raise ArgTooBigError, non-nobles ArgValueError; for n = 0 both map 0 to 0 and reject everything else, although 1 is noble as well. f.is_noble(n), for n at least the adicity, tells if f is its own twin, i.e. if the table is noble; smaller n fail an assertion. For inflated functions (made with skip_deflation) is_noble is always False, even if the function and its twin have the same values. noble_to_quadrant is bit 1 plus twice the last bit, and agrees with the method noble_quadrant; noble_to_royal is a noble with quadrant 0, found by xoring with one of the three fixed nobles belonging to the quadrant. (Binary lengths of integers are taken to be exact; C163 and C166 show where floating point errors spoil this, which needs integers from 2**44 on.)", "quantifier": "all arities, all natural numbers, all Boolean functions (also inflated ones where stated)", "why_tests_cant": "The number of nobles grows like 2**2**(n-1), so enumeration stops at arity 5; bijectivity and self-inverse twins are statements for all arities.", "anchors": ["discretehelpers/boolf/a/_noble/__init__.py:5-85", "discretehelpers/boolf/a/praetor_int/__init__.py", "discretehelpers/boolf/methods/is_noble/__init__.py:4-9", "discretehelpers/boolf/methods/noble_quadrant/__init__.py:4-14"]}
{"id": "C73", "title": "Foibles: odd, odious, sharp and their sums", "statement": "For a Boolean function f and n at least its adicity: is_odd is f[0], is_odious is f[2**n - 1], is_sharp(n) tells if the number of true places below 2**n is odd; is_ugly, is_acute(n), is_rude(n) and is_rough(n) are the xors of these, and quadrant, weight_quadrant, acute_quadrant and octant are the numbers with the respective binary digits. The number of true places for arity n is 2**(n - valency) times the weight of the root, so f is sharp for n iff f is male and n is its valency. The twin for arity n has the same oddness, and its odious and sharp are those of f exchanged. is_sharp for n below the adicity raises ArgTooSmallError (ValueError if n is negative).", "quantifier": "all Boolean functions (also inflated ones), all arities at least the adicity", "why_tests_cant": "Statements about all functions and arbitrarily many additional atoms; the counting argument is an induction on the arity.", "anchors": ["discretehelpers/boolf/metributes/_foibles/__init__.py", "discretehelpers/boolf/methods/_foibles/__init__.py:4-21", "discretehelpers/boolf/methods/_quadrant_extensions/__init__.py"]}
{"id": "C74", "title": "Patrons and leaders", "statement": "For a Boolean function f and n at least its adicity: patron_int(n) is noble, it is the table of patron_boolf(n), whose values are those of f xored with those of its twin, and it is 0 iff f and its twin have the same values (for functions made without skip_deflation: iff f is noble for n). For n >= 1, patron_index(n) is the index of that noble, patron_royal(n) its royal, and patron_quadrant(n) is is_odd + 2*is_rough(n). leader(n) is in quadrant 0 and differs from f by the complement (iff f is odious) and by the first digit (iff f is ugly). For n below the adicity patron_int raises ArgTooSmallError, patron_boolf fails an assertion, and leader fails an assertion iff f is ugly. (Binary lengths of integers are taken to be exact; C163 and C166 show where floating point errors spoil this, which needs integers from 2**44 on.)", "quantifier": "all Boolean functions (also inflated ones; is_noble and the assertion of leader: without skip_deflation), all arities", "why_tests_cant": "Relations between three different algorithms (tables, Zhegalkin indices, twins) for functions of any arity.", "anchors": ["discretehelpers/boolf/methods/_patron/__init__.py:4-24", "discretehelpers/boolf/methods/leader/__init__.py"]}
{"id": "C75", "title": "Consuls and prefects", "statement": "For a Boolean function f and n at least its adicity, consul(n) is the number below 2**n whose digit b is the parity of the number of true places with digit b; consul_weight(n) is its number of digits 1, and consul_slow(n), which multiplies with a Walsh matrix, gives the same number; smaller arities raise ArgTooSmallError, no argument means the adicity. zhe_to_prefect(z, n) is the pair of the xor of the exponents of z and the parity of the number of exponents with an even number of digits (LengthError for z >= 2**2**n). prefect_walsh_and_oddness is that pair for the Zhegalkin index, prefect_tt is the linear function with that Walsh index, complemented iff the oddness is 1, prefect_boolf has that table, and prefect_leader_and_quadrant is half the Walsh index, and the oddness plus twice the parity of the last digit of the table. zhe_exposet_to_prefect_gen lists the true places of the prefect. (Binary lengths of integers are taken to be exact; C163 and C166 show where floating point errors spoil this, which needs integers from 2**44 on.)", "quantifier": "all Boolean functions (also inflated ones), all arities, all integers", "why_tests_cant": "Linear algebra over GF(2) in all dimensions; the equality of fast and slow algorithm needs an exchange of sums.", "anchors": ["discretehelpers/boolf/methods/consul/__init__.py:5-41", "discretehelpers/boolf/a/twin_misc/__init__.py:54-66", "discretehelpers/boolf/metributes/_prefect/__init__.py", "discretehelpers/a/arity_to_walsh_matrix/__init__.py"]}
{"id": "C76", "title": "Filtrates of Boolean functions", "statement": "For an ascending list S of atoms of a Boolean function f, filtrated_boolf(S) is a Boolean function that depends on atoms in S only, and it is true at a key iff f is true at some key with the same digits at the atoms in S. The filtrate for all atoms is f, that for no atoms is the constant that tells whether f is ever true, and a filtrate of a filtrate is a filtrate of f. A list in another order is read by the constructor with the inverse permutation, so the filtrate for all atoms of f in the order [2,0,1] can differ from f. A list with a number that is not an atom of f raises AtomvalsMismatchError, one with a repeated atom raises AtomvalsNotUniqueError.", "quantifier": "all Boolean functions (also inflated ones), all lists of integers, all keys (all or no atoms: without skip_deflation)", "why_tests_cant": "An existential quantification over all places of all tables; the effect of the order of atoms shows only from three atoms on.", "anchors": ["discretehelpers/boolf/methods/filtrated_boolf/__init__.py:9-38", "discretehelpers/a/_atompatterns/__init__.py:1-18"]}
{"id": "C77", "title": "Relations between the atoms of a Boolean function", "statement": "filtrated_pairs has one entry for each pair a < b of places of atoms; digit i + 2*j of the entry tells whether the function is true at some key with digit i at the first and digit j at the second atom. filtrated_pair(a, b) is this entry for a < b; for a > b it is the string for the exchanged atoms iff the function meets both or none of the combinations of unequal digits, or both combinations of equal digits, and otherwise the unexchanged string (e.g. for Boolf('00110010') and 1, 0). Nevertheless atom_pair_subset, atom_pair_intersect and atom_pair_crossing are right in both orders: exactly the combination (1,0), or (0,0), or no combination is missing. atom_border_in_atom_side raises BordersCrossingError for crossing atoms and otherwise tells whether one of the first two holds. In these four methods equal or too big numbers raise NotPairOfAtomKeysError, negative ones KeyError; in filtrated_pair too big numbers raise AssertionError, equal or negative ones KeyError. atom_to_crossing_atoms maps each place of an atom to the ascending list of places of atoms that cross it.", "quantifier": "all Boolean functions (also inflated ones), all integers a and b", "why_tests_cant": "Quantifies over all functions of any number of atoms; the wrong case needs a third atom and an asymmetric string that the code does not list.", "anchors": ["discretehelpers/boolf/metributes/_basics/filtrated_pairs/__init__.py:6-19", "discretehelpers/boolf/methods/filtrated_pair/__init__.py:1-16", "discretehelpers/boolf/methods/atom_pair_subset/__init__.py:6-10", "discretehelpers/boolf/methods/atom_pair_intersect/__init__.py:6-10", "discretehelpers/boolf/methods/atom_pair_crossing/__init__.py:6-10", "discretehelpers/boolf/methods/atom_border_in_atom_side/__init__.py:7-12", "discretehelpers/boolf/metributes/atom_to_crossing_atoms/__init__.py:6-23"]}
{"id": "C78", "title": "Layers and symmetry of Boolean functions", "statement": "flat_to_layered of a vector with 2**n entries has n+1 layers, and layer w lists the entries at the places with exactly w binary digits 1 in ascending order of the places; with false_and_true_places the entry for w is the pair of the ascending lists of false and of true such places; other lengths raise ArgValueError. layered_tt of a Boolean function has one layer more than the function has atoms; layer w lists its values at the keys made of w of its atoms, in ascending order of the keys, and layered_weight counts the true ones. is_symmetric is True iff the value of the function depends only on the number of its atoms in the key, and iff exchanging the digits of any two of its atoms in any key does not change the value.", "quantifier": "all vectors of any length, all Boolean functions (also inflated ones), all keys, all pairs of atoms", "why_tests_cant": "Quantifies over all truth tables; the ascending order of the keys inside a layer has to survive gaps between the atoms, and invariance under all exchanges is a statement about infinitely many keys.", "anchors": ["discretehelpers/boolf/a/flat_to_layered/__init__.py:5-32", "discretehelpers/boolf/metributes/_layered/__init__.py:16-49", "discretehelpers/boolf/metributes/is_symmetric/__init__.py:4-13"]}
{"id": "C79", "title": "Halves of truth tables: coordinates, solidity, palindromes", "statement": "For n >= 1 and at least the adicity, hasse_matrix_coordinates(n) is a pair (i, j) of numbers with 2**(n-1) digits; digit k of i is the value at place k of the truth table of length 2**n, digit k of j that at the place k from its end. hasse_matrix_coordinates_to_tt(i, j, n) gives back the truth table, and each pair of such numbers is the pair of coordinates of the function whose table it returns; negative numbers raise IntvalError, too big ones LengthError. For n = 0 this fails: the coordinates (0, 0) of the contradiction give a table of length 2, and those of the tautology raise LengthError. is_solid(n) for n >= 2 is the exclusive or of the four middle entries of the truth table; it raises TypeError for 0 and ValueError for 1. symmetric_to_index(m, n) for n >= 1 maps the numbers whose 2**n digits are a palindrome to the numbers with 2**(n-1) digits, bijectively and preserving the order, so it is the rank of m among the palindromes; other numbers raise ArgValueError (no palindrome), ArgTooBigError or IntvalError (negative). (Binary lengths of integers are taken to be exact; C163 and C166 show where floating point errors spoil this, which needs integers from 2**44 on.)", "quantifier": "all Boolean functions (also inflated ones), all arities, all integers i, j and m", "why_tests_cant": "Bijectivity and monotonicity concern 2**2**(n-1) numbers for each n.", "anchors": ["discretehelpers/boolf/methods/hasse_matrix_coordinates/__init__.py:4-14", "discretehelpers/boolf/a/hasse_matrix_coordinates_to_tt/__init__.py:4-12", "discretehelpers/boolf/methods/_foibles/__init__.py:26-36", "discretehelpers/boolf/a/symmetric_to_index/__init__.py:7-24"]}
{"id": "C80", "title": "Linear functions, fractions and Walsh distances", "statement": "is_linear is True iff the function is the exclusive or of some atoms and a constant (these are the atoms of the function if it was built by the library), and iff the value at x ^ y is always the exclusive or of the values at 0, x and y; the constants are linear. weight_fract is the share of true places among the first 2**n for every n from the adicity on. value_fract is the number with the first 2**n values as binary digits (first value highest) divided by 2**2**n - 1, again for every n from the adicity on; one value_fract is smaller than another iff the function is false where the other is true at the first place where they differ, and functions with the same value_fract are equal. The fractions of a function and its complement have the sum 1. Entry k of walsh_distances(n) is the number of places where the truth table of length 2**n differs from the parity of the common digits with k; it is entry k of walsh_spectrum(n) plus 2**(n-1), except for k = 0, where both are equal.", "quantifier": "all Boolean functions (also inflated ones, where not stated otherwise), all arities from the adicity on, all keys (linearity in terms of the atoms and injectivity of value_fract: without skip_deflation)", "why_tests_cant": "Independence of n, the comparison of infinitely repeated tables and the affine law quantify over infinitely many keys and functions.", "anchors": ["discretehelpers/boolf/metributes/is_linear/__init__.py:7-14", "discretehelpers/boolf/metributes/weight_fract/__init__.py:6-11", "discretehelpers/boolf/methods/value_fract/__init__.py:4-8", "discretehelpers/boolf/methods/walsh_distances/__init__.py:4-20"]}
{"id": "C81", "title": "Roots and full spots of Boolean functions", "statement": "is_root is True iff the atoms of the function are 0 ... valency-1. root_boolf is the function with the same root table and these atoms: its value at a key is that of the function at every key whose digits at the atoms of the function are the digits of the first key; it is the function itself if is_root, and functions have the same root_boolf iff their root tables are equal. (For an object made with skip_deflation root_boolf has the same values, is the object itself if is_root, and otherwise is not inflated, so its root table can be shorter.) fullspots is the ascending list of the spots (numbers below 2**valency whose digits are the values of the atoms in ascending order) where the function is true; inflated_fullspots(atoms) the same with respect to the given atoms, and ArgMismatchError iff an atom of the function is missing. Entry k of spread_vector is the excess of atom k over k; the entries are not negative and not descending, and all zero iff is_root. The binary digits of atomvals_integer are 1 exactly at the atoms.", "quantifier": "all Boolean functions (also inflated ones, except for the root table of root_boolf), all keys, all spots, all sets of atoms", "why_tests_cant": "Quantifies over all functions, all spacings of their atoms and all keys.", "anchors": ["discretehelpers/boolf/metributes/is_root/__init__.py:4-7", "discretehelpers/boolf/metributes/root_boolf/__init__.py:4-12", "discretehelpers/boolf/metributes/fullspots/__init__.py:4-7", "discretehelpers/boolf/metributes/spread_vector/__init__.py:4-7", "discretehelpers/boolf/methods/inflated_fullspots/__init__.py:6-10"]}
{"id": "C82", "title": "Splits of the full spots by the atoms", "statement": "Entry k of splits is the pair of ascending lists of the full spots where atom k is true and where it is false. splits_overlap_counts has an entry for each pair of positions a < b: the number of pairs of truth values that the two atoms have at places where the function is true; split_pairs_with_3_overlaps are the pairs with the entry 3. splits_equal is True for a pair iff the two atoms are equal wherever the function is true, or complementary wherever it is true. splits_onesided is True for an atom iff it has only one value where the function is true; onesided_atomkeys lists these positions ascending, and onesided_is_universe has exactly these keys and tells the value. (For objects made with skip_deflation the last claims can fail: the atom of Boolf('11', atomvals=[0], skip_deflation=True) counts as onesided.)", "quantifier": "all Boolean functions, all atoms, all pairs of atoms, all keys (splits and overlaps: also for inflated functions; the rest: without skip_deflation)", "why_tests_cant": "The shortcut through the number of overlaps, with flags overwritten in later passes, has to be right for every combination of splits of every function.", "anchors": ["discretehelpers/boolf/a/spotints_to_splits/__init__.py:6-19", "discretehelpers/boolf/a/count_split_regions/__init__.py:1-9", "discretehelpers/boolf/metributes/_splits/splits_equal_and_onesided/__init__.py:45-79", "discretehelpers/boolf/metributes/onesided_atomkeys/__init__.py:4-12", "discretehelpers/boolf/metributes/onesided_is_universe/__init__.py:4-12"]}
{"id": "C83", "title": "Bloat, blot and blight of Boolean functions", "statement": "bloat, blot and blight are computed without exception. In bloat two different atoms are equal (complementary) iff they are so wherever the function is true. In blot an atom is equal (complementary) to -1 iff it is true (false) wherever the function is true, and two atoms are related iff both have only one value there. blight says both: atoms are related in it as in bloat, and to -1 as in blot. None of them says anything about other elements. is_bloatless is True iff each pair of atoms is somewhere equal and somewhere different where the function is true; is_blotless iff each atom is somewhere true and somewhere false there; is_blightless iff both hold. bloat_boolf is true at a key iff all equalities and complementarities of atoms hold there that hold wherever the function is true, blot_boolf iff all atoms with only one value have it there, and blight_boolf is the conjunction of the two; all three are implied by the function.", "quantifier": "all Boolean functions built by the library without skip_deflation, all pairs of atoms, all keys", "why_tests_cant": "The calls of set_equal and set_comp must never contradict each other, in any order, for any function; the closure under consequences quantifies over all truth assignments.", "anchors": ["discretehelpers/boolf/metributes/_blight/bloat/__init__.py:6-18", "discretehelpers/boolf/metributes/_blight/blot/__init__.py:6-18", "discretehelpers/boolf/metributes/_blight/blight/__init__.py:6-18", "discretehelpers/boolf/metributes/_blight/is_bloatless/__init__.py:4-9", "discretehelpers/boolf/metributes/_blight/bloat_boolf/__init__.py:8-15", "discretehelpers/boolf/metributes/_blight/blot_boolf/__init__.py:8-21", "discretehelpers/boolf/metributes/_blight/blight_boolf/__init__.py:4-9", "discretehelpers/set_part_comp/methods/boolf/__init__.py:1-11"]}
{"id": "C84", "title": "Removing the bloat of a Boolean function", "statement": "Call two atoms of a function tied if they are equal wherever it is true, or complementary wherever it is true. bloatless_atomkeys_undeflated is the ascending list of one position from each class of tied atoms; it is the least one among those that are true at the first full spot, or the least one of the class if none is. splits_equality_blocks lists the classes in the same order, each ascending, and splits_preferred_side has the representative for the classes that contain complementary atoms and None for the others; number_of_distinct_splits is their number. For a function that is not constant, bloatless_spotint raises TooBigError iff the argument is at least 2**valency, BloatMismatchError iff its digits contradict an equality or complementarity of atoms, and otherwise gives the number whose digits are those of the argument at the representatives; it is injective and accepts all full spots. bloatless_boolf is always computed; it is true at a key iff the function is true at some key with the same digits at the representative atoms. The function is the intersection of bloatless_boolf and bloat_boolf; bloatless_boolf is bloatless and its own bloatless_boolf; and a function is bloatless iff it equals its bloatless_boolf.", "quantifier": "all Boolean functions built by the library without skip_deflation, all spots, all keys", "why_tests_cant": "Ties can be arranged in any way, also with complementary and onesided atoms; that the chosen representatives determine the function again has to hold for each arrangement.", "anchors": ["discretehelpers/boolf/metributes/_splits/splits_eq_blocks_and_pref_side/__init__.py:47-109", "discretehelpers/boolf/metributes/_splits/number_of_distinct_splits/__init__.py:4-7", "discretehelpers/boolf/metributes/_blight/bloatless_atomkeys_undeflated/__init__.py:6-19", "discretehelpers/boolf/methods/bloatless_spotint/__init__.py:13-42", "discretehelpers/boolf/metributes/_blight/bloatless_boolf/__init__.py:4-20"]}
{"id": "C85", "title": "Removing the blight of a Boolean function", "statement": "bloatless_atomkeys_deflated is the ascending list of the positions of the atoms of bloatless_boolf, and blightless_atomkeys that of the atoms of blightless_boolf, which are the atoms of bloatless_boolf that are not onesided (do not have only one value where the function is true). blightless_boolf is always computed; it is true at a key iff the function is true at some key with the same digits at those representative atoms (see C84) that are not onesided. The function is the intersection of blightless_boolf and blight_boolf; blightless_boolf is blightless and its own blightless_boolf; and a function is blightless iff it equals its blightless_boolf. For a function that is not constant, blightless_spotint raises what bloatless_spotint raises, BlightMismatchError iff a digit contradicts the value of a onesided atom, and otherwise gives the number whose digits are those of the argument at blightless_atomkeys; it accepts all full spots. For the constant 1 it raises LengthError, for the constant 0 it gives 0.", "quantifier": "all Boolean functions built by the library without skip_deflation, all spots, all keys", "why_tests_cant": "Removing duplicate atoms can make further atoms superfluous; the claims have to hold for all such cascades.", "anchors": ["discretehelpers/boolf/metributes/_blight/blightless_boolf/__init__.py:4-14", "discretehelpers/boolf/metributes/_blight/blightless_atomkeys/__init__.py:4-12", "discretehelpers/boolf/metributes/_blight/bloatless_atomkeys_deflated/__init__.py:4-10", "discretehelpers/boolf/methods/blightless_spotint/__init__.py:8-28"]}
{"id": "C86", "title": "Combined splits", "statement": "splits_combined(atomkeys) for a list with at least one position of an atom is the ascending list of the classes of full spots that agree at all those atoms, each class as an ascending list. For the empty list it is [], and a position beyond the atoms raises IndexError.", "quantifier": "all Boolean functions (also inflated ones), all lists of natural positions (also with repetitions, in any order)", "why_tests_cant": "The meet is taken once per position; that the result depends only on the common digits holds for lists of any length by induction.", "anchors": ["discretehelpers/boolf/methods/splits_combined/__init__.py:4-16", "discretehelpers/boolf/a/spotints_to_splits/__init__.py:6-19"]}
{"id": "C87", "title": "Filling the gaps of a Boolean function", "statement": "gapless_boolf raises BoolfNotBlightlessError iff the function is not blightless, and never TooManyOverlapsError or SmallerThanSelfError. Otherwise it is true at a key iff for each two different atoms of the function there is a key with the same digits at these two where the function is true. It is implied by the function, has no atoms that the function does not have, is blightless, and is its own gapless_boolf.", "quantifier": "all Boolean functions built by the library without skip_deflation, all keys", "why_tests_cant": "The intersection is taken over all pairs of atoms, of which there is no bound; the two internal errors are unreachable only because blightless functions have three or four overlaps for each pair.", "anchors": ["discretehelpers/boolf/metributes/gapless_boolf/__init__.py:9-39", "discretehelpers/boolf/metributes/_splits/split_pairs_with_3_overlaps/__init__.py:4-12"]}
{"id": "C88", "title": "Bundles of a Boolean function", "statement": "Two atoms cross if all four pairs of values occur where the function is true. bundles raises BoolfNotBlightlessError iff the function is not bloatless; otherwise it is the ascending list of the classes of positions of atoms under the equivalence relation generated by crossing, each ascending. is_bundle is true iff there are atoms and all are connected. bundle_overlap_counts raises the same error in the same case and no other; its keys are the bundles in the same order, and the entries 3 and 4 of a bundle are the pairs of positions (the smaller first) in it that do not cross and those that do. bundle_grid_partitions raises BoolfNotBlightlessError iff the function is not blightless; otherwise its keys are the bundles in the same order, and two different numbers are in the same block of the partition of a bundle iff they are connected by pairs of positions in the bundle that do not cross.", "quantifier": "all Boolean functions built by the library without skip_deflation", "why_tests_cant": "The relation is a transitive closure over arbitrarily many atoms; that no pair inside of a bundle has less than three overlaps (which would be a KeyError) follows only from the connection by crossing pairs.", "anchors": ["discretehelpers/boolf/metributes/_bundle/bundles/__init__.py:10-20", "discretehelpers/boolf/metributes/_bundle/is_bundle/__init__.py:4-7", "discretehelpers/boolf/metributes/_bundle/bundle_overlap_counts/__init__.py:8-29", "discretehelpers/boolf/metributes/_bundle/bundle_grid_partitions/__init__.py:10-25"]}
{"id": "C89", "title": "Full spots by weight and the links between them", "statement": "The weight of a full spot is its number of binary ones. layered_fullspots has valency + 1 entries; entry w is the ascending list of the full spots of weight w, and together the entries contain each full spot once. fullspots_by_weight has exactly the occurring weights as keys, and maps each full spot of that weight to the ascending list of the positions of its ones. fullspot_weights is the ascending list of the occurring weights. fullspotlinks_by_weight has as keys exactly the weights that occur together with the next greater weight; its entry for w is the lexicographically ascending list, without repetition, of the pairs of full spots such that the first has weight w and the second is the first with one more binary one. number_of_fullspotlinks is the number of all pairs of full spots such that the second is the first with one more binary one.", "quantifier": "all Boolean functions built by the library without skip_deflation", "why_tests_cant": "Functions can have any number of atoms and any set of full spots; a test covers some sets. That no link is lost between non-adjacent entries of the list of weights needs an argument.", "anchors": ["discretehelpers/boolf/metributes/_basics/fullspot_atoms/__init__.py:6-15", "discretehelpers/boolf/metributes/_basics/fullspots_by_weight/__init__.py:67-86", "discretehelpers/boolf/metributes/_basics/fullspotlinks_by_weight/__init__.py:47-80"]}
{"id": "C90", "title": "Hypersplits of a Boolean function", "statement": "hypersplits raises NotBlightlessError iff the function is not blightless, and otherwise its loop ends without exception. The keys are 1, 2, ... up to some number. The entry for n has, each once, exactly the ascending lists of n positions of atoms such that all 2^n combinations of digits at these positions occur among the full spots (for n = 1 these are all positions; an entry is empty only for n = 1 and no atoms); the set partition stored with a list has two full spots in the same block iff they have the same digits at the positions of the list. hypersplits_detailed has the same lists in the same order; the blocks are labeled by exactly the strings of n binary digits, and the block of a string is the non-empty ascending list of the full spots with these digits at the positions. hypersplits_potential_cores raises AssertionError for functions that are not blightless, and no exception for blightless ones (neither of its two internal checks can fail): for each list there is a core with these positions fixed; another position is determined with sign 1 (or -1) iff for some fixed position all full spots on one side of it have digit 1 (or 0) there, and free otherwise; the vectors are, each once, those with 0 at the fixed positions, the signs at the determined ones and any signs at the free ones, so 2 to the number of free positions.", "quantifier": "all Boolean functions built by the library without skip_deflation", "why_tests_cant": "The loop combines the results for n - 1 positions to those for n, with no bound on the number of atoms; that nothing is missed, that it ends, and that the checks for contradicting signs never fail are statements about all functions.", "anchors": ["discretehelpers/boolf/metributes/hypersplits/__init__.py:10-53", "discretehelpers/boolf/metributes/hypersplits_detailed/__init__.py:6-36", "discretehelpers/boolf/metributes/hypersplits_potential_cores/__init__.py:6-62"]}
{"id": "C91", "title": "Fissions and hyperfissions split the truth table by digits of the keys", "statement": "For different dimensions d_0, ..., d_(m-1) below the adicity n, hyperfission returns 2^m binary vectors of length 2^(n-m). The value of the function at a key k below 2^n is found in the vector whose number has as binary digit i the digit d_i of k, at the position formed by the remaining digits of k in ascending order. (So without dimensions it is the truth table alone.) fissions has n entries; entry d is the pair returned for the single dimension d: the values at keys with digit 0 and digit 1 at place d, positioned by the key without that digit. fissions_layered sorts these values by the number of ones at the other places, each layer in ascending order of the keys. fissions_weight gives the numbers of true keys with digit 0 and 1 at place d, and fissions_weight_layered these numbers for each number of ones at the other places. Exceptions: fissions and single dimensions of a constant raise AssertionError; a single dimension from -n to -1 counts from the end, one outside of -n..n-1 raises IndexError; for two or more dimensions repeated ones, negative ones and ones not below n raise AssertionError, except that different dimensions all below -1 raise TypeError.", "quantifier": "all Boolean functions built by the library (also with skip_deflation), all lists of different dimensions below the adicity; for the exceptions all lists of integers", "why_tests_cant": "The number of atoms, the choice and the order of the dimensions are unbounded; that each key is found at the stated position needs an argument about the order of the keys within a box.", "anchors": ["discretehelpers/boolf/metributes/_fissions/fissions/work.py:5-25", "discretehelpers/boolf/metributes/_fissions/fissions_weight/work.py:1-15", "discretehelpers/boolf/methods/_hyperfission/hyperfission/__init__.py:5-14", "discretehelpers/boolf/a/atom_indices_to_sequence/__init__.py:4-25", "discretehelpers/a/repeat_sequence/__init__.py:4-20"]}
{"id": "C92", "title": "Walsh spectra of fissions and hyperfissions", "statement": "hyperfission_walsh_spectra has 2^m vectors of length 2^(n-m). At the place that belongs to a key k (box by its digits at the dimensions, position by the others) it has the number of true keys that agree with k at the dimensions and have an even number of ones in common with k at the other places, minus the number of those with an odd number. The _abs version has the absolute values; in the _layered_abs version layer w has those at positions with w ones, in their order. The _zipped version has the entry for k at place k. The _labeled version is a dict with one item per box: the tuple of the keys in the box in ascending order, and its spectrum; without dimensions it is not a dict but the Walsh spectrum. fission_walsh_spectra (also _abs, _layered, _layered_abs, _zipped, _abs_zipped) have n entries; entry d is that of the hyperfission along dimension d. (For functions without atoms these attributes, and those of C91 about fissions, raise AssertionError.) If x and y are the entries of the zipped spectrum for dimension d at a key k without digit d and at k + 2^d, then x + y and x - y are the entries of the Walsh spectrum of the function at these places.", "quantifier": "all Boolean functions built by the library (also with skip_deflation), all lists of different dimensions below the adicity", "why_tests_cant": "The statement is about spectra of any length; that zipping and labelling use the same order of keys as the fission holds for all choices of dimensions.", "anchors": ["discretehelpers/boolf/metributes/_fissions/fission_walsh_spectra/work.py:6-39", "discretehelpers/boolf/metributes/_fissions/fission_walsh_spectra_zipped/work.py:4-24", "discretehelpers/boolf/methods/_hyperfission/hyperfission_walsh_spectra/__init__.py:4-13", "discretehelpers/boolf/methods/_hyperfission/hyperfission_walsh_spectra_abs/__init__.py:1-9", "discretehelpers/boolf/methods/_hyperfission/hyperfission_walsh_spectra_layered_abs/__init__.py:4-12", "discretehelpers/boolf/methods/_hyperfission/hyperfission_walsh_spectra_zipped/__init__.py:5-14", "discretehelpers/boolf/methods/_hyperfission/hyperfission_walsh_spectra_labeled/__init__.py:4-29", "discretehelpers/boolf/a/sequence_to_entry_counts/__init__.py:4-13"]}
{"id": "C93", "title": "rev_colex_perms lists the arrangements in the order of the permutation indices", "statement": "rev_colex_perms(n) has n! entries, all different, and they are exactly the arrangements of range(n). The entry at place k is (p(0), ..., p(n-1)) for the permutation p that int_to_perm assigns to k. So the entries for n, each with n appended, are the first n! entries for n+1.", "quantifier": "all natural numbers n and all indices below n!", "why_tests_cant": "The lists have factorial length; that reversing the lexicographic list of arrangements gives the order of the factorial number system is an induction over n.", "anchors": ["discretehelpers/a/rev_colex_perms/__init__.py:4-11"]}
{"id": "C94", "title": "ec_family partitions the negation patterns of a Boolean function", "statement": "For a function that is not constant and has adicity at most 10, ec_family returns a partition of range(2^valency). The label of i is the function in which the atom at place k of atomvals is negated iff i has a binary digit 1 at place k; two numbers are in the same block iff these functions are equal. The labels are exactly the functions that arise by negating some atoms, so all members of a family have the same labels. The block of 0 is closed under bitwise XOR and the other blocks are its cosets: i and j are in the same block iff i^j is in the block of 0. For a constant the domain is {0}, with the constant as label. Higher adicities raise ArgNotFeasibleError.", "quantifier": "all Boolean functions built by the library (members and closure: without skip_deflation), all pairs of numbers below 2^valency", "why_tests_cant": "The number of patterns is exponential in the number of atoms, and the blocks are formed by merging during an unbounded sequence of labellings.", "anchors": ["discretehelpers/boolf/methods/_ec/ec_family/__init__.py:8-28", "discretehelpers/set_part/methods/block_labels/__init__.py:27-43"]}
{"id": "C95", "title": "ec_faction partitions the arrangements of the atoms of a Boolean function", "statement": "Let n be the arity, or the adicity if none is given. For functions that are not constant: an adicity above 5 raises ArgNotFeasibleError, an arity below the adicity ArgTooSmallError. If n is the valency, or with suppress_abbreviation, the result is a partition of range(n!); the label of k is the function in which each atom x is replaced by p(x) for the permutation p with index k. Otherwise the elements are pairs (k, c) of an index of a permutation of range(valency) and an index of a combination; the combinations (attached to the result) are all ascending lists of valency many places below n; in the label the atom at place p(i) of atomvals is replaced by entry i of the combination. Always two elements are in the same block iff their labels are equal, and the labels are exactly the functions that arise by replacing the atoms by different atoms below n; so with and without abbreviation there are the same labels. In a partition of range(n!) the block of 0 is a group of permutations and the others are its cosets. For a constant it is the label of all elements: range(n!) with suppress_abbreviation and n>0, otherwise only 0 (arity None or 0) or (0, 0).", "quantifier": "all Boolean functions built by the library, all arities, with and without suppress_abbreviation (Boolean functions are made without skip_deflation)", "why_tests_cant": "The domain has factorial size and depends on arity, valency and adicity; equality of the sets of labels in the two numberings is a statement about all injective replacements of atoms.", "anchors": ["discretehelpers/boolf/methods/_ec/ec_faction/__init__.py:11-71", "discretehelpers/boolf/methods/vals_apply", "discretehelpers/a/rev_colex_perms/__init__.py:4-11"]}
{"id": "C96", "title": "ec_clan partitions the signed arrangements of the atoms of a Boolean function", "statement": "Let n be the arity, or the adicity if none is given. For functions that are not constant: an adicity above 5 raises ArgNotFeasibleError, an arity below the adicity ArgTooSmallError. If n is the valency, or with suppress_abbreviation, the elements are the pairs (m, k) with m below 2^n and k below n!; in the label each atom x is replaced by p(x) for the permutation p with index k, negated iff m has a binary digit 1 at place p(x). Otherwise they are triples (m, k, c) with m below 2^valency, k below valency! and the index c of a combination; the atom at place p(i) of atomvals is replaced by entry i of the combination, negated iff m has a digit 1 at place p(i). Two elements are in the same block iff their labels are equal. The labels are exactly the functions that arise by replacing the atoms by different atoms below n, negated or not; so with and without abbreviation there are the same labels. Without suppress_abbreviation the result for a constant has only the element (0, 0) (arity None or 0) or (0, 0, 0), with the constant as label. With suppress_abbreviation the constant True has for arities from 1 to 5 all pairs in one block, and more raise ArgNotFeasibleError. (Exceptions with suppress_abbreviation: for the constant False with any arity, and for the constant True with arity 0, the recursion never ends; for constants without arity, and for True with a negative arity, a TypeError is raised.)", "quantifier": "all Boolean functions built by the library, all arities, with and without suppress_abbreviation (Boolean functions are made without skip_deflation)", "why_tests_cant": "The domain has size 2^n n!; the endless recursion for constants shows only for arguments that no test has used.", "anchors": ["discretehelpers/boolf/methods/_ec/ec_clan/__init__.py:13-86", "discretehelpers/sig_perm", "discretehelpers/boolf/methods/vals_apply"]}
{"id": "C97", "title": "Sierpinski partitions and twins", "statement": "sierpinski_partition(n, arity) raises AssertionError iff n >= 2^arity. Otherwise two different elements are in the same block iff they are numbers below 2^arity whose binary digits are equal wherever n has the digit 0. sierpinski_twin(small, n, arity), for 2^m values where m is the number of digits 0 of n below the arity, returns 2^arity values: the value at place c tells if an odd number of values of small are true at places whose digits are among those of j, where j has the digits of c at the places where n has digit 0, in their order. It raises ArgValueError if the number of values is not a power of two, and AssertionError if it does not match the number of digits 0 or if n has digits beyond the arity.", "quantifier": "all indices, all arities, all lists of truth values, all places", "why_tests_cant": "The partition is the join of one partition per digit of the index; that its blocks are in the order of the free digits is an induction over all indices.", "anchors": ["discretehelpers/boolf/a/sierpinski_partition/__init__.py:7-18", "discretehelpers/boolf/a/sierpinski_partition/atom_partition.py:5-17", "discretehelpers/boolf/a/sierpinski_twin/__init__.py:5-31"]}
{"id": "C98", "title": "schoute_coset_gen generates the permutations that map one set onto another", "statement": "For numbers below 2^n with equally many (w) binary digits 1, schoute_coset_gen(key, val, n) generates w!*(n-w)! different numbers, exactly the indices of those permutations p of range(n) for which x is a place of a digit 1 of key iff p(x) is one of val. It raises AssertionError iff a number is at least 2^n, and otherwise IndexError iff the numbers of digits 1 differ.", "quantifier": "all pairs of natural numbers, all arities, all permutation indices", "why_tests_cant": "The set is a coset of a Young subgroup of factorial size; soundness and completeness of the ranks is a statement about all permutations.", "anchors": ["discretehelpers/a/schoute_coset_gen/__init__.py:7-32", "discretehelpers/perm/a"]}
{"id": "C99", "title": "family_minrep is the member of the family with the least Zhegalkin index", "statement": "For a Boolean function f with adicity at most 8, family_minrep is the function with the least Zhegalkin index (attribute zhe) among all functions that arise from f by negating some atoms; it is the only one with that index. So two functions have the same family_minrep iff one arises from the other by negating atoms. The same holds for higher adicities, if python iterates over sets of numbers below the adicity in ascending order. (Exception: CPython iterates over the set {1, 8} in the order 8, 1. With that, family_minrep of the conjunction of the atoms 0, 2, 3, 4, 5, 6, 7, 8 is None.)", "quantifier": "all Boolean functions built by the library (without skip_deflation), all sets of negated atoms, all orders of iteration over sets that keep sets of numbers below the adicity ascending", "why_tests_cant": "The search visits the 2^n columns of a matrix with 2^n rows for any n; minimality is a statement about all members of the family, and the wrong result for 9 arguments depends on hash order.", "anchors": ["discretehelpers/boolf/metributes/_ec_reps/minimal/family_minrep/__init__.py:8-68", "discretehelpers/a/int_to_sierpinski_row/__init__.py:14-33", "discretehelpers/boolf/a/sierpinski_twin/__init__.py:5-31"]}
{"id": "C100", "title": "faction_minrep is the member of the faction with the least Zhegalkin index", "statement": "For a Boolean function f, faction_minrep is the function with the least Zhegalkin index (attribute zhe) among all functions that arise from f by replacing its atoms with different atoms (any atoms, not only those below the adicity of f); it is the only one with that index. So two functions have the same faction_minrep iff one arises from the other by replacing atoms. The atoms of faction_minrep are 0, ..., v-1, where v is the valency of f.", "quantifier": "all Boolean functions built by the library (without skip_deflation), all injective replacements of atoms", "why_tests_cant": "The search narrows the n! permutations column by column with cosets of places in mixed layers, for any number n of arguments; minimality is a statement about all members, including those with arbitrarily high atoms.", "anchors": ["discretehelpers/boolf/metributes/_ec_reps/minimal/faction_minrep/__init__.py:9-69", "discretehelpers/boolf/metributes/_ec_reps/minimal/faction_minrep/schoute_wrapper/__init__.py:4-25"]}
{"id": "C101", "title": "clan_minrep is the member of the clan with the least Zhegalkin index, or an AssertionError is raised", "statement": "For a Boolean function f with adicity at most 8, clan_minrep is the function with the least Zhegalkin index (attribute zhe) among all functions that arise from f by replacing its atoms with different atoms (any atoms) and negating some of them; it is the only one with that index. So two functions have the same clan_minrep iff one arises from the other by replacing and negating atoms. The atoms of clan_minrep are 0, ..., v-1, where v is the valency of f. The same holds for higher adicities, if python iterates over sets of numbers below the adicity in ascending order. In whatever order python iterates over sets, the result is that function, or an AssertionError is raised. (Exception: CPython iterates over the set {1, 8} in the order 8, 1. With that, clan_minrep of the exclusive or of the atoms 0 to 8 raises an AssertionError.)", "quantifier": "all Boolean functions built by the library (without skip_deflation), all injective replacements of atoms, all sets of negated atoms, all orders of iteration over sets", "why_tests_cant": "The search narrows 2^n * n! pairs of a negation and a permutation for any number n of arguments; minimality is a statement about all members, including those with arbitrarily high atoms, and the failing assertion depends on hash order.", "anchors": ["discretehelpers/boolf/metributes/_ec_reps/minimal/clan_minrep/variant_1_production.py:12-102", "discretehelpers/boolf/metributes/_ec_reps/minimal/clan_minrep/schoute_wrapper/__init__.py:4-29"]}
{"id": "C102", "title": "ec_family_splinters divides the family by factions", "statement": "For a Boolean function f that is constant or has adicity at most 10, f.ec_family_splinters() returns a dictionary that divides the family of f (the functions that arise by negating atoms): each value is a strictly ascending list of Zhegalkin indices, its key is the first entry; each member of the family is in exactly one list, and nothing else is in them; two members are in the same list iff one arises from the other by replacing its atoms. The entries are ordered by the Zhegalkin indices of the faction_minrep of their members. For other f an ArgNotFeasible error is raised.", "quantifier": "all Boolean functions built by the library (without skip_deflation)", "why_tests_cant": "The claim is about all pairs of members of families with up to 2^10 members, and about all replacements of atoms.", "anchors": ["discretehelpers/boolf/methods/_ec/ec_family_splinters/__init__.py:4-21"]}
{"id": "C103", "title": "ec_clan_factions divides the clan by factions, and its assertion never fails", "statement": "For a Boolean function f that is not constant and has adicity at most 5, and an arity n that is at least the adicity of f, f.ec_clan_factions(arity) returns a dictionary that divides the functions that arise from f by replacing its atoms with different places below n and negating some: each value is a strictly ascending list of Zhegalkin indices, its key is the first entry; each such function is in exactly one list, and nothing else is in them; two of them are in the same list iff one arises from the other by replacing its atoms. The keys are ascending, and they are the Zhegalkin indices of the faction_minrep of each member of the list (so the assertion in the code never fails). For a constant the result has only that constant. An adicity above 5 raises an ArgNotFeasible error, an arity below the adicity an ArgTooSmall error.", "quantifier": "all Boolean functions built by the library (without skip_deflation), all arities (also None)", "why_tests_cant": "The assertion compares two independent algorithms (the search for faction_minrep and the enumeration of the clan); the division is a statement about all pairs of members for any arity.", "anchors": ["discretehelpers/boolf/methods/_ec/ec_clan_factions/__init__.py:4-21"]}
{"id": "C104", "title": "The string of a Boolean function is an expression for it, and < is a strict total order", "statement": "For every Boolean function f, str(f) never fails and is a python expression, namely Boolf('...'), Boolf('...', [...]), Boolf(fullspots=[...], arity=...) or Boolf(fullspots=[...], atomvals=[...]), the last two possibly with a leading tilde, and its evaluation (constructor and complement) gives f. So two functions have the same string iff they are equal, and equal functions have the same hash (the hash of the string). The relation f < g never fails, and for any two functions exactly one of f < g, f == g, g < f is true, and < is transitive; >, <= and >= are the corresponding relations, and f <= g and g <= f imply that f and g have the same values. (Exception: with skip_deflation different functions can have the same string.)", "quantifier": "all Boolean functions built by the library (without skip_deflation), with any number of atoms, all pairs and triples of them", "why_tests_cant": "There are infinitely many functions; injectivity and totality of the order are statements about all pairs.", "anchors": ["discretehelpers/boolf/methods/str/__init__.py:1-48"]}
{"id": "C105", "title": "ec_clan_partitioned divides a clan into factions, families and their intersections", "statement": "For a root function f that is constant or has at most 5 arguments, f.ec_clan_partitioned() returns faction_reps, family_reps, faction_dict, family_dict and splinter_dict with these properties. The members of the clan are the functions that f becomes by renaming and negating its arguments. Each dictionary has each member in exactly one entry, given by its Zhegalkin index. Two members are in the same entry of faction_dict iff one becomes the other by renaming arguments, and in the same entry of family_dict iff one becomes the other by negating arguments. Entries are ascending and the key is the least index; the representatives are the ascending keys. splinter_dict has all pairs of representatives in lexicographic order, with the ascending intersections of the two classes; none of them is empty, and those of the same faction have the same length. The result does not depend on the order in which python iterates over its sets. More than 5 places raise ArgNotFeasible. (Exception: for functions that are not roots the result can depend on the order, and members of the clan can be missing.)", "quantifier": "all root functions built by the library that are constant or have at most 5 arguments, all iteration orders of the three sets; for the error all functions with more than 5 places (Boolean functions are made without skip_deflation)", "why_tests_cant": "There are 2^32 functions with 5 arguments, and the orders of sets of strings change with each run of python.", "anchors": ["discretehelpers/boolf/methods/_ec/ec_clan_partitioned/__init__.py:4-70"]}
{"id": "C106", "title": "symmetric_spots joins the true places that symmetries of the function move to each other", "statement": "For a function f that is constant or has at most 5 arguments, f.symmetric_spots is a partition of the set f.fullspots of true places of the root table. Two different numbers are in the same block iff both are true places i and j and there is a symmetry of the root function that moves i to j: a permutation of the arguments with some of them negated that does not change the function, such that applying it on the binary digits of i gives those of j. More than 5 arguments raise ArgNotFeasible.", "quantifier": "all functions built by the library that are constant or have at most 5 arguments, all pairs of different integers; for the error all functions with more than 5 arguments (Boolean functions are made without skip_deflation)", "why_tests_cant": "There are 2^32 functions with 5 arguments and 3840 signed permutations for each of them; that the merged pairs are exactly the orbits depends on the symmetries being a group.", "anchors": ["discretehelpers/boolf/metributes/symmetric_spots/__init__.py:7-25"]}
{"id": "C107", "title": "perm_symmetry_partition joins the places that permutations of arguments move to each other", "statement": "For a function f that is constant or has at most 5 arguments, f.perm_symmetry_partition is a partition of the numbers below 2^adicity. Two different numbers are in the same block iff both are below 2^adicity and there is a permutation of the arguments of the root function that does not change the function and moves the first binary digits (as many as f has arguments) of one number to those of the other, while their remaining digits are the same. More than 5 arguments raise ArgNotFeasible.", "quantifier": "all functions built by the library that are constant or have at most 5 arguments (with any atoms), all pairs of different integers; for the error all functions with more than 5 arguments (Boolean functions are made without skip_deflation)", "why_tests_cant": "There are 2^32 root functions with 5 arguments, and infinitely many functions with other atoms; that the merged pairs are exactly the orbits depends on the symmetries being a group.", "anchors": ["discretehelpers/boolf/metributes/perm_symmetry_partition/__init__.py:7-27"]}
{"id": "C108", "title": "family_malerep is the only member of a male family whose root function has consul 0", "statement": "For a function f with an odd number of true places (a male function), f.family_malerep is a function that f becomes by negating some arguments and whose root function has consul 0 (the bitwise sum of its true places), and it is the only one with these two properties. Consequently two male functions have the same family_malerep iff one becomes the other by negating some arguments. For functions with an even number of true places ValueError is raised.", "quantifier": "all functions built by the library, of any arity (Boolean functions are made without skip_deflation)", "why_tests_cant": "The uniqueness is about all functions of a family and all arities; it holds because each negation changes the consul of a male function in exactly the negated digits.", "anchors": ["discretehelpers/boolf/metributes/_ec_reps/fast/family_malerep/__init__.py:8-26"]}
{"id": "C109", "title": "family_is_self_complementary tells whether negating arguments can negate the function", "statement": "f.family_is_self_complementary is true iff there is a choice of arguments whose negation has the same effect as negating all values of f, and false otherwise. This includes that the answer false is right for all functions whose number of true places is not half of the length of the root table.", "quantifier": "all functions built by the library, if python iterates in ascending order over sets of numbers below the adicity (true for an adicity up to 8; compare C99) (Boolean functions are made without skip_deflation)", "why_tests_cant": "There are infinitely many functions, and for a given one the definition asks for all 2^arity choices of arguments, while the program compares two representatives found by a search.", "anchors": ["discretehelpers/boolf/metributes/family_is_self_complementary/__init__.py:4-10"]}
{"id": "C110", "title": "sort_together sorts several lists by one common rearrangement of the places", "statement": "For lists of the same positive length, sort_together(*lists) returns as many lists, and there is one rearrangement of the places such that each result has the entries of its argument in this order. In this order the tuples of the entries at the same place are ascending (first by the first list, then by the second, and so on). LengthMismatchError is raised when a length differs from that of the first list, IndexError without arguments. For empty lists the result is the empty tuple (not a tuple of empty lists).", "quantifier": "any number of lists of any length, with entries of any totally ordered type", "why_tests_cant": "Lists of all lengths and all kinds of repeated entries can not be enumerated; with repetitions the rearrangement is not determined by the first list alone.", "anchors": ["discretehelpers/a/sort_together/__init__.py:6-15"]}
{"id": "C111", "title": "sort_rows_together and sort_cols_together apply one rearrangement of rows or columns to all matrices", "statement": "For matrices with the same positive number of rows, sort_rows_together returns the matrices with their rows in one common new order, in which the tuples of rows at the same place are ascending. For matrices with the same positive number of columns, sort_cols_together does the same for the columns, which are compared from top to bottom, or from bottom to top with small_on_top. Shapes are kept. ArgMismatchError is raised when the numbers differ. Without rows (columns) the result is the empty tuple.", "quantifier": "any number of rectangular matrices of any shape, both values of small_on_top", "why_tests_cant": "The claim ranges over all shapes and contents; sort_cols_together is a chain of transpositions and reflections whose composition must be undone exactly.", "anchors": ["discretehelpers/a/sort_rows_together/__init__.py:7-25", "discretehelpers/a/sort_cols_together/__init__.py:7-28"]}
{"id": "C112", "title": "multi_lcm is the least common multiple, also with signs and a zero", "statement": "For a list of integers with at most one zero, multi_lcm returns a number whose multiples are exactly the common multiples of the integers, and its sign is that of their product. ZeroDivisionError is raised when there are at least two zeros, TypeError for the empty list.", "quantifier": "all lists of integers", "why_tests_cant": "Infinitely many lists, and the divisibility claim is about all common multiples.", "anchors": ["discretehelpers/a/multi_lcm/__init__.py:10-11"]}
{"id": "C113", "title": "The dictionaries of ec_clan_matrix list exactly the signed permutations leading to each member", "statement": "For a root function f, ec_clan_matrix returns the factions and families of ec_clan_partitioned. zhe_to_index_triples has for each Zhegalkin index of the clan the ascending list of exactly those triples (keyneg, perm, valneg) whose signed permutation turns f into the function with this index. zhe_to_keyneg_exposet and zhe_to_valneg_exposet are the projections. The dictionaries of faction representatives to keyneg indices and of family representatives to perm indices contain exactly the indices of signed permutations leading into the faction or family. The result does not depend on the iteration order of sets. NotSpreadlessError is raised when f is not a root, ArgNotFeasibleError when it has more than five arguments.", "quantifier": "all root functions with at most five arguments (and the constants), all orders in which python may iterate over the sets (Boolean functions are made without skip_deflation)", "why_tests_cant": "The claim is about every signed permutation of every root function (2^n n! signed permutations for each of 2^(2^n) functions); tests see a few functions.", "anchors": ["discretehelpers/boolf/methods/_ec/ec_clan_matrix/__init__.py:18-25", "discretehelpers/boolf/methods/_ec/ec_clan_matrix/__init__.py:43-60", "discretehelpers/boolf/methods/_ec/ec_clan_matrix/__init__.py:118-122"]}
{"id": "C114", "title": "keyneg indices are divided among the factions and perm indices among the families", "statement": "In the result of ec_clan_matrix for a root function with n arguments each number below 2**n is in exactly one of the lists of keyneg indices of the factions, and each number below n! is in exactly one of the lists of perm indices of the families. No list is empty, and the keys are the representatives.", "quantifier": "all root functions with at most five arguments (and the constants), all orders in which python may iterate over the sets (Boolean functions are made without skip_deflation)", "why_tests_cant": "The claim is about every signed permutation of every root function (2^n n! signed permutations for each of 2^(2^n) functions); tests see a few functions.", "anchors": ["discretehelpers/boolf/methods/_ec/ec_clan_matrix/__init__.py:43-60", "discretehelpers/boolf/methods/_ec/ec_clan_matrix/__init__.py:118-119"]}
{"id": "C115", "title": "Weights and splinter sizes of ec_clan_matrix are those of every member and every splinter of a faction", "statement": "All Zhegalkin indices in a faction have the same binary weight, so the assertion in ec_clan_matrix never fails and faction_rep_to_weight has this weight. All splinters of a faction have the size in faction_splinter_sizes (which is taken from one family), and the size of the faction is this size times the number of families. lcm_of_splinter_sizes is the positive number whose multiples are exactly the common multiples of the sizes.", "quantifier": "all root functions with at most five arguments (and the constants), all orders in which python may iterate over the sets (Boolean functions are made without skip_deflation)", "why_tests_cant": "That all intersections of a faction with the families have the same size is a fact about the group action, which holds for all functions.", "anchors": ["discretehelpers/boolf/methods/_ec/ec_clan_matrix/__init__.py:29-39", "discretehelpers/boolf/methods/_ec/ec_clan_matrix/__init__.py:78-81", "discretehelpers/boolf/methods/_ec/ec_clan_matrix/__init__.py:124"]}
{"id": "C116", "title": "ec_clan_matrix reorders splinters so that symmetries line up, without changing their elements", "statement": "The splinters in the result of ec_clan_matrix are rearrangements of those of ec_clan_partitioned. Only splinters of factions with several elements per splinter whose representative has symmetries (non-zero intval of perm_symmetry_partition) are changed. Among the reordered factions whose splinters in a column have the same symmetries, all splinters have the same sequence of symmetries, which is that of the faction with the least representative, whose splinter is not changed. Elements of a splinter with the same symmetry are ascending.", "quantifier": "all root functions with at most five arguments (and the constants), all orders in which python may iterate over the sets (Boolean functions are made without skip_deflation)", "why_tests_cant": "The order results from a composition of two sorting routines over data of the whole clan; the claim is about every clan.", "anchors": ["discretehelpers/boolf/methods/_ec/ec_clan_matrix/__init__.py:85-114"]}
{"id": "C117", "title": "The collection of segments consists of exactly the faces of the hypercube that lie in the function", "statement": "CollectionOfSegments(boolf) contains a vector of -1, 0, 1 if and only if all spots that agree with its signs (-1: digit 0, 1: digit 1, 0: any digit) are full spots of the function. The entry of number_by_dimension for each dimension is the number of these vectors with that many zeros. No assertion fails, and the mutual recursion of add, demand and run_demands ends (its depth is at most 3 ** valency).", "quantifier": "all Boolean functions made by the constructors and methods in the model, all orders in which the full spots may be added (Boolean functions are made without skip_deflation)", "why_tests_cant": "Completeness depends on the interplay of recursive demands for inferiors and common superiors; only an invariant over all histories shows that no face is missed in any dimension.", "anchors": ["discretehelpers/boolf/methods/find_segments/a/classes/segment/__init__.py:7-48", "discretehelpers/boolf/methods/find_segments/a/classes/collection_of_segments/__init__.py:8-36"]}
{"id": "C118", "title": "segment_to_adjacent_spots lists the spots of a face", "statement": "For a vector of n entries -1, 0, 1 segment_to_adjacent_spots returns the strictly ascending list of the numbers below 2 ** n whose binary digits are 0 for entries -1 and 1 for entries 1. It has 2 ** d elements, where d is the number of zeros. If there is any other entry, it raises KeyError.", "quantifier": "all vectors of integers", "why_tests_cant": "The claim covers vectors of every length.", "anchors": ["discretehelpers/boolf/a/segment_to_adjacent_spots/__init__.py:6-28"]}
{"id": "C119", "title": "Spots, links and neighboring links of a collection of segments", "statement": "get_spots of the collection is the set of full spots. get_links maps each atom key k to the set of pairs (a, b) of full spots, where b is a with the digit k changed from 0 to 1; keys without pairs are missing. get_neighboring_links maps each atom key k to the set of pairs of such links, where the second one is the first one with another digit changed from 0 to 1. The assertion in get_neighboring_links never fails.", "quantifier": "all Boolean functions made by the constructors and methods in the model, all orders in which the full spots may be added (Boolean functions are made without skip_deflation)", "why_tests_cant": "The sets are read off a recursively built collection; the claim is about all functions of all arities.", "anchors": ["discretehelpers/boolf/methods/find_segments/a/classes/collection_of_segments/__init__.py:38-66"]}
{"id": "C120", "title": "find_segments decides whether spots and links are connected", "statement": "find_segments returns a pair without raising an error. The second entry is the collection of segments. The first entry is True if and only if there is a full spot, any two full spots are connected by a path of full spots that differ in one digit per step, and for each atom any two links in its direction are connected by a path of such links, where consecutive ones differ in one other digit (are opposite sides of a square of full spots).", "quantifier": "all Boolean functions made by the constructors and methods in the model, all orders in which the full spots may be added (Boolean functions are made without skip_deflation)", "why_tests_cant": "Connectedness is a statement about paths of any length in hypercubes of any dimension.", "anchors": ["discretehelpers/boolf/methods/find_segments/__init__.py:4-23", "discretehelpers/boolf/methods/find_segments/a/functions/coco_spots/__init__.py:4-18", "discretehelpers/boolf/methods/find_segments/a/functions/coco_links/__init__.py:4-32"]}
{"id": "C121", "title": "create_hasse_matrix keeps exactly the edges without a node between", "statement": "create_hasse_matrix(nodes, is_under) has entry 1 at row i and column j if and only if i and j are different, node i is under node j, and there is no third index k with i under k and k under j; the other entries are 0. With the indirect edges they are marked by 2. When the relation is transitive and antisymmetric on the nodes, there is a path of entries 1 from i to j if and only if i is under j. Without nodes there is a TypeError.", "quantifier": "all lists of nodes, all relations (for the paths: lists of different nodes and relations that are transitive and antisymmetric on them)", "why_tests_cant": "The loop repeats until nothing changes; its result is claimed for all relations on any number of nodes.", "anchors": ["discretehelpers/a/create_hasse_matrix/__init__.py:4-39"]}
{"id": "C122", "title": "find_integer_partitions finds all partitions once", "statement": "find_integer_partitions(n) is the set of all ascending tuples of positive integers with sum n, if n is positive. For other integers it is the set with the tuple (n,).", "quantifier": "all integers n, all orders in which sets may be iterated", "why_tests_cant": "Completeness for all n; the number of partitions grows fast, and the order of iteration of sets is not specified.", "anchors": ["discretehelpers/a/find_integer_partitions/__init__.py:1-7"]}
{"id": "C123", "title": "hypercube_edges lists the edges of the hypercube", "statement": "hypercube_edges(n) is the strictly ascending list of the pairs (a, b) with b < 2**n where b is a with one binary digit changed from 0 to 1. It has n * 2**(n-1) elements. Negative numbers raise ArgValueError.", "quantifier": "all integers n", "why_tests_cant": "The recursion doubles the list in each step; the claim is about all dimensions.", "anchors": ["discretehelpers/a/hypercube_edges/__init__.py:6-17"]}
{"id": "C124", "title": "sorted_colex sorts by the last difference", "statement": "sorted_colex(l) is a rearrangement of l. Tuples of the same length are ordered by the entries at the last place where they differ. Binary vectors are ordered by the numbers of which they are the digits.", "quantifier": "all lists of tuples (of the same length) of elements of a linearly ordered type", "why_tests_cant": "All lists of all lengths over all ordered types.", "anchors": ["discretehelpers/a/sorted_colex/__init__.py:1-4"]}
{"id": "C125", "title": "powerset enumerates the subsets by size", "statement": "powerset(s) yields exactly the tuples that remain when elements of s are removed. They are ordered by length, and there are 2**n of them for n elements. If s has no element twice, then none of them appears twice.", "quantifier": "all sequences s", "why_tests_cant": "Exponentially many subsets of sequences of any length.", "anchors": ["discretehelpers/a/powerset/__init__.py:4-7"]}
{"id": "C126", "title": "inverse_cartesian_product recovers the factors", "statement": "inverse_cartesian_product(pairs) returns (left, right) if and only if both are strictly ascending, both or none are empty, and the pairs are, in some order, the product of left and right. If the pairs are not the product of two sets (each pair once), there is an AssertionError.", "quantifier": "all lists of pairs of integers", "why_tests_cant": "Both directions for all lists of pairs.", "anchors": ["discretehelpers/a/inverse_cartesian_product/__init__.py:4-15"]}
{"id": "C127", "title": "Inclusion of multisets and their distributions", "statement": "is_multisubset(a, b) is True if and only if each element is at least as often in b as in a (negative counts are like 0). multiset_to_distri(multiset, values) is the list of the counts of the values, 0 for those that are no keys; there is an AssertionError if and only if a key is not among the values. If the counts are not negative, inclusion is the same as <= at each place of the distributions.", "quantifier": "all dictionaries with integer values, all lists of values", "why_tests_cant": "All pairs of dictionaries.", "anchors": ["discretehelpers/a/is_multisubset/__init__.py:1-22"]}
{"id": "C128", "title": "Transpositions and the exchange of rows", "statement": "make_transposition(a, b, n) for different natural numbers below n is the list of the images of 0 ... n-1 under the exchange of a and b. Equal arguments and arguments not below n raise ArgValueError. Negative places are accepted, but the result contains a negative number, or nothing is exchanged (when the second place is the negative way to write the first one); places below -n raise IndexError. swap_matrix_rows(matrix, a, b) exchanges the two rows, where negative indices count from the end; indices that are too big raise ArgMismatchError, those that are too small IndexError.", "quantifier": "all integers a, b, n; all matrices", "why_tests_cant": "All lengths and places.", "anchors": ["discretehelpers/a/make_transposition/__init__.py:5-15", "discretehelpers/a/swap_matrix_rows/__init__.py:5-19"]}
{"id": "C129", "title": "binom counts subsets", "statement": "binom(n, k) is the number of subsets with k elements of a set with n elements, for k from 0 to n. A negative argument or k > n raises ValueError.", "quantifier": "all integers n, k", "why_tests_cant": "All pairs of integers.", "anchors": ["discretehelpers/a/binom/__init__.py:8-9"]}
{"id": "C130", "title": "key_tuples lists the paths to the ends of a nested container", "statement": "key_tuples(container) contains a tuple of keys if and only if it is not empty and container[key1][key2]... is something without elements (not a list or dictionary, or an empty one). The tuples are in the order of the keys in the containers, and none appears twice. An argument that is not a list or dictionary raises ArgNotContainerError; the exceptions used for control flow never escape.", "quantifier": "all nested lists and dictionaries (with integer keys)", "why_tests_cant": "Nesting of any depth; the exceptions of the recursion must always be caught.", "anchors": ["discretehelpers/a/key_tuples/__init__.py:6-35"]}
{"id": "C131", "title": "flatten removes the brackets", "statement": "The result of flatten contains no list or tuple. What contains none is not changed. Replacing a list or tuple by its elements does not change the result. Flattening twice is the same as flattening once.", "quantifier": "all nested lists and tuples", "why_tests_cant": "Nesting of any depth.", "anchors": ["discretehelpers/a/flatten/__init__.py:1-11"]}
{"id": "C132", "title": "sierpinski is the matrix of inclusions", "statement": "sierpinski(orientation, degree=d) is a square matrix with 2**d rows. For 'tr' the entry is 1 if the binary exponents of the row number are among those of the column number, and 0 otherwise; 'tl', 'br' and 'bl' are the reflections. size=2**d gives the same matrix. Unknown orientations, degrees that are not positive and sizes that are not a power of two raise ArgValueError; both or none of degree and size raise ArgComboError; sizes below 2 raise ArgTooSmallError.", "quantifier": "all orientations, all integers as degree or size", "why_tests_cant": "Matrices of all sizes.", "anchors": ["discretehelpers/a/sierpinski/__init__.py:8-45"]}
{"id": "C133", "title": "make_linear_boolf makes the linear Boolean functions", "statement": "make_linear_boolf(walsh=w, parity=p) is a function whose value in row r is the parity of the number of binary digits that w and r have in common, negated if p is 1. Its values are those of make_linear_binv for any arity that is big enough. With leader l and quadrant q it is the function where w is the evil number (quadrants 0 and 3) or odious number (1 and 2) with index l, and the parity is 1 in the quadrants 1 and 3. All other combinations of arguments raise an error.", "quantifier": "all integers as arguments, all rows r", "why_tests_cant": "All numbers of atoms; agreement of two separate implementations.", "anchors": ["discretehelpers/a/make_linear_boolf/__init__.py:4-30"]}
{"id": "C134", "title": "balanced_ternary_walsh_matrix contains the dot products modulo 3", "statement": "The matrix of vectors of balanced_ternary_walsh_matrix(n) has 3**n rows; row i contains the balanced ternary digits of i - (3**n - 1)/2, units first. The entry of the Walsh matrix at i, j is the one among -1, 0, 1 that is congruent modulo 3 to the sum of products of the digits of the vectors i and j. The matrix is symmetric. A negative n raises ValueError.", "quantifier": "all integers n, all places of the matrix", "why_tests_cant": "Matrices with 3**n rows for all n.", "anchors": ["discretehelpers/a/balanced_ternary_walsh_matrix/__init__.py:5-21"]}
{"id": "C135", "title": "schoute_perm permutes the binary digits of the natural numbers", "statement": "s.schoute_perm maps every natural number n to s.apply_on_natural_number(n): the binary digit at place i is moved to place s[i], or flipped and moved to place ~s[i] if s[i] is negative. It is neutral only for neutral s; otherwise it is periodic and its period length is exactly 2**s.length. It respects products and inverses: (s*t).schoute_perm == s.schoute_perm * t.schoute_perm, s.inverse.schoute_perm == s.schoute_perm.inverse; and only signed permutations with the same entries have equal results. For a Perm it moves the digits below p.length in the same way (for finite ones like the unsigned SigPerm); for periodic ones with different periods products need not be respected.", "quantifier": "all finite signed permutations s and t, all finite or periodic permutations p, all natural numbers n, all places i", "why_tests_cant": "Infinitely many permutations and numbers; the homomorphism and the exact period are universal statements.", "anchors": ["discretehelpers/perm/metributes/schoute_perm/__init__.py:9-27"]}
{"id": "C136", "title": "SigPerm(schoute_perm=...) finds the signed permutation again", "statement": "atompattern_to_signed_index of a table of length 2**n returns (k, negate) exactly if the table is that of atom k (negated if negate), and raises AssertionError for all other tables. schoute_to_finite_inverse of a permutation with length 2**N returns l exactly if binary digit r of p[n] is always the digit of n at place l[r], or the flipped digit at place ~l[r]; if there is no such list it raises AssertionError, and if the length is not a power of two ArgValueError (but the neutral permutation gives the empty list). SigPerm(schoute_perm=p) succeeds whenever this does, and the schoute_perm of the result has the values of p below its length (and equals p if p is periodic). From s.schoute_perm, its list of values, or a finite permutation with these values, one gets the sequence of s.inverse and the signed permutation s. (For s.schoute_perm: unless s was made with a longer binary vector of signs than needed; compare the exception for ==.)", "quantifier": "all tables of length 2**n, all permutations (finite or periodic), all finite signed permutations s", "why_tests_cant": "Acceptance is characterised for all permutations of all lengths, including those that are rejected.", "anchors": ["discretehelpers/sig_perm/a/schoute_to_finite_inverse/__init__.py:9-35", "discretehelpers/a/_atompatterns/__init__.py:35-45", "discretehelpers/sig_perm/__init__.py:78-82"]}
{"id": "C137", "title": "The prototype of clan_minrep agrees with the production version", "statement": "For every Boolf f, f._clan_minrep_prototype returns the same Boolf as f.clan_minrep: the one with the least Zhegalkin index among those that arise from f by replacing atoms and negating some of them. It never returns None. (Condition: python iterates in ascending order over sets of numbers below the adicity, which it does for an adicity up to 8.)", "quantifier": "for all Boolean functions of any adicity, and all iteration orders of sets that are ascending on numbers below the adicity (Boolean functions are made without skip_deflation)", "why_tests_cant": "The two searches keep different data (a boolean matrix with 2^n rows and n! columns against sets of pairs) and stop at different moments; the number of functions is doubly exponential in n, so agreement on all functions of three or four atoms says nothing on five.", "anchors": ["discretehelpers/boolf/metributes/_ec_reps/minimal/clan_minrep/variant_0_prototype.py:11-90", "discretehelpers/boolf/metributes/_ec_reps/minimal/clan_minrep/variant_1_production.py:12-102"]}
{"id": "C138", "title": "The king of a noble is the least noble in the faction of its royal", "statement": "For a noble (the integer value of a truth table that is its own Zhegalkin twin) of positive arity n, noble_to_king_and_quadrant(noble, n) returns the pair (king, quadrant): quadrant is that of noble_to_quadrant, and king is the least integer whose table arises from that of the royal (noble_to_royal_and_quadrant) by permuting the n atoms. The king is itself a noble, and is in quadrant 0. noble_to_king_index_and_quadrant(noble, n) returns (index, quadrant) with index_to_noble(index, n) == king. Two nobles of arity n have the same king and quadrant if and only if the table of one arises from that of the other by permuting the atoms. A non-noble raises ArgValueError, a number above 2**2**n - 2 raises ArgTooBigError; for arity 0 the only accepted argument is 0, with the pair (0, 0). For a Boolf f and arity n at least its adicity, f.patron_king_index_and_quadrant(n) succeeds, is the pair of f.patron_int(n), and is the same for all functions that arise from f by permuting atoms below n. (Binary lengths of integers are taken to be exact; C163 and C166 show where floating point errors spoil this, which needs integers from 2**44 on.)", "quantifier": "for all arities, all natural numbers, all Boolean functions of any adicity and all permutations of the atoms (Boolean functions are made without skip_deflation)", "why_tests_cant": "There are 2^(2^(n-1)) nobles of arity n and n! permutations of the atoms; that the quadrant and the king separate exactly the orbits of nobles, for every arity, is a statement about the Zhegalkin transform under permutation and not about a sample.", "anchors": ["discretehelpers/boolf/a/_noble/__init__.py:88-102", "discretehelpers/boolf/methods/_patron/__init__.py:29-31"]}
{"id": "C139", "title": "apply_sigperm_to_colors moves colored vertices like Boolean functions", "statement": "apply_sigperm_to_colors(color_to_fullspots, n, s) paints the places below 2**n (a later color of the dictionary replaces an earlier one, a negative place counts from the end) and moves them by the signed permutation s: the result has exactly the colors that remain in use, and the list of each color is the ascending list of the numbers j, such that for some place i of that color and every x, the binary digit of j at place s[x] is that of i at place x, or that at place ~s[x] is its negation. This works if all places are from -2**n to 2**n - 1, and s maps the numbers below n to numbers below n (or their negations) and negates none of the others (which is true when s.length <= n); otherwise an IndexError is raised. A list is accepted if it describes a signed permutation (otherwise SequenceError), and has the same effect as the object; so has a finite Perm. Two calls with s and then t have the effect of one call with t * s. The neutral element leaves a dictionary of disjoint ascending nonempty lists unchanged. If the places of a color are the true places of a Boolf f, then the new ones are those of f.apply_sigperm(s).", "quantifier": "for all arities, dictionaries with any colors, and all finite signed permutations (Boolean functions are made without skip_deflation)", "why_tests_cant": "There are 2^n * n! signed permutations and more than 2^(2^n) colorings for each n; that the result is an action and agrees with the action on functions is an algebraic statement. The only test has one example.", "anchors": ["discretehelpers/boolf/a/apply_sigperm_to_colors/__init__.py:5-24"]}
{"id": "C140", "title": "layered_is_greater is a strict total order, and sort_each_layer gives its least rearrangement", "statement": "For lists of lists of integers, layered_is_greater(a, b) is true exactly if the sum of all entries of a is greater than that of b, or these are equal and the list of the sums of the layers of a is lexicographically greater, or these are also equal and a is lexicographically greater. So for every a and b exactly one of layered_is_greater(a, b), layered_is_greater(b, a) and a == b is true, and being greater is transitive. sort_each_layer(a) has the layers of a in ascending order, and is not greater than any list whose layers are rearrangements of those of a.", "quantifier": "for all lists of lists of integers, with any numbers and lengths of layers", "why_tests_cant": "Totality and transitivity are statements about all pairs and triples of arbitrarily long lists, including lists of different lengths and ties at each of the three levels. Minimality is a statement about all rearrangements.", "anchors": ["discretehelpers/boolf/a/layered_is_greater/__init__.py:4-21", "discretehelpers/boolf/a/sort_each_layer/__init__.py:1-5"]}
{"id": "C141", "title": "boolfs_to_swan chooses a unique extreme member", "statement": "For a nonempty list of Boolfs with adicity up to 6, boolfs_to_swan(boolfs, verophile=True) is the only member that is greatest by layered weight, then layered table, then table string; and boolfs_to_swan(boolfs, verophile=False) is the only member that is least by reflected layered weight, then reflected layered table, then table string. The Boolf made from the string is equal to the member it came from. Order and repetitions in the list are irrelevant. An empty list raises IndexError. If some member has an adicity above 6, the result is a PrettyLengthError.", "quantifier": "for all lists of Boolean functions, of any length and order, and both values of verophile (Boolean functions are made without skip_deflation)", "why_tests_cant": "The claim is about all lists of functions, and uniqueness needs that no two different functions tie in all three entries; that includes functions with different atoms, whose layered tables are equal. Independence of order is a statement about all permutations of the list.", "anchors": ["discretehelpers/boolf/a/boolfs_to_swan/__init__.py:1-33"]}
{"id": "C142", "title": "int_to_rcv counts descending chains of elements", "statement": "For a natural number n, entry k of int_to_rcv(n) is the number of sequences x0, ..., xk such that x0 is a place of a binary digit 1 of n, and each further entry is a place of a binary digit 1 of its predecessor. All entries of the result are positive, and there are no such sequences with more entries than the result. int_to_rcv(n, length) is the same list filled with zeros to that length, and raises SpecifiedLengthTooShortError exactly if the list is longer. If digit x of n is 0, then setting it increases the first entry by 1, and the later ones by the entries of int_to_rcv(x). A negative n raises IntvalError.", "quantifier": "for all integers n and all lengths", "why_tests_cant": "The loop has no bound that is visible in the code; that it ends, and what it counts, is an induction on the structure of all natural numbers (as codes of hereditarily finite sets).", "anchors": ["discretehelpers/boolf/a/int_to_rcv/__init__.py:8-29"]}
{"id": "C143", "title": "mod_tt_perm and mod_tt_neg permute and negate arguments of a truth table", "statement": "For a permutation s of n places (a list), and a table whose length is a multiple of 2**n, mod_tt_perm(tt, s) has the length of tt, and its entry i is entry j of tt, where j is i with digit k moved to place s[k]. For a table that is too short IndexError is raised, for an entry not below len(s) LengthError, and for a repeated entry InvalidMatrixError. For a table of length 2**N with n <= N the result is the table of Boolf(tt).apply_sigperm(t), where t is the inverse permutation of s. The example in the README shows the result for the inverse permutation. For a table of length 2**n and an integer m from -2**n to 2**n - 1, mod_tt_neg(tt, m) has entry tt[i ^ (m mod 2**n)] at place i, and for other integers IndexError is raised. For m >= 0 it is the table of Boolf(tt) after negating the arguments whose digit in m is 1. With a list or a Binv as second argument mod_tt_neg raises AttributeError.", "quantifier": "for all truth tables, all permutations of any length, and all integers", "why_tests_cant": "There are n! permutations and 2^(2^n) tables for each n. The agreement with the action of signed permutations on functions (including which of s and its inverse is meant) is a statement about all of them.", "anchors": ["discretehelpers/boolf/a/_mod_tt/mod_tt_perm/__init__.py:5-13", "discretehelpers/boolf/a/_mod_tt/mod_tt_neg/__init__.py:4-16"]}
{"id": "C144", "title": "spread_sigperm_to_sigvar turns signed places into signed atoms", "statement": "Entry i of spread_sigperm_to_sigvar(s, v) has the sign of s[i] (where ~k is the negation of k), and its absolute value is k + v[k], where k is the absolute value of s[i]. Different lengths raise ArgValueError. The first entry whose absolute value is not below the length raises IndexError, and the first one whose new absolute value would be negative raises ArgValueError. If v is the spread vector of a Boolf f with at least one atom, and s is a signed permutation of its places, then the absolute values of the result r are the atoms of f in some order, and f.apply(r) is root_boolf.apply(s) with each place replaced by the corresponding atom.", "quantifier": "for all integer lists, and for all Boolean functions and signed permutations (Boolean functions are made without skip_deflation)", "why_tests_cant": "The correspondence between the effect on a function and on its root holds for every set of atoms, every table and every one of the 2^n * n! signed permutations.", "anchors": ["discretehelpers/boolf/a/spread_sigperm_to_sigvar/__init__.py:6-13"]}
{"id": "C145", "title": "The signed adjacency matrix of a function is the same for its whole clan, up to the order of the vertices", "statement": "f.diagonal_adjacency_matrix(m) is a symmetric square matrix with a row for each full spot of f, in ascending order. Its diagonal is zero. The entry for two full spots that differ in k digits (k > 0) is -1 if m[k - 1] is true, and 1 if it is false. If m is shorter than some distance between full spots, IndexError is raised. For every signed permutation s the matrix of f.apply_sigperm(s) is that of f with permuted vertices, so the two have the same characteristic polynomial. If one raises IndexError, the other does too.", "quantifier": "for all Boolean functions, all lists of truth values, and all signed permutations (Boolean functions are made without skip_deflation)", "why_tests_cant": "There are 2^(2^n) functions and 2^n * n! signed permutations for each n. The equality of characteristic polynomials needs the permutation of the vertices, which is different for each of them.", "anchors": ["discretehelpers/boolf/methods/diagonal_adjacency_matrix/__init__.py:8-24"]}
{"id": "C146", "title": "Signed permutations move the absolute Walsh spectrum within its layers", "statement": "walsh_spectrum_abs(n) has the absolute values of walsh_spectrum(n). Layer w of walsh_spectrum_layered(n) and of walsh_spectrum_abs_layered(n) has the entries at the places with w binary digits 1, in ascending order of the places. There are n + 1 layers. The exceptions are those of walsh_spectrum, and without argument the adicity is used. For a signed permutation s, with len(s) and the adicity of f not above n, entry j of the absolute spectrum of f.apply_sigperm(s) is entry k of that of f, where digit x of k is digit |s(x)| of j. So corresponding layers of the two absolute spectra are permutations of each other.", "quantifier": "for all Boolean functions, all arities, and all signed permutations (Boolean functions are made without skip_deflation)", "why_tests_cant": "The invariance holds for each of the 2^(2^n) functions and 2^n * n! signed permutations of every arity n. Tests can only compare a few of them.", "anchors": ["discretehelpers/boolf/methods/walsh_spectrum/__init__.py:11-13", "discretehelpers/boolf/methods/walsh_spectrum/__init__.py:19-26"]}
{"id": "C147", "title": "inventory_partition and Binv.set_part join the places with equal entries", "statement": "For a list (or tuple), inventory_partition returns a partition with domain 0..len-1, in which two places are in the same block iff their entries are equal. The label of a place is its entry, the block of an entry is the ascending list of its places, and the labels are exactly the entries. For a dict with integer keys the same holds for keys and values. An argument of another type raises ArgTypeError, and otherwise no exception is raised. The set_part of a Binv is a partition of the naturals, in which two different numbers are joined iff both are places of the Binv and have equal digits. Two Binvs of the same length have equal set_parts iff they are equal or complements.", "quantifier": "for all lists and dicts with comparable hashable entries, and for all Binvs of any length", "why_tests_cant": "The partition is made by merging and relabelling blocks one entry after the other. That no sequence of entries leads to an exception or a wrong block is an induction over all sequences.", "anchors": ["discretehelpers/a/inventory_partition/__init__.py:7-33", "discretehelpers/binv/metributes/set_part.py:4-14"]}
{"id": "C148", "title": "Slices of permutations and vectors", "statement": "In slice_to_range the start defaults to 0, the step to 1, and the end to the second argument. Its entries are start + k * step, as long as they are before the end (after it, for a negative step). Without any end StopMissingError is raised, and for the step 0 ValueError. Entry k of a slice of a Perm p is p[start + k * step], with the end defaulting to the length. p[:] is p.sequence(), and p[:n] is p.sequence(n) whenever the latter is defined. The same holds for the vectors of Walsh permutations, with extend_to_length in place of sequence. Negative numbers do not count from the end, as they do for lists: the entries at negative places are None, and p[::-1] is empty for every permutation. A WalshPerm that is not neutral has no length, so each slice raises AttributeError.", "quantifier": "for all finite and periodic permutations, all vectors, and all slices of integers", "why_tests_cant": "The start, end and step are arbitrary integers, and the permutation may be periodic, so that the slice can be longer than its period.", "anchors": ["discretehelpers/a/slice_to_range/__init__.py:6-14", "discretehelpers/perm/__init__.py:94-95", "discretehelpers/walsh_perm/a/vector_class/__init__.py:36-37"]}
{"id": "C149", "title": "filtrated_pairs_pretty lists the pairs of atoms under the words for their relations", "statement": "Let atomnames have exactly as many different entries as the function has atoms. Then filtrated_pairs_pretty(atomnames) has for each of the words crossing, disjoint, universal, equal and complementary the pairs of names of atoms in this relation, with the smaller place first and in lexicographic order of places. Under subset are all pairs of different places whose first atom is a subset of the second (in the true places of the function), as a sorted list of pairs of names. Pairs in any other of the 16 relations are listed under the string of the relation. Lists without pairs are left out, and there are no other keys. The words come first, in a fixed order, and are followed by the strings in colexicographic order. For another number of different names ArgMismatchError is raised. Without argument the names are the letters of the atoms, or the numbers of the atoms if one of them is above 25. (So the result never has the atomkeys, as the documentation says.) The two constants raise ValueError without argument, but give an empty dict for the empty list. Contrary to the documentation the names need not be unique: a longer list with repeated entries is accepted, and two atoms can have the same name.", "quantifier": "for all Boolean functions of any arity, and all lists of names that are all numbers or all strings", "why_tests_cant": "The relation of two atoms depends on all true places of the function. The grouping, renaming and sorting must be correct for each combination of relations of the pairs, for any number of atoms.", "anchors": ["discretehelpers/boolf/methods/_pretty/filtrated_pairs_pretty/__init__.py:5-68", "discretehelpers/a/alphabet_subset/__init__.py:5-20", "discretehelpers/a/sorted_colex/__init__.py:1-4"]}
{"id": "C150", "title": "The other methods with names of atoms show the same data as the metributes", "statement": "Let atomnames have exactly as many different entries as the function has atoms. bundles_pretty has the bundles, and fullspot_atoms_pretty has for each full spot the ascending list of its atoms, with names in place of places. For names that are strings, hypersplits_pretty has the same dimensions, hypersplits and blocks as hypersplits_detailed, in the same order. The label of a block has for each atom of the hypersplit a sign and the name, separated by spaces. Different blocks of a hypersplit have different labels, even for equal names or names with spaces and signs, so no block is lost. hypersplits_potential_cores_pretty has the same cores as hypersplits_potential_cores: joined names of the fixed and of the free atoms, name and sign for the determined ones, and a string of signs and zeros for each vector. Exceptions of the metributes are passed on, and another number of different names raises ArgMismatchError. For names that are numbers the two methods for hypersplits raise TypeError. So without argument they work with letters, but raise TypeError when an atom is above 25. fullspotlinks_by_atom_pretty raises an exception for all arguments (AttributeError for valid ones), because the metribute it should show does not exist.", "quantifier": "for all Boolean functions of any arity and all lists of names (blightless functions for hypersplits) (Boolean functions are made without skip_deflation)", "why_tests_cant": "Labels are made by joining strings, and used as keys of a dict. That no two blocks get the same key is a claim about all lists of names and all sets of atoms. The tests in the repository cover a few examples, all of them with letters.", "anchors": ["discretehelpers/boolf/methods/_pretty/bundles_pretty/__init__.py:5-12", "discretehelpers/boolf/methods/_pretty/fullspot_atoms_pretty/__init__.py:5-21", "discretehelpers/boolf/methods/_pretty/fullspotlinks_by_atom_pretty/__init__.py:5-28", "discretehelpers/boolf/methods/_pretty/hypersplits_pretty/__init__.py:5-42", "discretehelpers/boolf/methods/_pretty/hypersplits_potential_cores_pretty/__init__.py:5-45", "discretehelpers/a/balanced_ternary_vector_to_string/__init__.py:1-11"]}
{"id": "C151", "title": "Small helpers: bitwise operations of many integers, partial copies of dictionaries, regular dictionaries, aligned signs", "statement": "multigrade_bitwise of at least two integers has for 'and' the binary digits of all of them, for 'or' those of any of them, and for 'xor' those of an odd number of them, so the order does not matter; other operators raise ArgValueError. (Exception: with fewer than two integers the result is the list of arguments.) subdict(original, drop, fresh) has the items of fresh, and those of the original whose keys are neither dropped nor fresh, however python orders the set of kept keys. (Exception: without the optional argument fresh it always raises AttributeError.) default_to_regular_dict keeps all keys and leaves along every path, and turns every defaultdict that is reached through defaultdicts into a regular dictionary. (Exception: a regular dictionary is not entered, so a defaultdict in it stays.) pretty_signs adds to a string without truth values a space exactly before each figure whose predecessor is neither a figure nor a minus sign; so in lists and matrices of integers each entry has a sign of one character, and in those of truth values the words are replaced by circles.", "quantifier": "all lists of integers (also negative ones), all dictionaries and iteration orders of sets, all nested dictionaries of any depth, all strings, lists and matrices", "why_tests_cant": "The claims concern integers of any size, dictionaries of any depth, sets whose iteration order is not specified, and strings of any length. Tests show single examples.", "anchors": ["discretehelpers/a/multigrade_bitwise/__init__.py:6-30", "discretehelpers/a/subdict/__init__.py:4-20", "discretehelpers/a/default_to_regular_dict/__init__.py:9-12", "discretehelpers/a/pretty_signs/__init__.py:1-17"]}
{"id": "C152", "title": "Strings of set partitions show domain and blocks, and determine the object", "statement": "The string of a SetPart shows its blocks, and its domain when it is not that of the natural numbers. Partitions with the same domain have the same string if and only if they are equal, which means that they join the same elements. Partitions with different domains have different strings. The blocks and the domain shown in the string are the arguments of a constructor call that makes an equal partition. SetPartComp objects with the same string are equal, and the strings of equal objects differ at most in the order in which the pairs are listed; its arguments also make an equal object, with the same string.", "quantifier": "all set partitions and all partitions with complements reachable by the modelled operations, whatever the iteration order of the set of pairs", "why_tests_cant": "That different objects never get the same string is a claim about all pairs of objects, with numbers of any size and any number of blocks.", "anchors": ["discretehelpers/set_part/__init__.py:86-97", "discretehelpers/set_part_comp/__init__.py:72-81"]}
{"id": "C153", "title": "The numbers moved by a Walsh permutation", "statement": "moved of a Walsh permutation contains exactly the numbers below 2**degree that are mapped to another number; it is empty exactly for the neutral one. Among the numbers below 2**degree, 0 is never moved, the XOR of two numbers that are not moved is not moved, and the number of those that are not moved is a power of two. So a Walsh permutation that is not neutral moves at least half of them. The inverse has the same degree and moves the same numbers.", "quantifier": "all Walsh permutations of any degree, made by any constructor call", "why_tests_cant": "The numbers of moved and fixed places are a consequence of linearity for all invertible matrices of all sizes.", "anchors": ["discretehelpers/walsh_perm/metributes/moved/__init__.py:4-6", "discretehelpers/walsh_perm/metributes/mapping/__init__.py:13-32"]}
{"id": "C154", "title": "Attributes that are computed on the first read do not depend on the order of the reads", "statement": "Boolf stores many attributes in hidden variables when they are read for the first time; some functions set several variables at once, and some of them read other such attributes meanwhile (layers, full spots and their links, splits, bloat, equality blocks and preferred sides, fissions and their weights, Walsh spectra of fissions in all variants). Whatever attributes of a new object are read, in whatever order and however often, each read gives the same value (or the same exception) as if it were the first one, and this value is a function of the object alone. No getter calls itself for ever: the function it calls sets the variable or raises an exception.", "quantifier": "all Boolf objects made by the constructor; all finite histories of reads of the 23 attributes", "why_tests_cant": "The number of orders of reads is unbounded, and a variable that is set wrongly (e.g. with the absolute value, or by a sibling attribute) shows only after a particular earlier read.", "anchors": ["discretehelpers/boolf/__init__.py:69-90", "discretehelpers/boolf/metributes/_layered/__init__.py", "discretehelpers/boolf/metributes/_basics/fullspots_by_weight/__init__.py", "discretehelpers/boolf/metributes/_splits/splits_equal_and_onesided/__init__.py", "discretehelpers/boolf/metributes/_fissions/fission_walsh_spectra/__init__.py", "discretehelpers/boolf/metributes/_fissions/fission_walsh_spectra/work.py"]}
{"id": "C155", "title": "refine_block with labels gives every new block its label", "statement": "Let p have consistent labels, and let new_blocks be ascending and not empty and together one block of p. p.refine_block(new_blocks, new_labels) succeeds if there is one label per new block and the labels are different and not used for an element outside of the new blocks. (The label of the block that is split can be used again.) Then the pairs are joined as in C59, every element of a new block has its label and the label leads to that block, and all other elements keep their label; the labels stay consistent. When no block with more than one element is left, all labels are forgotten. If new_blocks are not together a block, ArgValueError is raised and nothing changes. With a wrong number of labels (ArgValueError) or labels that are repeated or used elsewhere (ValueDuplicationError) the list of blocks already contains the new blocks when the exception is raised, while pair_in_same_block still describes the old partition. For a new block that is not ascending the label leads to the block, but its elements have no label.", "quantifier": "all partitions with consistent labels, all lists of new blocks, all lists of labels", "why_tests_cant": "All labelled partitions, splits of a block and lists of labels of any length; which label is free depends on the whole history of the object.", "anchors": ["discretehelpers/set_part/methods/refine_block/__init__.py:7-33"]}
{"id": "C156", "title": "Sequences, rows and matrices made from binary digits", "statement": "repeat_sequence(s, n) with a multiple n of len(s) has n entries, entry i is s[i % len(s)]; other arguments raise AssertionError or ZeroDivisionError. sequence_to_entry_counts replaces each entry by the number of equal earlier entries, so equal entries get different counts. atom_indices_to_sequence(l) has 2**(max(l)+1) entries (or the target length, if it is a multiple); digit k of entry i is digit l[k] of i; repeated, missing and negative numbers raise exceptions. arity_to_walsh_matrix(n, negate) is a symmetric matrix with 2**n rows; entry (i, j) is the parity of the number of common digits 1 of i and j, complemented with negate. int_to_sierpinski_row(exposet=l): entry i is the sum of 2**l[k] for the digits k of i; int_to_sierpinski_row(n): the entries are different, they are the numbers whose digits 1 are digits 1 of n, from 0 to n; ArgComboError, NotNaturalError, ValueError for other arguments. balanced_ternary_vector_to_string is injective on vectors with entries -1, 0, 1, and raises KeyError for others. matrix_to_vector reads the columns (or rows) of a binary square matrix as numbers, vector_to_matrix writes numbers as columns, and the former undoes the latter. intval_to_arity(x) is the least n with x < 2**2**n, intval_to_tt_length(x) is 2**n; negative numbers raise ArgValueError. (Binary lengths of integers are taken to be exact; C163 and C166 show where floating point errors spoil this, which needs integers from 2**44 on.)", "quantifier": "all lists, arities, numbers and matrices, all orders in which python can iterate over a set", "why_tests_cant": "Lengths, arities and numbers of any size; the claims about all entries of a row or matrix with 2**n entries can only be sampled.", "anchors": ["discretehelpers/a/repeat_sequence/__init__.py:4-20", "discretehelpers/boolf/a/sequence_to_entry_counts/__init__.py:4-13", "discretehelpers/boolf/a/atom_indices_to_sequence/__init__.py:4-25", "discretehelpers/a/arity_to_walsh_matrix/__init__.py:5-21", "discretehelpers/a/int_to_sierpinski_row/__init__.py:7-33", "discretehelpers/a/balanced_ternary_vector_to_string/__init__.py:1-11", "discretehelpers/walsh_perm/a/matrix_to_vector/__init__.py:4-16", "discretehelpers/walsh_perm/a/vector_to_matrix/__init__.py:9-20", "discretehelpers/boolf/a/intval_to_arity/__init__.py:6-20"]}
{"id": "C157", "title": "The SVG path of a binary matrix", "statement": "For every matrix with entries 0 and 1, bin2svg ends without exception. The returned string is the path of a list of closed lines, written as M x,y followed by h and v with signed lengths (the last side of each line, that returns to its start, is left out), and the string determines this list. All sides are horizontal or vertical and not empty, and horizontal and vertical sides alternate. The lines go exactly once clockwise around each square whose entry is 1, and around no other square in or outside of the matrix. They contain each unit step between a 1 (on its right) and a 0 or the outside (on its left) exactly once, and no other unit step.", "quantifier": "all numbers of rows and columns, all matrices with entries 0 and 1", "why_tests_cant": "There are infinitely many shapes, with holes, nested islands and squares that meet in corners; that the tracing always comes back to its start, and that the variable oldval is always bound, needs an invariant of the stored corners.", "anchors": ["discretehelpers/a/bin2svg/__init__.py:4-179"]}
{"id": "C158", "title": "The wiki table of a clan", "statement": "For a root function f with at most five arguments (or a constant), f.ec_clan_matrix_wiki() prints the lines of a wiki table. There is a header for each family of the clan, with the perm indices of the family, as in ec_clan_matrix; all headers have the same width (the lcm of the splinter sizes). There is a row for each faction, with the common binary weight of the Zhegalkin indices in it, the number of its cells, its representative, and its keyneg indices grouped by binary weight. In each row the colspans of the cells under each family sum up to the width of the header, and exactly the last one of them has the class border. The Zhegalkin indices in the cells are different, and they are exactly those of the functions that arise from f by negating and permuting arguments. Each cell shows the digits of its Zhegalkin index and truth table; it has the class base iff it belongs to f itself (this is exactly one cell), neg-ec-min iff its index is the representative of a family, perm-ec-min iff it is the representative of a faction. The inner table has a row for each keyneg index and a column for each valneg index, sorted by binary weight, with borders where the weight changes, and the entry (k, v) contains exactly those perm indices p, ascending, for which the signed permutation (k, p, v) turns f into the function of the cell, with the sequence of the signed permutation (v, p). The lines do not depend on the order of iteration over sets. Functions that are not roots raise NotSpreadlessError, other functions with more than five arguments ArgNotFeasibleError.", "quantifier": "all root functions with at most five arguments and all constants, all orders in which python can iterate over sets; for the exceptions all functions (Boolean functions are made without skip_deflation)", "why_tests_cant": "There are 2**32 functions with five arguments, and the tables have up to 3840 cells with inner tables; that no function is missing and no row is too short holds for all of them only by an argument about group actions.", "anchors": ["discretehelpers/boolf/methods/_ec/ec_clan_matrix_wiki/__init__.py:9-87", "discretehelpers/boolf/methods/_ec/ec_clan_matrix_wiki/__init__.py:92-194"]}
{"id": "C159", "title": "The row of a wiki table", "statement": "f.wiki_table_row(names) returns a string iff f is a root function, each argument is true and false, and each two arguments are equal and different, at some of its true places (that is, f is blightless); otherwise it raises BlightError, or SpreadError for a blightless function that is not a root. VFractERROR is never raised, and every name in the template string.txt is filled. The row shows the Zhegalkin index, its oddness, the value fraction and the weight fraction in lowest terms, the latter also as number of true places over the length of the truth table, the number of arguments and the number of bundles. The class for the value fraction is above-half iff the Zhegalkin index is odd, and both hold iff the first entry of the truth table is true. The class for the weight fraction tells whether there are less, as many or more true than false places. The classes for the font size depend on the lengths 16 and 31 of the numbers.", "quantifier": "all Boolean functions of any arity, all names, any function for the decimal length, any formatting of fractions as decimals (Boolean functions are made without skip_deflation)", "why_tests_cant": "That the value fraction is never one half, and that its side of one half is the oddness of the Zhegalkin index, are claims about all truth tables of all sizes.", "anchors": ["discretehelpers/boolf/methods/wiki_table_row/__init__.py:16-87"]}
{"id": "C160", "title": "The printed list of segments", "statement": "For the collection of segments of f, print_segments(atomnames) shows each face of the hypercube, all of whose vertices are true places of f, exactly once: after the header of its dimension, in the line that starts with the names of its free arguments, separated by commas. In this line its signs are followed by the numbers of its vertices in ascending order. Lines are ordered by the free places, and the faces in a line by their signs, each by the last difference. Headers do not repeat; dimensions that were only read before (by get_spots, get_links, get_neighboring_links) have a header without lines. Without atomnames the letters of the atoms are used; for constants this raises ValueError. If an atom is above 25, it raises TypeError iff there is a face with a free place (an edge). A wrong number of different names raises ArgMismatchError. segment.string() shows the signs of the segment.", "quantifier": "all Boolean functions of any arity, all lists of names, any order of the set of true places, any dimensions that were read before (Boolean functions are made without skip_deflation)", "why_tests_cant": "That no face is lost, repeated or shown in the wrong line or place, is a claim about the faces of hypercubes of all dimensions and all sets of vertices.", "anchors": ["discretehelpers/boolf/methods/find_segments/a/classes/collection_of_segments/__init__.py:68-92", "discretehelpers/boolf/methods/find_segments/a/classes/segment/__init__.py:50-51"]}
{"id": "C161", "title": "Unique potential cores are added to the segments", "statement": "For a blightless function f with its collection of segments, loop_hypersplits(collection) adds the only potential core of each hypersplit that has only one (a hypersplit without a free argument: every other border is on one side of a border of the hypersplit). Afterwards the collection contains exactly the faces of the hypercube, all of whose vertices are true places of f or vertices of such a core. So it is again closed: with a face it contains all its faces, and with two opposite faces the face that they span. No face is removed, number_by_dimension counts the faces of each dimension, the recursion ends and no assertion fails. If f is not blightless, it raises AssertionError. The function that is created with skip_deflation in loop_hypersplits is f itself.", "quantifier": "all Boolean functions of any arity, any order of the set of true places (Boolean functions are made without skip_deflation)", "why_tests_cant": "The faces that are added by the recursion depend on the whole set of faces; the claim is about all sets of vertices in hypercubes of all dimensions.", "anchors": ["discretehelpers/boolf/methods/find_segments/a/functions/loop_hypersplits/__init__.py:1-32", "discretehelpers/boolf/methods/find_segments/a/classes/collection_of_segments/__init__.py:20-36", "discretehelpers/boolf/metributes/hypersplits_potential_cores/__init__.py:6-62"]}
{"id": "C162", "title": "val with bits, lists and Binvs in any mixture", "statement": "f.val(*args) returns a Boolean exactly when the arguments are bits (0, 1, False, True), one for each atom of f and at least one, and this Boolean is f[key] for each key with these bits at the atoms. It returns a Binv exactly when there is one argument for each atom, the first one is a list or a Binv as long as the result, all arguments (lists and Binvs can be mixed) have bits at its places, and each entry of the result is the value of f for the bits at this place. Further places of longer arguments are ignored, whatever is there. (Exception: when the first argument is an empty list or Binv, the result is the empty Binv, whatever the other arguments are.) Otherwise: SarityMismatchError for a wrong number of arguments; IndexError for a constant function without arguments; UnexpectedArgumentError for a first argument that is neither a bit nor a list nor a Binv, and for something else than a bit after a bit; TypeError for a list after a bit. With a list or Binv as first argument the first place that raises decides: what val raises for the entries at this place, IndexError for an argument that is too short, TypeError for an argument without places. (Deviation: nested lists, for which val is called recursively, raise TypeError in the end, because the inner results are Binvs.)", "quantifier": "all objects made by the constructor (with or without skip_deflation), all lists of arguments that are integers, Booleans, Binvs, arbitrarily nested lists of such, or other hashable objects without places", "why_tests_cant": "Nesting, lengths and mixtures of arguments are unbounded; that exactly the described calls return, and no others, is a statement about all of them.", "anchors": ["discretehelpers/boolf/methods/vals_apply/val.py:8-27", "discretehelpers/binv/__init__.py:41-44", "discretehelpers/binv/__init__.py:109-110"]}
{"id": "C163", "title": "Logarithms of integers with floating point numbers: where they are right, and where not", "statement": "When integers are converted and quotients are computed with rounding to nearest, and the logarithms of the C library have a relative error of at most 2**-52, then for each integer n below 2**44 strictly between 2**k and 2**(k+1): binary_length(n) is k+1, is_power_of_two(n) is False, log_floor(n) is k, log_ceil(n) is k+1, and log_int(n) raises ArgValueError. For integers below 10**13 that are not powers of ten decimal_length is the number of digits. When the logarithms are also rounded to nearest, then binary_length(2**k) is k+1 for k up to 43, is_power_of_two(2**k) is True for k up to 28, and log_floor, log_ceil and log_int of 2**k are k for all k (up to 1023; python treats greater integers in another way, which is not modelled). So the exact functions used in all other models agree with the code below 2**44 (is_power_of_two below 2**29), including the constructor Binv(intval=...) and intval_to_arity. (Deviations: is_power_of_two(2**29) is False and decimal_length(1000) is 3. Whatever the logarithms of the library are, for k from 55 on (up to 1023) binary_length, log_floor and log_int do not distinguish 2**k - 1 from 2**k, and log_ceil does not distinguish 2**k from 2**k + 1. So if binary_length(2**k) is right, then Binv(intval=2**k-1, length=k) raises LengthError, and Binv(intval=2**k-1, minimal_length=0) has length k+1. intval_to_arity(2**64 - 1) is 7, although 64 = 2**6 bits are enough.)", "quantifier": "all implementations of the floating point operations with the stated accuracy (binary floating point numbers with 53 significant bits), all integers in the stated ranges", "why_tests_cant": "There are 2**44 integers and many libraries of elementary functions; a test checks a few integers with one library. The statement follows from the accuracy of the operations alone.", "anchors": ["discretehelpers/binv/a/binary_length/__init__.py:6-13", "discretehelpers/a/decimal_length/__init__.py:6-13", "discretehelpers/a/is_power_of_two/__init__.py:6-14", "discretehelpers/a/_log/log_floor/__init__.py:6-10", "discretehelpers/a/_log/log_ceil/__init__.py:6-10", "discretehelpers/a/_log/log_int/__init__.py:6-17", "discretehelpers/boolf/a/intval_to_arity/__init__.py:6-13", "discretehelpers/binv/__init__.py:46-59", "discretehelpers/a/is_natural/__init__.py:1-6"]}
{"id": "C164", "title": "The inverse of a Walsh permutation does not depend on the rounding errors of the numerical inverse of its matrix", "statement": "Let w be a WalshPerm, and D the determinant of its minimal matrix. Whatever matrix np.linalg.inv returns, when each of its entries differs from that of the inverse matrix over the real numbers by less than 1/|D|, then w.inverse returns a WalshPerm that is the inverse function of w, its products with w are neutral, and it is equal to that found with the exact inverse. When an entry of the numerical inverse is not an integer, the result is right whatever the errors are. The bound can not be improved: there is a WalshPerm with determinant -3, for which a numerical inverse with errors of exactly 1/3 leads to the neutral element.", "quantifier": "all Walsh permutations made by the constructor without trust, all real matrices as results of np.linalg.inv", "why_tests_cant": "Tests see the rounding errors of one library for a few matrices. The statement covers all matrices of all sizes and all errors below the bound.", "anchors": ["discretehelpers/walsh_perm/metributes/inverse/__init__.py:8-28", "discretehelpers/a/is_integer_matrix/__init__.py:1-6", "discretehelpers/walsh_perm/a/shrink_matrix/__init__.py:9-29"]}
{"id": "C165", "title": "The order of a permutation with the 64-bit integers of numpy", "statement": "p.order is the smallest positive exponent o that makes p ** o the identity exactly when o is below 2**63. In any case p.order is a number r with -2**63 <= r < 2**63. (Deviation: the permutation of 381 numbers with cycles as long as the first 16 primes has the order -4304329670229058502, and p ** -4304329670229058502 is not the identity.)", "quantifier": "all permutations made by the constructor (finite or periodic) whose cycles are shorter than 2**63", "why_tests_cant": "Permutations with such an order need hundreds of numbers and many cycles of different lengths, which tests do not try; the condition under which the result is right is a statement about all permutations.", "anchors": ["discretehelpers/perm/metributes/order.py:6-17", "discretehelpers/perm/metributes/cycles.py:4-27"]}
{"id": "C166", "title": "Truth tables and Zhegalkin indices given as integers: where floating point errors cause a LengthError", "statement": "Suppose that conversions, quotients and logarithms of floating point numbers are rounded to nearest. Then for j up to 9, Binv(intval=n, length=2**j) is what exact arithmetic gives (see C26) when n is at least 2**2**j (LengthError) or at most 2**2**j * (1 - 2**-40), and so is Boolf(t, arity=j), with or without atoms, in particular for all integers t when j is at most 5. For a function f with at most eight arguments Boolf(zhe=f.zhe) == f when f has at most five arguments, or is false for one of the last 40 keys of its truth table. (Deviation: for n below 2**2**j but above 2**2**j - 2**(2**j - 54), which exist from j = 6 on, Binv(intval=n, length=2**j) and Boolf(n, arity=j) raise LengthError, although n has 2**j digits; and Boolf(zhe=f.zhe) raises LengthError for each function f with six to eight arguments that is true for the last 55 keys of its truth table. An example is the disjunction of six atoms, whose integer table and Zhegalkin index are both 2**64 - 2.)", "quantifier": "all implementations of the floating point operations that round to nearest, all integers, all arities in the stated ranges, all Boolean functions (made without skip_deflation)", "why_tests_cant": "There are 2**64 tables with six arguments; the exceptions are a few thousand of them, so that random tests will not meet them, and no test can show that there are no others.", "anchors": ["discretehelpers/boolf/subinit_methods/tt/__init__.py:9-71", "discretehelpers/boolf/subinit_methods/zhe/__init__.py:9-23", "discretehelpers/binv/__init__.py:46-59", "discretehelpers/binv/a/binary_length/__init__.py:6-13", "discretehelpers/boolf/a/intval_to_arity/__init__.py:6-13"]}
{"id": "C167", "title": "The parts of a function move with the function", "statement": "When a signed permutation s is applied to a Boolean function f, the bloat_boolf, blot_boolf, blight_boolf and gapless_boolf of the new function f.apply_sigperm(s) are what apply_sigperm(s) makes of those of f (gapless_boolf raises BoolfNotBlightlessError for both functions or for none). More generally, for two functions of which one arises from the other by replacing and negating atoms (the members of a clan): is_bloatless, is_blotless, is_blightless, is_bundle, number_of_distinct_splits and the number of bundles are equal for both (bundles and is_bundle raise the same exception for both or for none). Their bloatless_boolf belong to one clan, and so do their blightless_boolf. (They need not arise from each other by the same replacement, because the choice of the remaining atoms depends on their order: (a0 <-> a1) & (a0 | a2) is not changed by the transposition of the atoms 0 and 1, but its bloatless_boolf a0 | a2 becomes a1 | a2.) So if two functions have the same clan_minrep, then so have their bloatless_boolf, and so have their blightless_boolf.", "quantifier": "all Boolean functions (made without skip_deflation), all signed permutations, all pairs of functions in a clan; for clan_minrep, all iteration orders of sets that are ascending for numbers below the adicity", "why_tests_cant": "A clan of functions with n atoms has up to 2**n * n! members below arity n alone, and there is no bound on n; a test compares a few pairs of functions. That the choice of representative atoms does not affect the clan is a statement about all orders of the atoms.", "anchors": ["discretehelpers/boolf/methods/vals_apply/apply_sigperm.py", "discretehelpers/boolf/metributes/_blight/bloat_boolf/__init__.py:8-15", "discretehelpers/boolf/metributes/_blight/blot_boolf/__init__.py:8-21", "discretehelpers/boolf/metributes/_blight/blight_boolf/__init__.py:4-9", "discretehelpers/boolf/metributes/_blight/is_bloatless/__init__.py:4-9", "discretehelpers/boolf/metributes/_blight/bloatless_boolf/__init__.py:4-20", "discretehelpers/boolf/metributes/_blight/blightless_boolf/__init__.py:4-14", "discretehelpers/boolf/metributes/gapless_boolf/__init__.py:9-39", "discretehelpers/boolf/metributes/_splits/number_of_distinct_splits/__init__.py:4-7", "discretehelpers/boolf/metributes/_bundle/bundles/__init__.py:10-20"]}
{"id": "C168", "title": "The Cayley tables of the scripts", "statement": "The scripts that build Cayley tables work for every number n of places (they use n = 4 and n = 3), without an exception. In the SetPart of perm/scripts/01_cayley the label of (a, b) is the index c with int_to_perm(c) = int_to_perm(a) * int_to_perm(b). The three tables of sig_perm/scripts/02_cayley_compare, built from signed permutations, from their matrices (for n > 0) and from their cube vertex permutations (schoute_perm), are the same, including the block labels. The label of ((am, an), (bm, bn)) is the pair (pm, pn) with SigPerm(pair=(pm, pn)) == SigPerm(pair=(am, an)) * SigPerm(pair=(bm, bn)); as documented, the moves are multiplied on their own, int_to_perm(pn) = int_to_perm(an) * int_to_perm(bn), and the signs are pm = cvp(am, an)[bm] = am ^ cvp(0, an)[bm], where cvp(m, k) is the schoute_perm of SigPerm(pair=(m, k)). Each table is a Latin square: the block of each label contains, in ascending order, exactly one pair from each row and exactly one from each column. For n > 1 the dict mc_row_to_sc_matrix has the keys 0 to n! - 1 in this order; row m of matrix k is the sequence of cvp(m, k), which is that of cvp(0, k) with m added bitwise, and the matrices of different keys differ. For n < 2 this dict is empty, because the blocks of the partition of the 1x1 table are singletons. In each matrix every row and every column is a permutation of 0 to 2^n - 1; the columns are those of the XOR matrix in another order, the left one being 0, 1, 2, …; and all 2^n * n! rows of all matrices are different.", "quantifier": "all numbers of places, all pairs of indices, all labels", "why_tests_cant": "A script builds one table of one size; the next sizes have (n! * 2**n)**2 entries (147456 for n = 4, 14745600 for n = 5), and a documented rule like pm = am ^ cvp(0, an)[bm] is a statement about all entries of all tables.", "anchors": ["discretehelpers/perm/scripts/01_cayley/__main__.py:12-25", "discretehelpers/sig_perm/scripts/01_cayley/__main__.py:19-178", "discretehelpers/sig_perm/scripts/02_cayley_compare/__main__.py:18-75", "discretehelpers/set_part/methods/block_labels/__init__.py:27-43", "discretehelpers/sig_perm/__init__.py:114-140", "discretehelpers/perm/metributes/schoute_perm/__init__.py:9-27"]}
{"id": "C169", "title": "The blocks of ec_family, ec_faction and ec_clan have equal sizes", "statement": "Whenever ec_family, ec_faction or ec_clan return a partition (for any arity, with or without suppress_abbreviation), the number of block labels (the number of functions in the equivalence class) times the length of get_block_from_label(g), for any label g, is the number of elements of the domain: 2^valency for the family, n! or valency! * C(n, valency) for the faction, 2^n * n! or 2^valency * valency! * C(n, valency) for the clan, and 1 or the corresponding number for constants. So all blocks have the same size, and the size of the equivalence class divides the number of elements. In the family both numbers are powers of two. For functions that are not constant, suppress_abbreviation does not change the number of functions in the equivalence class, so the block lengths of the same function with and without abbreviation are in the ratio of the numbers of elements.", "quantifier": "all Boolean functions built by the library without skip_deflation, all arities and both values of suppress_abbreviation for which a partition is returned, all labels", "why_tests_cant": "It is a counting statement (orbit and stabilizer) about all members of an equivalence class with up to 2^n n! elements, for all functions; tests can only count the blocks of single functions.", "anchors": ["discretehelpers/boolf/methods/_ec/ec_family/__init__.py:8-28", "discretehelpers/boolf/methods/_ec/ec_faction/__init__.py:11-71", "discretehelpers/boolf/methods/_ec/ec_clan/__init__.py:13-86", "discretehelpers/set_part/methods/block_labels/__init__.py:27-43"]}
{"id": "C170", "title": "Cycle lengths, parity and conjugation of permutations", "statement": "For a finite permutation p, p.parity is the sum of len(c) - 1 over the cycles c of p.cycles, modulo 2. For finite p and q the conjugate q * p * q.inverse has the same multiset of cycle lengths, the same order and the same parity as p; conversely, if two finite permutations p and r have the same multiset of cycle lengths, there is a finite permutation q with q * p * q.inverse == r. The inverse of any permutation, finite or periodic, has the same multiset of cycle lengths and the same order (orders without the limit of 64 bits, see C165).", "quantifier": "all finite permutations p, q and r; for the inverse also all periodic permutations", "why_tests_cant": "parity is computed from the inversions and cycles by following the images; that these two agree, and that conjugation changes neither, are statements about all permutations of all lengths.", "anchors": ["discretehelpers/perm/metributes/parity/__init__.py:4-9", "discretehelpers/perm/metributes/cycles.py", "discretehelpers/perm/metributes/order.py:6-17", "discretehelpers/perm/metributes/inverse.py"]}
{"id": "C171", "title": "Determinant, parity and number of negations of signed permutations", "statement": "For a finite signed permutation s and n >= s.length, integer_determinant(s.matrix(n)) is 1 if s.perm.parity + s.binv.weight is even and -1 otherwise, so it does not depend on n; s.binv.weight is the number of negative entries in s.sequence(n). The parity of the permutation and the weight of the negator modulo two add up in products: (s*t).perm.parity == (s.perm.parity + t.perm.parity) % 2, and the same for binv.weight % 2. s.inverse has the same perm.parity and the same binv.weight as s.", "quantifier": "all finite signed permutations s and t (however they were constructed), all n >= s.length", "why_tests_cant": "There are 2^n n! signed permutations of each length n; the determinant relates elimination with row swaps, the inversion count of the permutation and the negator, which agree by accident on many short examples.", "anchors": ["discretehelpers/sig_perm/__init__.py:137-140", "discretehelpers/sig_perm/__init__.py:167-172", "discretehelpers/sig_perm/metributes/inverse.py:4-12", "discretehelpers/a/integer_determinant/__init__.py:4-32", "discretehelpers/binv/metributes/weight.py:5-9"]}
{"id": "C172", "title": "Walsh permutations of truth tables permute the Walsh spectra", "statement": "w.apply_on_vector(v) of a WalshPerm moves the entry at i to the place w[i]; it succeeds iff w maps the places of v to places of v (IndexError otherwise), in particular if len(v) is a multiple of 2**w.degree. For a Boolean function f and n >= f.adicity, n >= w.degree, let g = Boolf(w.apply_on_vector(f.tt(n))). Then g[w[x]] == f[x] for all x, the adicity of g is at most n, and g.walsh_spectrum(n)[k] == f.walsh_spectrum(n)[w.transpose[k]] for all k < 2**n; so the two spectra are rearrangements of each other.", "quantifier": "all Boolean functions f, all Walsh permutations w, all n not below adicity and degree, all vectors v", "why_tests_cant": "The number of invertible binary matrices and of Boolean functions grows faster than exponentially with n; symmetric matrices (equal to their transpose) and orthogonal ones hide a confusion of transpose, inverse and the matrix itself.", "anchors": ["discretehelpers/perm/__init__.py:174-177", "discretehelpers/walsh_perm/metributes/inverse/__init__.py:8-28", "discretehelpers/walsh_perm/metributes/transpose/__init__.py:4-11", "discretehelpers/boolf/methods/walsh_spectrum/__init__.py:5-8", "discretehelpers/boolf/methods/tt/__init__.py:8-20"]}
{"id": "C173", "title": "Cycle partitions of products, powers and inverses, and permutations from partitions", "statement": "For finite permutations p and q, (p*q).cycle_partition <= p.cycle_partition.join(q.cycle_partition). For every integer n, (p**n).cycle_partition <= p.cycle_partition, and p.inverse.cycle_partition == p.cycle_partition. Every partition s of the natural numbers whose elements are natural is a cycle partition: Perm(s.blocks).cycle_partition == s. For periodic permutations the statement about products fails, because cycle_partition covers only the first period: the product of Perm([1, 0], perilen=2) and Perm([0, 2, 1], perilen=3) is a counterexample.", "quantifier": "all finite permutations p and q, all integers n, all partitions s with domain 'N' and natural elements", "why_tests_cant": "The statements connect three separately written traversals (cycles, join, merging of blocks) for permutations and partitions of every size; examples with few cycles hardly ever need chains through several blocks.", "anchors": ["discretehelpers/perm/metributes/cycle_partition/__init__.py:4-12", "discretehelpers/perm/__init__.py:34-42", "discretehelpers/set_part/methods/meet_and_join/join/_1_fast.py: join", "discretehelpers/set_part/__init__.py: __le__", "discretehelpers/perm/__init__.py: Perm.__mul__, __pow__", "discretehelpers/perm/metributes/inverse.py"]}
{"id": "C174", "title": "The number of inversions is the length of a permutation in swaps of neighbours", "statement": "For a finite permutation p: p.inversion_set is empty iff p is neutral. (a, b) is in p.inversion_set iff (p[b], p[a]) is in p.inverse.inversion_set, so the inverse has equally many inversions. A pair a < b is inverted by p*q iff exactly one of the following is the case: it is inverted by q, or the sorted pair of q[a] and q[b] is inverted by p; so len((p*q).inversion_set) <= len(p.inversion_set) + len(q.inversion_set). Multiplying p with Perm([[i, i+1]]) adds one inversion if p[i] < p[i+1], and removes one otherwise. len(p.inversion_set) is the smallest number of permutations Perm([[i, i+1]]) whose product is p.", "quantifier": "all finite permutations p and q, all places a < b and i, all sequences of swaps of neighbours", "why_tests_cant": "That no shorter sequence of swaps exists quantifies over all sequences; the other claims relate inversion sets, products and inverses for permutations of every length.", "anchors": ["discretehelpers/perm/metributes/inversion_set/__init__.py:4-15", "discretehelpers/perm/__init__.py: Perm.__mul__", "discretehelpers/perm/metributes/inverse.py", "discretehelpers/perm/__init__.py:34-42"]}
{"id": "C175", "title": "Short products in the algebraic normal form mean many true places", "statement": "Let n be at least the adicity. If no binary exponent k of f.zhe has more than d binary digits 1 (the algebraic normal form has no product of more than d atoms), then f is the contradiction (zhe 0) or true at 2**(n-d) or more of the first 2**n places. Two functions of this kind with different zhe differ at 2**(n-d) or more of these places. The bound is attained: Boolf(zhe=2**k) is true at exactly 2**(n-d) places, where d is the number of digits 1 of k. Likewise, if a function other than the contradiction is true only at places with at most d digits 1, then f.twin(n) is true at 2**(n-d) or more places.", "quantifier": "all Boolean functions f and g (also inflated ones), all n from the adicity on, all d and k", "why_tests_cant": "The bound concerns all 2**2**n functions of every arity; it relates zhe, twin and the values, which are computed separately, and holds with equality only for special functions.", "anchors": ["discretehelpers/boolf/metributes/zhe/__init__.py", "discretehelpers/boolf/methods/twin/__init__.py", "discretehelpers/boolf/subinit_methods/zhe/__init__.py", "discretehelpers/boolf/a/twin_misc/__init__.py"]}
{"id": "C176", "title": "Distances to linear functions", "statement": "Let n be at least the adicity of f, and d = f.walsh_distances(n). Xoring f with make_linear_boolf(walsh=m), for m < 2**n, gives the distances whose entry k is d[k ^ m]. The distances of the complement are 2**n - d[k]. The squares of 2**n - 2*d[k] have the sum 4**n, so there is a k with (2**n - 2*d[k])**2 >= 2**n: every function agrees or disagrees with some linear function at more than half of the places, with a surplus of at least 2**(n/2) among the 2**n places. Functions with the same distances for n are equal (unless they are inflated).", "quantifier": "all Boolean functions f, all n from the adicity on, all Walsh indices m and k below 2**n", "why_tests_cant": "The claims hold for all 2**2**n functions of every arity and relate the xor of functions to reorderings of a list computed from a matrix; the existence of a good linear approximation is a statement about all functions.", "anchors": ["discretehelpers/boolf/methods/walsh_distances/__init__.py", "discretehelpers/a/make_linear_boolf/__init__.py"]}
{"id": "C177", "title": "The symmetry of a function under negations divides the number of its true places", "statement": "For a function f that is not constant, with adicity at most 10: the length of each block of f.ec_family() divides the weight of the root of f (its number of true places). So the number of functions in the family times this weight is a multiple of 2**valency. If f is male (an odd number of true places), then all blocks have one element, and the family has 2**valency members.", "quantifier": "all Boolean functions that are not constant, with adicity at most 10, all labels of the family", "why_tests_cant": "The claim relates a partition built from 2**valency transformed functions to the number of true places, for all functions up to adicity 10, of which there are 2**1024.", "anchors": ["discretehelpers/boolf/methods/_ec/ec_family/__init__.py:8-28", "discretehelpers/set_part/methods/block_labels/__init__.py:27-43"]}
{"id": "C178", "title": "Partitions: join and meet are semimodular in rank, and merge_pair raises the rank by at most one", "statement": "Let the rank of a set partition be sum(len(b) - 1 for b in p.blocks). For two partitions of the same domain rank(p.join(q)) + rank(p.meet(q)) <= rank(p) + rank(q). The rank of p.meet(q) is at most that of p, with equality iff p refines q; the rank of p.join(q) is at least that of p, with equality iff q refines p. For partitions of N: p <= q implies rank(p) <= rank(q), and then the ranks are equal iff p == q. Without labels p.merge_pair(a, b) raises the rank by exactly 1 if it succeeds and a, b are different and were not in the same block, and leaves it unchanged in every other case (also when it raises).", "quantifier": "all set partitions the class can hold, all pairs of the same domain, all pairs of elements", "why_tests_cant": "Relates the results of two different algorithms on unbounded sets of blocks; a sample of partitions says nothing about the inequality for all of them.", "anchors": ["discretehelpers/set_part/methods/merge_pair/__init__.py", "discretehelpers/set_part/methods/meet_and_join/meet.py: meet", "discretehelpers/set_part/methods/meet_and_join/join/_1_fast.py: join", "discretehelpers/set_part/__init__.py: __le__"]}
{"id": "C179", "title": "The sum of len(c) - 1 over the cycles is the smallest number of transpositions", "statement": "For a finite permutation p let d(p) = sum(len(c) - 1 for c in p.cycles). d(p) is the rank of p.cycle_partition (the same sum over its blocks), and it is 0 iff p is neutral. d(p*q) <= d(p) + d(q). For a != b, d(p * Perm([[a, b]])) is d(p) - 1 if some power of p maps a to b, and d(p) + 1 otherwise. d(p) is the smallest number of permutations Perm([[a, b]]) with a != b whose product is p, and every number of such permutations with product p has the same parity as d(p).", "quantifier": "all finite permutations p and q, all natural numbers a != b, all sequences of transpositions", "why_tests_cant": "Minimality is a statement about all sequences of transpositions of any length with a given product, for permutations of any size.", "anchors": ["discretehelpers/perm/metributes/cycles.py", "discretehelpers/perm/metributes/cycle_partition/__init__.py:4-12", "discretehelpers/perm/__init__.py: Perm.__mul__", "discretehelpers/perm/__init__.py:34-42"]}
{"id": "C180", "title": "Short products in the algebraic normal form make weights and Walsh spectra divisible by powers of two", "statement": "Let n be at least the adicity of f, and let d >= 1 be such that no binary exponent of f.zhe has more than d binary digits 1 (the algebraic normal form has no product of more than d atoms). Then 2**(ceil(n/d) - 1) divides the number of true places of f among the first 2**n, every entry of f.walsh_distances(n), and every entry of f.walsh_spectrum(n).", "quantifier": "all Boolean functions f (also inflated ones), all n from the adicity on, all d >= 1", "why_tests_cant": "A divisibility theorem (McEliece) about two independently computed transforms, for functions with any number of arguments.", "anchors": ["discretehelpers/boolf/metributes/zhe/__init__.py", "discretehelpers/boolf/methods/twin/__init__.py", "discretehelpers/boolf/subinit_methods/zhe/__init__.py", "discretehelpers/boolf/a/twin_misc/__init__.py", "discretehelpers/boolf/methods/walsh_distances/__init__.py", "discretehelpers/a/make_linear_boolf/__init__.py"]}
{"id": "C181", "title": "Every noble is the patron of exactly one function of fewer atoms, and the patron index is its truth table", "statement": "For a Boolean function f with adicity at most m, f.patron_index(m + 1) is the integer value of f.tt(m). Every noble z of arity m + 1 (below 2**2**(m+1), its own twin) is f.patron_int(m + 1) for exactly one Boolean function f with adicity at most m, namely the one whose truth table of arity m is the upper half of z, z >> 2**m. Two functions with adicity at most n have the same patron_int(n) iff (f ^ g).is_noble(n). (Binary lengths of integers are taken to be exact, as in C74.)", "quantifier": "all m and n, all Boolean functions with the respective adicity (for the index also inflated ones), all nobles of arity m + 1", "why_tests_cant": "A bijection between all functions and all nobles for every arity; the number of functions grows doubly exponentially, so tests cover only the smallest arities.", "anchors": ["discretehelpers/boolf/methods/_patron/__init__.py:4-24"]}
{"id": "C182", "title": "The prefect is a projection to the linear functions", "statement": "zhe_to_prefect(z, n) is the same for all arities n with z < 2**2**n. For Boolean functions f and g the prefect_walsh_and_oddness of f ^ g is the xor of those of f and g, and so is its consul(n) for every n that is at least both adicities. For n at least the adicity of f, consul(n) of f.twin(n) is the Walsh index of the prefect of f. A function built by the library equals its prefect_boolf iff is_linear. The prefect_boolf of every function is linear, is its own prefect_boolf, and has the same prefect_walsh_and_oddness. (Integer binary lengths are taken to be exact, as in C75.)", "quantifier": "all Boolean functions (also inflated ones), all Zhegalkin indices, all sufficient arities", "why_tests_cant": "There are 2**2**n functions of n atoms and no bound on n, and the statements compare two or three functions with different adicities. Tests can only try a few of them.", "anchors": ["discretehelpers/boolf/metributes/_prefect/__init__.py:9-40", "discretehelpers/boolf/a/twin_misc/__init__.py:62-66", "discretehelpers/boolf/methods/consul/__init__.py:10-18"]}
{"id": "C183", "title": "The lengths of the products in the algebraic normal form", "statement": "Say that f has products of at most d atoms if all exponents of f.zhe (in int_to_exposet) have at most d binary digits 1. If f has products of at most d atoms and g of at most e, then ~f has products of at most d atoms, f ^ g of at most max(d, e), and f & g and f | g of at most d + e. If a signed permutation is applied to f with apply_sigperm, or if a Walsh permutation w is applied to the truth table f.tt(n), where n is at least the adicity of f and the degree of w, then the new function has products of at most d atoms iff f has. is_linear holds iff f has products of at most one atom. (Integer binary lengths are taken to be exact, as in C75.)", "quantifier": "all Boolean functions (for operators and is_linear also inflated ones), all finite signed permutations, all Walsh permutations, all sufficient arities, all d and e", "why_tests_cant": "The statements are about unboundedly many functions, permutations and arities at once. The bound for conjunctions is about all pairs of functions, whose number is doubly exponential.", "anchors": ["discretehelpers/boolf/metributes/zhe/__init__.py:8-13", "discretehelpers/boolf/methods/bitwise/__init__.py:24-25", "discretehelpers/boolf/metributes/complement/__init__.py:4-9", "discretehelpers/boolf/methods/vals_apply/apply_sigperm.py", "discretehelpers/perm/__init__.py:174-177", "discretehelpers/boolf/metributes/is_linear/__init__.py:7-14"]}
{"id": "C184", "title": "Orders of powers and products of permutations, and parities of powers", "statement": "For a permutation p and an integer n the order of p**n is p.order // gcd(p.order, abs(n)). For permutations p and q that can be multiplied, p * q and q * p have the same order. If moreover p * q == q * p, then the order of p * q divides the least common multiple of the orders of p and q, and is their product if they are coprime. For a finite permutation p the parity of p**n is abs(n) * p.parity modulo 2, and if the parity is 1, then the order is even. (Orders without the limit of 64 bits, see C165.)", "quantifier": "all permutations, finite or periodic (finite for the parity), all integer exponents", "why_tests_cant": "There are infinitely many permutations and exponents, and the order is computed from cycles while powers and products are computed from mappings and periods. Tests only compare a few of them.", "anchors": ["discretehelpers/perm/metributes/order.py", "discretehelpers/perm/metributes/cycles.py", "discretehelpers/perm/__init__.py: Perm.__pow__", "discretehelpers/perm/__init__.py: Perm.__mul__", "discretehelpers/perm/metributes/parity/__init__.py"]}
{"id": "C185", "title": "Changes along a direction, and functions far from all linear ones", "statement": "Let n be at least the adicity of f, d = f.walsh_distances(n), and for c < 2**n let D(c) be the number of places i < 2**n with f(i) != f(i ^ c), where f(i) is the value for the binary digits of i. The sum over k < 2**n of (2**n - 2*d[k])**2, taken negative where c & k has an odd number of ones, is 2**n * (2**n - 2*D(c)). All (2**n - 2*d[k])**2 are 2**n, iff D(c) is 2**(n-1) for each c from 1 to 2**n - 1 (f is bent). For odd n no function has this property. For n = 2m such a function is true at 2**(2m-1) - 2**(m-1) or at 2**(2m-1) + 2**(m-1) places below 2**n.", "quantifier": "all Boolean functions f, all n from the adicity on, all directions c below 2**n", "why_tests_cant": "The equation relates all 2**n distances to all pairs of places; there are 2**(2**n) functions for each of infinitely many n, and the absence of bent functions for odd n is a claim about all of them.", "anchors": ["discretehelpers/boolf/methods/walsh_distances/__init__.py"]}
{"id": "C186", "title": "weight_fract is a measure, and the bitwise comparison is the order of a Boolean algebra", "statement": "Let w(f) be f.weight_fract. w(f | g) + w(f & g) = w(f) + w(g) and w(f ^ g) = w(f | g) - w(f & g), and w(f) is between 0 and 1. If f.bitwise_le(g), then w(f) <= w(g), with equality only for f == g. w(f ^ g) is a distance of functions: it is 0 exactly for f == g, and w(f ^ h) <= w(f ^ g) + w(g ^ h). For the order bitwise_le, f & g is the greatest lower bound and f | g the least upper bound; f.bitwise_le(g) iff f & g == f iff f | g == g iff (~g).bitwise_le(~f); and (f & g).bitwise_le(h) iff f.bitwise_le(~g | h).", "quantifier": "all Boolean functions f, g and h, also with different atoms (for the measure also inflated functions)", "why_tests_cant": "The equations hold for functions of any number of atoms in any overlap; the results of the operators are deflated to their own atoms, so that the fractions have different denominators.", "anchors": ["discretehelpers/boolf/methods/bitwise/__init__.py:4-21,36-49", "discretehelpers/boolf/methods/bitwise/__init__.py:4-33,52-53", "discretehelpers/boolf/metributes/complement/__init__.py", "discretehelpers/boolf/metributes/weight_fract/__init__.py:6-11"]}
{"id": "C187", "title": "twin and reverse generate at most six transformations", "statement": "Let n be at least the adicity of f. f.twin(n).reverse.twin(n) == f.reverse.twin(n).reverse. This function has the value at j < 2**n, that is the parity of the number of true places i < 2**n of f with j & i == j (twin itself counts those with i & j == i). Consequently the replacement of f by f.twin(n).reverse, done three times, leads back to f, so that together with twin and reverse being involutions the two generate a group of at most six transformations (for inflated functions the equation of the two paths holds as well).", "quantifier": "all Boolean functions f, all n from the adicity on, all places j below 2**n", "why_tests_cant": "It is an identity of transformations of all 2**(2**n) functions for each of infinitely many n; twin and reverse deflate their results, so intermediate functions can have fewer atoms than f.", "anchors": ["discretehelpers/boolf/a/twin_misc/__init__.py", "discretehelpers/boolf/methods/twin/__init__.py", "discretehelpers/boolf/metributes/reverse/__init__.py"]}
{"id": "C188", "title": "Powers, inverses and transposes of Walsh permutations", "statement": "For a Walsh permutation w the inverse of the transpose is equal to the transpose of the inverse: w.transpose.inverse == w.inverse.transpose. For all integers m and n, w**m * w**n == w**(m+n) and (w**m)**n == w**(m*n). There is a positive k for which w**k is neutral, so that w**(n+k) == w**n for every integer n.", "quantifier": "all Walsh permutations of any degree, made by any constructor call; all integer exponents, also negative ones", "why_tests_cant": "There are infinitely many Walsh permutations and exponents; the inverse is computed in one of two ways depending on the determinant, and powers with negative exponents go through the inverse.", "anchors": ["discretehelpers/walsh_perm/__init__.py:77-90", "discretehelpers/walsh_perm/metributes/inverse/__init__.py:8-28", "discretehelpers/walsh_perm/metributes/transpose/__init__.py:4-11", "discretehelpers/walsh_perm/metributes/determinant/__init__.py:6-11"]}
{"id": "C189", "title": "Ranks of complementary and rotated arrangements", "statement": "Let l be an arrangement of 0..n-1, and c = [n-1-x for x in l]. Perm(l).left_rank + Perm(c).left_rank = n! - 1. Perm(l).right_rank + Perm(c).right_rank = n! - 1, if the last entry of l is neither 0 nor n-1; otherwise one of the permutations is shorter than n and the sum can be different (as for l = [1, 2, 0]). If the first entry of l is not 0, Perm(reversed(c)).right_rank = Perm(l).left_rank.", "quantifier": "all arrangements of 0..n-1, for all n", "why_tests_cant": "There are n! arrangements for each of infinitely many n; the exceptions come from trailing fixed points that the constructor drops.", "anchors": ["discretehelpers/perm/metributes/ranks/right_rank.py", "discretehelpers/perm/a/inversion_related_vectors/__init__.py", "discretehelpers/perm/metributes/ranks/left_rank.py"]}
{"id": "C190", "title": "intval turns the lattice of partitions into binary operations", "statement": "For partitions of the natural numbers whose elements are natural numbers (values not outdated, see C42): p.meet(q).intval == p.intval & q.intval; p <= q iff p.intval & q.intval == p.intval; p.join(q).intval contains all binary digits of p.intval | q.intval, and its digits are contained in those of every partition whose intval contains p.intval | q.intval. p.intval < 2**(0 + ... + (n-1)) iff all elements of blocks with more than one element are below n.", "quantifier": "all pairs and triples of partitions of the naturals", "why_tests_cant": "The meet and the join use graph searches, and intval sums over pairs; that the results agree for all partitions of an infinite set is beyond any sample.", "anchors": ["discretehelpers/set_part/metributes/intval/__init__.py: intval", "discretehelpers/set_part/methods/meet_and_join/meet.py: meet", "discretehelpers/set_part/methods/meet_and_join/join/_1_fast.py: join", "discretehelpers/set_part/__init__.py: __le__"]}
{"id": "C191", "title": "Negators of products and inverses of signed permutations", "statement": "For finite signed permutations s, t: s.keyneg_index == s.inverse.valneg_index, s.valneg_index == s.inverse.keyneg_index and s.inverse.perm == s.perm.inverse. (s*t).perm == s.perm * t.perm; digit i of (s*t).keyneg_index is the exclusive or of digit i of t.keyneg_index and digit t.perm[i] of s.keyneg_index; digit s.perm[i] of (s*t).valneg_index is the exclusive or of digit s.perm[i] of s.valneg_index and digit i of t.valneg_index. With n = SigPerm(valneg=b, perm=Perm()) and q = SigPerm(valneg without ones, perm=p) the product n*q has the entries of SigPerm(valneg=b, perm=p), and q*n those of SigPerm(keyneg=b, perm=p).", "quantifier": "all finite signed permutations, all negators, all finite permutations", "why_tests_cant": "Products and inverses go through matrices, while the negators are read from vectors and sequences; their agreement for all lengths is not covered by examples.", "anchors": ["discretehelpers/sig_perm/__init__.py: __init__, __mul__", "discretehelpers/sig_perm/metributes/inverse.py: inverse", "discretehelpers/sig_perm/metributes/_indices/keyneg_index.py: keyneg_index", "discretehelpers/sig_perm/metributes/_indices/valneg_index.py: valneg_index"]}
{"id": "C192", "title": "Which Schoute permutations are Walsh permutations", "statement": "For a finite signed permutation s that is not neutral, WalshPerm(perm=s.schoute_perm) succeeds iff s.unsigned (InvalidPermError otherwise). Then the result is the same function as s.schoute_perm, its degree is s.length, and its transpose equals its inverse. For the neutral one the empty sequence causes a ValueError.", "quantifier": "all finite signed permutations", "why_tests_cant": "It connects three classes (SigPerm, Perm, WalshPerm) for permutations of 2**n numbers with n arbitrary; tests reach only small n.", "anchors": ["discretehelpers/perm/metributes/schoute_perm/__init__.py:9-27", "discretehelpers/walsh_perm/__init__.py:15-49", "discretehelpers/walsh_perm/a/perm_to_matrix/__init__.py:14-48"]}
{"id": "C193", "title": "left_rank is below n! exactly for permutations of length at most n", "statement": "For a finite permutation p: p.left_rank < n! iff p.length <= n. If p.length <= n+1, then p.left_rank // n! == n - p[n]. int_to_perm(r) has a length of at most n for each r < n!, and every finite permutation of length at most n is int_to_perm(r) for some r < n!.", "quantifier": "all finite permutations, all n", "why_tests_cant": "The rank goes through inversion counts and factorial digits of unbounded length; tests list only the permutations of few elements.", "anchors": ["discretehelpers/perm/metributes/ranks/left_rank.py", "discretehelpers/perm/a/inversion_related_vectors/__init__.py", "discretehelpers/a/int_to_perm/__init__.py", "discretehelpers/a/int_to_factoradic/__init__.py"]}
{"id": "C194", "title": "Pairs of indices below 2**n and n! belong to the signed permutations of length at most n", "statement": "For a finite signed permutation s with s.pair == (v, r): s.length <= n iff v < 2**n and r < n!; and also iff s.keyneg_index < 2**n and r < n!. SigPerm(pair=(v, r)) has length at most n for all v < 2**n and r < n!, and every finite signed permutation of length at most n has the entries of one of them.", "quantifier": "all finite signed permutations, all n, all pairs of indices", "why_tests_cant": "The number 2**n * n! of cases grows too fast to be tested beyond small n.", "anchors": ["discretehelpers/sig_perm/metributes/_indices/pair.py: pair", "discretehelpers/sig_perm/metributes/_indices/keyneg_index.py: keyneg_index", "discretehelpers/sig_perm/metributes/_indices/perm_index.py: perm_index", "discretehelpers/sig_perm/__init__.py: __init__"]}
{"id": "C195", "title": "The atoms of a function are those in its algebraic normal form", "statement": "For a Boolean function f (made without skip_deflation): a is in f.atomvals iff some binary exponent k of f.zhe has the binary digit 1 at place a. f.zhe < 2**2**n iff f.adicity <= n.", "quantifier": "all Boolean functions, all atoms a, all n", "why_tests_cant": "There are 2**2**n functions with n arguments; the two attributes are computed in unrelated ways (deflation of the truth table, and a binary transform).", "anchors": ["discretehelpers/boolf/a/twin_misc/__init__.py", "discretehelpers/boolf/methods/twin/__init__.py", "discretehelpers/boolf/metributes/zhe/__init__.py", "discretehelpers/boolf/subinit_methods/zhe/__init__.py", "discretehelpers/boolf/a/intval_to_arity/__init__.py", "discretehelpers/boolf/__init__.py:10-44", "discretehelpers/boolf/a/deflate/__init__.py", "discretehelpers/boolf/a/reorder_if_atomvals_not_asc/__init__.py", "discretehelpers/boolf/subinit_methods/tt/__init__.py:9-71"]}
{"id": "C196", "title": "Signed permutations of atoms rearrange truth tables and Zhegalkin indices by the Schoute permutation", "statement": "For a Boolean function f and a finite signed permutation s: f.apply_sigperm(s)[s.schoute_perm[key]] == f[key] for all keys. If s is unsigned, the binary digit of f.apply_sigperm(s).zhe at place s.schoute_perm[k] is that of f.zhe at place k, for all k.", "quantifier": "all Boolean functions (also inflated ones), all finite signed permutations, all keys", "why_tests_cant": "It connects three independent computations (substitution of atoms, permutation of 2**n places, binary transform) for any number of atoms.", "anchors": ["discretehelpers/boolf/methods/vals_apply/apply_sigperm.py", "discretehelpers/boolf/methods/vals_apply/apply.py", "discretehelpers/perm/metributes/schoute_perm/__init__.py:9-27", "discretehelpers/boolf/metributes/zhe/__init__.py"]}
{"id": "C197", "title": "Which signed permutations do not change a Boolean function", "statement": "For a Boolean function f (made without skip_deflation) and a finite signed permutation s: f.apply_sigperm(s) == f iff f[s.schoute_perm[key]] == f[key] for all keys. If s is unsigned, this is so iff the binary digits of f.zhe at the places k and s.schoute_perm[k] are equal for all k. With s and t also t*s and s.inverse leave f unchanged.", "quantifier": "all Boolean functions, all finite signed permutations, all keys and places", "why_tests_cant": "The equivalences concern all functions and all 2**n * n! signed permutations of any length n.", "anchors": ["discretehelpers/boolf/methods/vals_apply/apply_sigperm.py", "discretehelpers/boolf/methods/vals_apply/apply.py", "discretehelpers/perm/metributes/schoute_perm/__init__.py:9-27", "discretehelpers/boolf/metributes/zhe/__init__.py"]}
{"id": "C198", "title": "Symmetric functions are those that permutations of their atoms do not change", "statement": "For a Boolean function f (made without skip_deflation), f.is_symmetric is True iff f.apply_sigperm(s) == f for every finite unsigned signed permutation s that maps atoms of f to atoms of f.", "quantifier": "all Boolean functions, all finite unsigned signed permutations mapping atoms to atoms", "why_tests_cant": "is_symmetric compares layers of the truth table; the other side concerns all permutations of any number of atoms.", "anchors": ["discretehelpers/boolf/metributes/is_symmetric/__init__.py:4-13", "discretehelpers/boolf/methods/vals_apply/apply_sigperm.py", "discretehelpers/boolf/methods/vals_apply/apply.py"]}
