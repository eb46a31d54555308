{"id": "C01", "title": "rational(n,d) is exact and canonical", "statement": "For all integers n and all d != 0, rational(n,d) represents n/d, its denominator() is positive and numerator()/denominator() are coprime; rational(n) is n/1.", "quantifier": "all integers n and all non-zero integers d", "why_tests_cant": "Infinite input space; sign and gcd corner cases (0/d, negative d, gcd of 0).", "anchors": ["wicked/helpers/rational.cc: rational::rational, reduce"]}
{"id": "C02", "title": "rational +, -, *, unary minus are exact and stay canonical", "statement": "For canonical a and b, a+b, a-b, a*b and -a represent exactly the sum, difference, product and negation of the represented numbers, and the result is again in lowest terms with a positive denominator.", "quantifier": "all pairs of canonical rationals", "why_tests_cant": "Infinite input space.", "anchors": ["wicked/helpers/rational.cc: operator+=, operator-=, operator*=, operator-(rational)"]}
{"id": "C03", "title": "rational division is exact and stays canonical", "statement": "For canonical a and canonical non-zero b, a/b represents the quotient and is again canonical, so that (a/b)==c holds for every canonical c with the same value.", "quantifier": "all pairs of canonical rationals with non-zero divisor", "why_tests_cant": "Infinite input space; the sign of the divisor is a corner case.", "anchors": ["wicked/helpers/rational.cc: operator/="]}
{"id": "C04", "title": "rational == is numeric equality", "statement": "For canonical a and b, a==b iff they represent the same number; == is an equivalence relation and != is its negation.", "quantifier": "all pairs of canonical rationals", "why_tests_cant": "Infinite input space.", "anchors": ["wicked/helpers/rational.cc: operator==, operator!="]}
{"id": "C05", "title": "str and make_rational are inverse", "statement": "For every canonical rational r whose |numerator| and denominator fit a 32-bit int, make_rational(r.str(sign)) == r for both values of sign; any string outside the grammar ws* [+-]? digits* (/ digits+)? ws* (with a numerator when there is a '/') is rejected with an exception.", "quantifier": "all canonical rationals in int range, all strings", "why_tests_cant": "Infinite set of values and strings.", "anchors": ["wicked/helpers/rational.cc: rational::str, make_rational_from_str"]}
{"id": "C06", "title": "64-bit arithmetic either is exact or overflows visibly", "statement": "In the build without boost every arithmetic step of +, -, *, / on rationals is either exact or leaves the 64-bit range (undefined behaviour); when numerators and denominators are bounded by B with 2*B*B < 2^63 none of the operations overflows and the results are those of exact arithmetic.", "quantifier": "all pairs of rationals", "why_tests_cant": "Needs every operand pair below and above the boundary.", "anchors": ["wicked/helpers/rational.cc: operator+=, operator-=, operator*=, operator/=", "wicked/helpers/rational.h: rational_t"]}
{"id": "C07", "title": "factorial and binomial are n! and C(n,k)", "statement": "factorial(n)=n! for every n>=0 (1 for negative n), binomial(n,k)=C(n,k) for all n>=0 and k>=0; each intermediate division in binomial is exact; with 64-bit integers factorial is exact for n<=20 and overflows for n=21.", "quantifier": "all integers n, k", "why_tests_cant": "Infinite input space; the running product/division must be exact at every step.", "anchors": ["wicked/helpers/combinatorics.cc: factorial, binomial"]}
{"id": "C08", "title": "permutation_sign is the sign of the permutation", "statement": "For every permutation sigma of {0..n-1}, permutation_sign([sigma(0),...,sigma(n-1)]) is the sign of sigma; for every list of pairwise distinct integers exchanging two entries flips the result.", "quantifier": "all n and all permutations of n elements", "why_tests_cant": "n! permutations for every n.", "anchors": ["wicked/helpers/combinatorics.cc: permutation_sign"]}
{"id": "C09", "title": "integer_partitions lists every partition exactly once", "statement": "For n>=2 (and n=0), integer_partitions(n,maxlen) contains exactly the non-increasing lists of positive integers with sum n and length <= maxlen, each once, in increasing lexicographic order; the algorithm terminates and never accesses its work array out of bounds. (n=1 ignores maxlen; negative n gives no partitions.)", "quantifier": "all n and all maxlen", "why_tests_cant": "Loop invariant of an in-place array algorithm for unbounded n.", "anchors": ["wicked/helpers/combinatorics.cc: integer_partitions"]}
{"id": "C10", "title": "the space registry is consistent after any history of successful calls", "statement": "After any sequence of reset_space and successful add_space calls: labels are pairwise distinct, no index name belongs to two spaces, label(label_to_space(l))==l for every registered l, label_to_space rejects every other label, spaces are numbered in order of registration, and num_spaces is the number of successful calls since the last reset.", "quantifier": "all histories of reset/add_space", "why_tests_cant": "Histories of unbounded length.", "anchors": ["wicked/helpers/orbital_space.cc: add_space, label_to_space, reset", "wicked/api/orbital_space_api.cc"]}
{"id": "C11", "title": "a failed add_space leaves the registry unchanged", "statement": "If add_space raises an exception (label already defined, index already used, unknown elementary space), the observable registry (num_spaces, label_to_space, indices, acceptance of later add_space calls) is the same as before the call.", "quantifier": "all registry states reachable by any history and all arguments", "why_tests_cant": "Every reachable state and every failing argument.", "anchors": ["wicked/helpers/orbital_space.cc: add_space"]}
{"id": "C12", "title": "index strings round-trip", "statement": "For every registered space with a letter label and every pos in 0..2^31-1, index(str(i))==i and index(label+'_'+pos)==i; a string that is not letter, optional underscore, digits is rejected, and so is an unregistered label.", "quantifier": "all registries, spaces and positions, all strings", "why_tests_cant": "Infinite input space.", "anchors": ["wicked/algebra/index.cc: Index::str, make_index_from_str"]}
{"id": "C13", "title": "index_label gives different names to different indices", "statement": "In a registry produced by successful add_space calls, in which no user index name has the form label_{number}, two different (space,pos) pairs with registered spaces and pos>=0 have different latex names.", "quantifier": "all registries and index pairs", "why_tests_cant": "Infinite pairs of indices and arbitrary user names.", "anchors": ["wicked/helpers/orbital_space.cc: index_label", "wicked/algebra/index.cc: Index::latex"]}
{"id": "C14", "title": "comparison operators are strict weak orders", "statement": "operator< on Index, SQOperator, Tensor, SymbolicTerm, GraphMatrix, Operator, operator products, the pair and tuple keys used by std::sort, and graph_less are strict weak orders (the precondition of std::map and std::sort), total up to ==, and neither a<b nor b<a holds exactly when a==b for each of them.", "quantifier": "all pairs/triples of values", "why_tests_cant": "All triples of unbounded values.", "anchors": ["wicked/algebra/index.cc: operator<", "wicked/algebra/sqoperator.cc: operator<", "wicked/algebra/tensor.cc: operator<", "wicked/algebra/symbolic_term.cc: operator<", "wicked/diagrams/operator.cc: operator<", "wicked/diagrams/graph_matrix.cc: operator<", "wicked/diagrams/wick_theorem_canonicalize_graph.cc: graph_less"]}
{"id": "C15", "title": "canonicalize_indices sorts and returns the parity", "statement": "For every list of indices, canonicalize_indices returns a sorted rearrangement (increasing, or decreasing when reversed) and the sign of the permutation that sorts it; for every antisymmetric function f, f(indices) = sign * f(sorted indices).", "quantifier": "all index lists, both directions, all antisymmetric functions", "why_tests_cant": "Unbounded length, all orders, repeated indices.", "anchors": ["wicked/algebra/index.cc: canonicalize_indices"]}
{"id": "C16", "title": "canonicalize_sqops preserves the operator product under normal ordering", "statement": "Sorting a product of second-quantized operators with canonicalize_sqops yields sign*sorted product equal to the original in every algebra where fermionic operators anticommute pairwise and bosonic ones commute with everything.", "quantifier": "all operator strings, all such algebras", "why_tests_cant": "Unbounded length, all interleavings of creation/annihilation and of fields.", "anchors": ["wicked/algebra/sqoperator.cc: canonicalize_sqops, commutator_factor"]}
{"id": "C17", "title": "Tensor.canonicalize preserves the tensor value", "statement": "For antisymmetric (symmetric) tensors, canonicalize leaves sorted upper and lower indices and returns the phase with value(original)=phase*value(new) for every (anti)symmetric valuation; a second call returns phase 1 and changes nothing; nonsymmetric tensors are rejected.", "quantifier": "all tensors, all valuations with the declared symmetry", "why_tests_cant": "All index orders and valuations.", "anchors": ["wicked/algebra/tensor.cc: Tensor::canonicalize"]}
{"id": "C18", "title": "adding terms is addition of coefficients", "statement": "After any sequence of add/+=/-= operations on an Expression or OperatorExpression the coefficient of every term is the exact sum of the coefficients added for it (equal terms being merged), no stored coefficient is zero, and no two stored terms are equal.", "quantifier": "all histories of add, +=, -=, all terms", "why_tests_cant": "Histories of unbounded length.", "anchors": ["wicked/helpers/algebra.hpp: Algebra::add, operator+=, operator-=", "wicked/helpers/helpers.h: add_to_map"]}
{"id": "C19", "title": "expression equality is equality of all coefficients", "statement": "Two expressions built by add/+=/-=/@/negation compare equal iff every term has the same coefficient in both; in particular e-e equals the empty expression and + is commutative and associative up to ==.", "quantifier": "all expressions built by histories of those operations", "why_tests_cant": "Infinitely many expressions and histories.", "anchors": ["wicked/helpers/algebra.hpp: is_equal", "wicked/algebra/expression.cc: operator=="]}
{"id": "C20", "title": "scalar multiplication and division scale every coefficient", "statement": "e*c has coefficient c*x wherever e has x; (e*c) equals the expression built by adding the scaled terms, for every rational c including 0; e/c is e*(1/c) and c=0 raises an exception.", "quantifier": "all expressions, all scalars", "why_tests_cant": "Infinite space; c=0 is the corner.", "anchors": ["wicked/helpers/algebra.hpp: operator*=(scalar_t), operator/=(scalar_t)"]}
{"id": "C21", "title": "@ on operator expressions is an associative bilinear product", "statement": "A@B has as coefficient of a product w the sum over all splits w=uv of A(u)*B(v); hence (A@B)@C==A@(B@C), A@(B+C)==A@B+A@C, (A+B)@C==A@C+B@C, and scalars pull out.", "quantifier": "all operator expressions", "why_tests_cant": "Infinitely many expressions; cancellations and merges.", "anchors": ["wicked/helpers/algebra.hpp: operator*=(const Algebra&)", "wicked/diagrams/operator_expression.cc: operator*", "wicked/diagrams/operator_product.cc: operator*"]}
{"id": "C22", "title": "adjoint is an involutive anti-automorphism on operator expressions", "statement": "adjoint(adjoint(A))==A, adjoint(A+B)==adjoint(A)+adjoint(B), adjoint(A@B)==adjoint(B)@adjoint(A) for all operator expressions; the adjoint of an operator exchanges creation and annihilation counts in every space.", "quantifier": "all operator expressions over at most 8 spaces", "why_tests_cant": "Infinitely many expressions.", "anchors": ["wicked/diagrams/operator_expression.h: adjoint", "wicked/helpers/product.hpp: adjoint", "wicked/diagrams/graph_matrix.cc: adjoint"]}
{"id": "C23", "title": "commutator is the Lie bracket", "statement": "commutator(A,B)==A@B-B@A, commutator(A,A) is empty, commutator(A,B)==-commutator(B,A), bilinearity and the Jacobi identity hold exactly; commutator(A,B,C,...) nests to the left.", "quantifier": "all operator expressions and argument lists", "why_tests_cant": "Infinitely many expressions.", "anchors": ["wicked/diagrams/operator_expression.cc: commutator", "wicked/api/operator_api.cc: commutator"]}
{"id": "C24", "title": "bch_series(A,B,n) is the truncated BCH expansion", "statement": "bch_series(A,B,n) = sum_{k=0..n} (1/k!) [[..[A,B],..],B] (k-fold), for every n>=0; n<=0 gives A.", "quantifier": "all A, B, n", "why_tests_cant": "All orders n.", "anchors": ["wicked/diagrams/operator_expression.cc: bch_series"]}
{"id": "C25", "title": "dot is symmetric and bilinear", "statement": "e.dot(f)=sum over common terms of the products of coefficients; dot(e,f)==dot(f,e); dot is additive in each argument and dot(e,e)=0 only for the empty expression; the exact sum under the square root in norm() is dot(e,e) (the conversion to double is not covered).", "quantifier": "all expressions", "why_tests_cant": "Infinitely many expressions.", "anchors": ["wicked/helpers/algebra.hpp: dot, norm"]}
{"id": "C26", "title": "vacuum_normal_ordered preserves the operator", "statement": "In every associative algebra over a commutative ring with operators satisfying the canonical (anti)commutation relations (fermions anticommute, bosons commute, fermions and bosons commute, [a_i,a+_j]=delta_ij within a space and 0 across spaces), the value of e.vacuum_normal_ordered() equals the value of e; with only_same_index_contractions=True this holds when different indices denote different orbitals.", "quantifier": "all expressions not labelled normal ordered, all such algebras and valuations", "why_tests_cant": "All operator strings of any length and all representations.", "anchors": ["wicked/algebra/symbolic_term_normal_order.cc: recursive_vacuum_normal_order", "wicked/algebra/expression_normal_order.cc"]}
{"id": "C27", "title": "vacuum_normal_ordered returns normal-ordered terms", "statement": "Every term of e.vacuum_normal_ordered() has all creation operators left of all annihilation operators, creation operators in increasing and annihilation operators in decreasing index order, and no two equal adjacent fermionic operators; is_vacuum_normal_ordered() is true for the result.", "quantifier": "all expressions", "why_tests_cant": "All operator strings.", "anchors": ["wicked/algebra/symbolic_term_normal_order.cc: recursive_vacuum_normal_order", "wicked/algebra/expression_normal_order.cc: is_vacuum_normal_ordered"]}
{"id": "C28", "title": "vacuum_normal_ordered terminates and is idempotent", "statement": "The recursion terminates for every term, and applying vacuum_normal_ordered to its own result returns the same expression.", "quantifier": "all expressions", "why_tests_cant": "Termination over all inputs.", "anchors": ["wicked/algebra/symbolic_term_normal_order.cc: recursive_vacuum_normal_order"]}
{"id": "C29", "title": "labelled normal-ordered terms are rejected", "statement": "vacuum_normal_ordered raises an exception iff some term of the expression is labelled normal ordered; the product of expressions raises an exception iff both factors are non-empty and one of them contains a labelled normal-ordered term.", "quantifier": "all expressions", "why_tests_cant": "All combinations of flags and terms.", "anchors": ["wicked/algebra/expression_normal_order.cc", "wicked/algebra/symbolic_term.cc: operator_product"]}
{"id": "C30", "title": "@ on expressions is the operator product", "statement": "When it does not raise, the value of A@B is value(A)*value(B) for every valuation of tensors in a commutative ring and operators in an algebra over it; @ is associative and distributes over +.", "quantifier": "all expressions without labelled normal-ordered terms", "why_tests_cant": "Infinitely many expressions and valuations.", "anchors": ["wicked/algebra/symbolic_term.cc: operator*=, operator_product_4", "wicked/helpers/algebra.hpp: operator*="]}
{"id": "C31", "title": "adjoint on expressions is the operator adjoint", "statement": "For every *-algebra valuation in which star exchanges creation and annihilation operators and conjugated tensors are starred, value(e.adjoint()) = star(value(e)); adjoint(adjoint(e)) == e.", "quantifier": "all expressions and *-algebra valuations", "why_tests_cant": "Infinitely many expressions and valuations; merging ignores the conjugation flag.", "anchors": ["wicked/algebra/expression.cc: adjoint", "wicked/algebra/symbolic_term.cc: adjoint", "wicked/algebra/tensor.cc: adjoint"]}
{"id": "C32", "title": "terms that differ only in the normal-ordered label stay distinct", "statement": "Adding a normal-ordered term {..} and the same operator string without braces to an expression keeps two terms, since they denote different operators.", "quantifier": "all pairs of terms", "why_tests_cant": "All pairs of terms.", "anchors": ["wicked/algebra/symbolic_term.cc: operator<, operator=="]}
{"id": "C33", "title": "SymbolicTerm.canonicalize preserves the value of the term", "statement": "For a term with (anti)symmetric tensors and fermionic operators understood as a normal-ordered product summed over all indices, factor*canonicalized term equals the original term for all finite orbital spaces and all tensor valuations; no index of the result is shared between objects that did not share it before.", "quantifier": "all terms, orbital dimensions, valuations", "why_tests_cant": "Unbounded terms; relabelling must be injective.", "anchors": ["wicked/algebra/symbolic_term.cc: canonicalize, reindex", "wicked/algebra/expression.cc: canonicalize"]}
{"id": "C34", "title": "canonicalize never touches memory out of bounds", "statement": "canonicalize() is free of undefined behaviour for every term whose indices belong to registered spaces.", "quantifier": "all terms over registered spaces", "why_tests_cant": "Unbounded number of indices (bitset<64> is used internally).", "anchors": ["wicked/algebra/symbolic_term.cc: simplify"]}
{"id": "C35", "title": "reindex applies the index map", "statement": "Expression::reindex(map) replaces every index in its domain by its image in every term, simultaneously, merging terms that become equal.", "quantifier": "all expressions and maps", "why_tests_cant": "Infinitely many expressions/maps.", "anchors": ["wicked/algebra/expression.cc: reindex", "wicked/algebra/symbolic_term.cc: reindex"]}
{"id": "C36", "title": "operator_expr builds a well-formed operator", "statement": "operator_expr(label,components,no,sym,c) yields one term per component with coefficient c (merged when equal), in which every index occurs exactly once on the tensor and exactly once on an operator, creation indices are the lower and annihilation indices the upper tensor indices.", "quantifier": "all component strings over the registered labels and all coefficients", "why_tests_cant": "All component strings.", "anchors": ["wicked/algebra/expression.cc: make_operator_expr"]}
{"id": "C37", "title": "op counts creation and annihilation operators per space", "statement": "op(label,components) depends on each component only through the number of creation and annihilation operators per space (so reordering a component does not change the result), each component contributes coefficient 1, and with unique=True every distinct operator has coefficient exactly 1.", "quantifier": "all component lists", "why_tests_cant": "All component strings and orders.", "anchors": ["wicked/diagrams/operator_expression.cc: make_diag_operator_expression"]}
{"id": "C38", "title": "gen_op produces each component exactly once", "statement": "gen_op(label,rank,cre,ann) with distinct letters in cre and ann contains each operator with `rank` creation operators in the spaces of cre and `rank` annihilation operators in those of ann exactly once with coefficient 1; diagonal=False removes exactly the components whose creation and annihilation strings coincide.", "quantifier": "all ranks and space strings", "why_tests_cant": "All ranks.", "anchors": ["wicked/utils.py: gen_op"]}
{"id": "C39", "title": "Operator.factor is 1/prod(cre! ann!)", "statement": "factor() = 1/prod_s(cre(s)! ann(s)!) exactly and is canonical.", "quantifier": "all operators", "why_tests_cant": "All counts.", "anchors": ["wicked/diagrams/operator.cc: factor"]}
{"id": "C40", "title": "OperatorProduct canonicalization preserves the product", "statement": "canonicalize() returns a sign and a rearrangement of the factors with sign*rearranged = original in every algebra in which factors without common contractible spaces commute up to (-1)^(n1*n2); the relative order of non-commuting factors never changes, and the operator expression keeps its value.", "quantifier": "all products and all such algebras", "why_tests_cant": "All orders of factors.", "anchors": ["wicked/diagrams/operator_product.cc: canonicalize", "wicked/diagrams/operator_expression.cc: canonicalize"]}
{"id": "C41", "title": "OperatorProduct canonicalization is a normal form", "statement": "Two operator products that differ only by exchanging adjacent commuting factors have the same canonical form up to the sign.", "quantifier": "all pairs of products", "why_tests_cant": "All pairs of products.", "anchors": ["wicked/diagrams/operator_product.cc: canonicalize"]}
{"id": "C42", "title": "every elementary contraction is generated exactly once", "statement": "For every operator product, step 1 of contract generates, without duplicates, exactly: for occupied spaces one creation operator left of one annihilation operator; for unoccupied spaces one annihilation operator left of one creation operator; for general spaces every choice of k creation and k annihilation legs (1<=k<=max_cumulant) within the available counts that touches at least two operators.", "quantifier": "all operator products, space layouts, max cumulant levels", "why_tests_cant": "Unbounded numbers of operators and legs; relies on partitions and permutations.", "anchors": ["wicked/diagrams/wick_theorem_elementary_contractions.cc: generate_elementary_contractions"]}
{"id": "C43", "title": "every composite contraction is generated exactly once", "statement": "Step 2 generates, without duplicates, exactly the non-decreasing sequences of elementary contractions whose total legs do not exceed the available operators and whose number of uncontracted operators lies in [minrank,maxrank]; backtracking terminates and restores the free-operator counts.", "quantifier": "all operator products, rank windows", "why_tests_cant": "Exponential, unbounded search space.", "anchors": ["wicked/diagrams/wick_theorem_composite_contractions.cc: generate_contractions_backtrack, construct_candidates, make_move, unmake_move, process_contraction"]}
{"id": "C44", "title": "rank window", "statement": "Every term returned by contract(f,ops,minrank,maxrank) contains between minrank and maxrank second-quantized operators; contract over [a,c] equals the sum of contract over [a,b] and [b+1,c]; minrank>maxrank gives the empty expression.", "quantifier": "all operator products and windows", "why_tests_cant": "All windows and products.", "anchors": ["wicked/diagrams/wick_theorem_composite_contractions.cc: process_contraction", "wicked/diagrams/wick_theorem_process_contractions.cc: process_contractions"]}
{"id": "C45", "title": "threaded and single-threaded contraction agree", "statement": "contract returns the same expression with set_single_threaded(True) and (False), for every order in which the asynchronous tasks run and finish.", "quantifier": "all products, all schedules of the tasks", "why_tests_cant": "All interleavings.", "anchors": ["wicked/diagrams/wick_theorem_process_contractions.cc: process_contractions, process_contractions_threads, process_single_contraction"]}
{"id": "C46", "title": "the threaded contraction has no data race", "statement": "Two tasks running concurrently in the default threaded mode never make conflicting unsynchronised accesses to shared state.", "quantifier": "all schedules", "why_tests_cant": "All interleavings.", "anchors": ["wicked/diagrams/wick_theorem_process_contractions.cc: process_single_contraction (timers_)"]}
{"id": "C47", "title": "contract is linear", "statement": "contract(c*f,ops)=c*contract(f,ops); contract(f,A+B)=contract(f,A)+contract(f,B) for operator expressions A,B; contract of an operator expression is the sum over its terms.", "quantifier": "all expressions, scalars", "why_tests_cant": "Infinitely many expressions.", "anchors": ["wicked/diagrams/wick_theorem.cc: contract"]}
{"id": "C48", "title": "evaluating a generated contraction never fails", "statement": "For every operator product over at most 8 spaces and every contraction generated by steps 1 and 2, evaluating it never reaches exit(1), never indexes out of range, and assigns every second-quantized operator a distinct position, so the sign is that of a permutation.", "quantifier": "all products and generated contractions", "why_tests_cant": "All contractions of all products.", "anchors": ["wicked/diagrams/wick_theorem_process_contractions.cc: evaluate_contraction, elements_vec_to_pos, contraction_tensors_sqops"]}
{"id": "C49", "title": "indices of a contracted term pair up", "statement": "In every term produced by contract each index occurs exactly twice: once as a lower (upper) tensor index and once as an upper (lower) tensor index or on a creation (annihilation) operator.", "quantifier": "all products and contractions", "why_tests_cant": "All contractions of all products.", "anchors": ["wicked/diagrams/wick_theorem_process_contractions.cc: evaluate_contraction"]}
{"id": "C50", "title": "the combinatorial factor counts equivalent contractions", "statement": "The combinatorial factor of a contraction pattern equals the number of distinct sets of second-quantized operators that realise the pattern.", "quantifier": "all products and contraction patterns", "why_tests_cant": "All patterns; multiplicities are unbounded.", "anchors": ["wicked/diagrams/wick_theorem_process_contractions.cc: combinatorial_factor"]}
{"id": "C51", "title": "graph canonicalization is sound", "statement": "canonicalize_contraction_graph returns the operators and contractions permuted consistently, moving only operators that are not joined by a pair contraction past each other, with the sign prod(-1)^(n_i n_j) over the exchanged pairs; a permutation is accepted iff every inverted pair is exchangeable.", "quantifier": "all products and contractions", "why_tests_cant": "n! permutations for all n.", "anchors": ["wicked/diagrams/wick_theorem_canonicalize_graph.cc: is_ops_permutation_valid, do_contractions_commute, canonicalize_contraction_graph"]}
{"id": "C52", "title": "graph canonicalization picks a canonical representative", "statement": "The returned graph is minimal in the graph order among all admissible rearrangements, hence two contractions that are admissible rearrangements of each other yield the same operators and contractions; the result does not depend on how std::sort orders equivalent graphs.", "quantifier": "all products and contractions", "why_tests_cant": "All rearrangements.", "anchors": ["wicked/diagrams/wick_theorem_canonicalize_graph.cc: graph_less, canonicalize_contraction_graph"]}
{"id": "C53", "title": "contract computes Wick's theorem", "statement": "For fermionic spaces, contract(f,ops,minrank,maxrank) equals, for all orbital dimensions and antisymmetric tensors, the sum over all sets of disjoint contractions of second-quantized operators between different operators, with rank in the window, of sign * contraction values * normal-ordered remainder; for occupied/unoccupied spaces and a full window this equals the operator product itself.", "quantifier": "all products, dimensions, tensors", "why_tests_cant": "The defining property of the library; unbounded.", "anchors": ["wicked/diagrams/wick_theorem.cc: contract", "wicked/diagrams/wick_theorem_process_contractions.cc: evaluate_contraction"]}
{"id": "C54", "title": "at most 8 spaces", "statement": "With at most 8 registered spaces no graph-matrix access is out of bounds; with more than 8 spaces building any diagrammatic operator is undefined behaviour.", "quantifier": "all registries", "why_tests_cant": "All registry sizes.", "anchors": ["wicked/diagrams/graph_matrix.h: max_spaces_", "wicked/diagrams/graph_matrix.cc"]}
{"id": "C55", "title": "to_manybody_equation partitions the expression", "statement": "Every term of the expression appears in exactly one equation, with its coefficient and tensors, filed under the key that lists the space of each annihilation (upper) and creation (lower) operator; two terms share a key iff they have the same number of creation and annihilation operators in every space; left-hand-side indices are those of the operators.", "quantifier": "all expressions", "why_tests_cant": "All expressions.", "anchors": ["wicked/algebra/expression.cc: to_manybody_equation"]}
{"id": "C56", "title": "einsum letters are assigned injectively", "statement": "In a registry in which no user index name has the form label_{number} (as in C13), in compile('einsum') equal indices get the same letter and different indices different letters, over all tensors of both sides, as long as there are at most 52 distinct indices; every letter on the left-hand side is assigned; beyond 52 the code reads from an empty vector.", "quantifier": "all equations", "why_tests_cant": "All index patterns; order-dependent allocation.", "anchors": ["wicked/algebra/equation.cc: get_unique_index, get_unique_tensor_indices, compile"]}
{"id": "C57", "title": "printing and parsing expressions are inverse", "statement": "string_to_expr(str(e))==e for every expression over parsable labels.", "quantifier": "all expressions", "why_tests_cant": "All expressions and coefficients.", "anchors": ["wicked/algebra/expression.cc: str, make_expression", "wicked/utils.py: string_to_expr"]}
{"id": "C58", "title": "bosonic operators in contract", "statement": "Contracting operators over bosonic spaces uses bosonic signs (no sign change on exchange).", "quantifier": "all products over bosonic spaces", "why_tests_cant": "All products.", "anchors": ["wicked/diagrams/wick_theorem_process_contractions.cc: evaluate_contraction"]}
{"id": "C59", "title": "add2 with the expression itself as argument", "statement": "e.add2(e,c) leaves e with every coefficient multiplied by (1+c), for every expression e and every c, like e.add2(copy of e, c).", "quantifier": "all operator expressions, all scalars", "why_tests_cant": "All expressions; c=-1 cancels every term while the loop iterates over the same map.", "anchors": ["wicked/diagrams/operator_expression.cc: add2", "wicked/helpers/helpers.h: add_to_map"]}
{"id": "C60", "title": "tensors that are complex conjugates of each other are different", "statement": "Two tensors, one the adjoint (complex conjugate) of the other, are not == and expressions never merge terms that differ by conjugation.", "quantifier": "all tensors", "why_tests_cant": "All tensors and expressions.", "anchors": ["wicked/algebra/tensor.cc: operator==, operator<, adjoint", "wicked/algebra/expression.cc: adjoint"]}
{"id": "C61", "title": "the compiled einsum line computes the equation", "statement": "For an Equation over registered spaces with at most 52 distinct indices, the string returned by compile('einsum') is a numpy statement that increments the array named after the left-hand tensor: numpy accepts the call, every tensor is addressed by its label and its space string, and element by element the value added is factor times the sum over all right-hand indices that do not occur on the left of the product of the tensors.", "quantifier": "all equations, registries, tensors and orbital sizes", "why_tests_cant": "The statement is about all equations and all array contents; a test compares the text with a stored string.", "anchors": ["wicked/algebra/equation.cc: compile, get_unique_index"]}
{"id": "C62", "title": "the many-body equations stand for the expression", "statement": "The equations returned by Expression.to_manybody_equation, each read as sum over left-hand indices of (factor * right-hand side) times the creation operators of the lower and the annihilation operators of the upper indices, add up to the expression; in particular the equations of a contract() result stand for the contracted operator product.", "quantifier": "all expressions, orbital systems and tensor values", "why_tests_cant": "Operator identity for every expression and every value of the tensors.", "anchors": ["wicked/algebra/expression.cc: to_manybody_equation", "wicked/algebra/equation.cc"]}
{"id": "C63", "title": "a WickTheorem object can be reused", "statement": "The result (or exception) of WickTheorem.contract depends only on its arguments, the registered spaces and the current settings: after any history of contract calls (successful or failed), setting changes and registry changes on the same object, it equals the result on a newly constructed object with the same settings, and contracting changes no setting.", "quantifier": "all histories of calls on one object, all thread schedules", "why_tests_cant": "Ranges over call histories of any length, including calls aborted by exceptions.", "anchors": ["wicked/diagrams/wick_theorem.cc: contract, set_max_cumulant, do_canonicalize_graph, set_single_threaded", "wicked/diagrams/wick_theorem_composite_contractions.cc: process_contraction"]}
{"id": "C64", "title": "SymbolicTerm.canonicalize chooses one representative", "statement": "Two terms that differ only by the names of the indices (within their spaces) and the order of their tensors and operators get the same canonical term (the same factor if the operators come in the same order, otherwise the same up to sign), and canonicalizing a canonical term changes nothing and returns the factor 1, so that like terms are collected.", "quantifier": "all terms, all renamings and rearrangements", "why_tests_cant": "All renamings of all terms.", "anchors": ["wicked/algebra/symbolic_term.cc: canonicalize, tensor_connectivity"]}
{"id": "C65", "title": "vacuum_normal_ordered respects the summation convention", "statement": "With every index of a term summed over all orbitals of its space (the convention of the printed expressions and of the contraction engine), Expression.vacuum_normal_ordered returns an expression with the same value in every algebra with the canonical (anti)commutation relations.", "quantifier": "all expressions, numbers of orbitals, tensor values and operator algebras", "why_tests_cant": "Operator identity for every number of orbitals; C26 only compares term by term for fixed orbitals.", "anchors": ["wicked/algebra/symbolic_term_normal_order.cc: recursive_vacuum_normal_order", "wicked/algebra/expression_normal_order.cc"]}
{"id": "C66", "title": "the compiled ambit line computes the equation", "statement": "For an Equation without operators over registered spaces, the string returned by compile('ambit') is a statement of the ambit tensor language that increments the left-hand tensor, and element by element it adds factor times the sum over all right-hand indices that do not occur on the left of the product of the tensors; different equations are not compiled to the same text; equations with operators and unknown formats raise an exception.", "quantifier": "all equations, registries, tensors and orbital sizes", "why_tests_cant": "The statement is about all equations and all tensor contents; a test compares the text with a stored string.", "anchors": ["wicked/algebra/equation.cc: compile", "wicked/algebra/symbolic_term.cc: compile", "wicked/algebra/tensor.cc: compile"]}
{"id": "C67", "title": "wicked.compile_einsum computes the equation", "statement": "For an Equation over registered spaces, the string returned by the Python function compile_einsum is a numpy statement that increments the array named after the left-hand tensor by factor times the contraction of the right-hand side; it uses different letters for different indices and raises an exception instead of reusing a letter when a space has too few names.", "quantifier": "all equations, registries, tensors and orbital sizes", "why_tests_cant": "All equations and all array contents; the letters depend on the whole equation.", "anchors": ["wicked/utils.py: compile_einsum", "wicked/helpers/orbital_space.cc: to_dict"]}
{"id": "C68", "title": "set_max_cumulant truncates the result and nothing else", "statement": "Lowering the setting set_max_cumulant from m to k <= m never makes WickTheorem.contract fail, gives no term that contains a density or cumulant of more than k bodies, and gives every other term the coefficient it has with the setting m; a setting at least as large as the number of creation (or annihilation) operators in each general space has no effect at all.", "quantifier": "all operator products and operator expressions, rank windows, factors and settings", "why_tests_cant": "All products and all settings: the elementary contractions, their numbering, the composite contractions and the graph canonicalization all depend on the setting.", "anchors": ["wicked/diagrams/wick_theorem.cc: set_max_cumulant, contract", "wicked/diagrams/wick_theorem_elementary_contractions.cc: elementary_contractions_general"]}
{"id": "C69", "title": "linked-diagram theorem for commutators and bch_series", "statement": "If every operator involved consists of an even number of second-quantized operators and every T is a linear combination of single operators, then contracting commutator(H, T1, ..., Tn) or bch_series(H, T, n) gives linked terms only: every tensor of every term is connected, through tensors that share an index, to a tensor of an operator of H. If H is a linear combination of single operators, none of which occurs in a T, every term is connected (the connected-cluster theorem). This holds for every rank window, factor, number of commutators and cumulant limit, with the default graph canonicalization.", "quantifier": "all operators, linear combinations, numbers of commutators, rank windows, factors and registries of at most 8 spaces", "why_tests_cant": "The unlinked contributions of the 2^n (or more) products cancel exactly only if all signs, factors and canonical representatives agree; this is a cancellation over all products of all sizes.", "anchors": ["wicked/diagrams/operator_expression.cc: commutator, bch_series", "wicked/diagrams/wick_theorem.cc: contract, process_contractions", "wicked/diagrams/wick_theorem_canonicalize_graph.cc: canonicalize_contraction_graph"]}
{"id": "C70", "title": "LaTeX output determines the expression", "statement": "latex() of a SymbolicTerm, Term or Expression over registered spaces succeeds exactly if every tensor label is letters, an optional underscore and optional digits (otherwise it raises). If the index names the user registered can be set side by side (non-empty, without blanks, braces matching, not imitating l_{n}), two terms print the same LaTeX exactly if they have the same operators in the same order, the same normal-ordered label around operators, and tensors with the same indices whose labels differ at most by an underscore or by the digits after a Greek letter; two expressions print the same LaTeX (with the default separator or any other that contains a line break) exactly if moreover they have the same coefficients.", "quantifier": "all registries, terms, coefficients and expressions", "why_tests_cant": "Whether two different terms can print the same text is a question about all pairs of terms; the output is a flat string with nested groups, optional subscripts and two forms for the operators.", "anchors": ["wicked/algebra/tensor.cc: Tensor::latex", "wicked/algebra/sqoperator.cc: SQOperator::latex", "wicked/algebra/symbolic_term.cc: SymbolicTerm::latex, is_creation_then_annihilation", "wicked/algebra/term.cc: Term::latex", "wicked/algebra/expression.cc: Expression::latex", "wicked/helpers/rational.cc: rational::latex"]}
{"id": "C71", "title": "registering more spaces keeps every earlier result", "statement": "Whatever a call returned before, the same call returns after any further sequence of add_space calls, successful or failed: str and latex, parsing of indices, tensors and expressions, canonicalize, vacuum_normal_ordered, to_manybody_equation, Equation.compile, compile_einsum and operator_expr without restriction, and op, gen_op, the adjoint, canonical form and symmetry factor of operators and WickTheorem.contract as long as at most eight spaces are registered.", "quantifier": "all registries with any history, all later add_space calls, all arguments", "why_tests_cant": "The registry is global mutable state that every function reads, and many of them allocate vectors of one entry per registered space; the statement compares two states for all inputs of all functions.", "anchors": ["wicked/helpers/orbital_space.cc: add_space, label_to_space", "wicked/algebra/symbolic_term.cc: canonicalize", "wicked/algebra/expression.cc: to_manybody_equation", "wicked/diagrams/wick_theorem.cc: contract", "wicked/diagrams/graph_matrix.cc", "wicked/utils.py: gen_op, compile_einsum"]}
{"id": "C72", "title": "contract with general spaces is the product in generalised normal order", "statement": "For any mixture of occupied, unoccupied and general spaces and any correlated reference state whose density matrix and cumulants are the tensors gamma1, eta1, lambda2, ... (spaces uncorrelated with each other), WickTheorem.contract over the full range of ranks returns terms whose sum, their operators read as generalised normal products (Mukherjee and Kutzelnigg), equals the product of the operators; with the window 0..0 the sum of the terms is the expectation value of the product in the reference state.", "quantifier": "all registries with at most eight spaces, all products of operators, all orbitals and antisymmetric tensors, all algebras with the canonical anticommutation relations, all reference states", "why_tests_cant": "Contractions with cumulants of every rank, their signs and their index order enter products of any length; expected values in the test suite cover a few low-rank products and were produced by the same rules.", "anchors": ["wicked/diagrams/wick_theorem.cc: contract, generate_elementary_contractions, evaluate_contraction", "wicked/diagrams/operator.cc", "wicked/diagrams/graph_matrix.cc"]}
{"id": "C73", "title": "the BCH series ends", "statement": "If all spaces are occupied or unoccupied and the operators of T cannot be contracted with one another, contracting the nested commutator of H with more than N factors T returns the empty expression, where N bounds the number of second-quantized operators of the products of H; hence contracting bch_series(H,T,n) gives equal expressions for all n >= N (n = 4 for a two-body Hamiltonian).", "quantifier": "all registries with occupied and unoccupied spaces, all H, all T made of single operators with even numbers of second-quantized operators, all n, all rank windows and prefactors", "why_tests_cant": "It concerns arbitrarily long nested commutators, whose products grow exponentially; a test can only run the first few orders for one Hamiltonian.", "anchors": ["wicked/diagrams/operator_expression.cc: commutator, bch_series", "wicked/diagrams/wick_theorem.cc: contract"]}
{"id": "C74", "title": "canonicalizing operator products does not change their contraction", "statement": "For operators with an even number of second-quantized operators, WickTheorem.contract returns equal expressions for two products that differ by exchanges of neighbouring operators without a common contractible space; hence contracting an OperatorExpression before and after canonicalize() gives equal expressions.", "quantifier": "all registries of at most 8 spaces, all operator expressions of even operators, all prefactors, rank windows and cumulant limits", "why_tests_cant": "The canonical form of a product is not unique (C41), so agreement has to come from contract itself, for products of any length and operators of any rank.", "anchors": ["wicked/diagrams/operator_product.cc: canonicalize", "wicked/diagrams/operator_expression.cc: canonicalize", "wicked/diagrams/wick_theorem.cc: contract"]}
{"id": "C75", "title": "contracting the adjoint gives the adjoint", "statement": "For Hermitian tensors, WickTheorem.contract of the adjoint of an operator expression stands for the adjoint of the operator that contract of the expression stands for: same window, same factor, the operators left over read as normal products (with respect to a determinant, or generalised normal products of a Hermitian reference). With the window 0..0 the two scalars are complex conjugates, and an expression equal to its adjoint has a real expectation value.", "quantifier": "all registries of at most 8 spaces of any types, all operator expressions, prefactors, rank windows and cumulant limits, all orbitals and antisymmetric Hermitian tensors over a commutative *-ring", "why_tests_cant": "adjoint() reverses products and exchanges creation and annihilation operators; that every contraction of the adjoint has the conjugate value and the same sign must hold for products of any length.", "anchors": ["wicked/diagrams/operator_expression.h: adjoint", "wicked/diagrams/graph_matrix.cc: adjoint", "wicked/helpers/product.hpp: adjoint", "wicked/diagrams/wick_theorem.cc: contract"]}
{"id": "C76", "title": "printed operators and operator expressions determine them", "statement": "str() of an Operator is its symmetry factor (left out when 1), its label and, in braces, its creation operators by increasing and annihilation operators by decreasing space; passing the label and the text between the braces to op() gives the operator back with coefficient 1. Operators that print alike are equal, and so are OperatorExpressions that print alike, provided the operator labels contain no blanks, line breaks or braces (without this it is false).", "quantifier": "all registries of at most 8 spaces labelled by letters, all operators and operator expressions", "why_tests_cant": "All labels, operators, products, coefficients and numbers of terms; the printed symmetry factor, signs and line breaks must never make two different expressions look the same.", "anchors": ["wicked/diagrams/operator.cc: str", "wicked/diagrams/operator_expression.cc: str, make_operator", "wicked/helpers/rational.cc: str"]}
{"id": "C77", "title": "printed terms and equations can be read back", "statement": "str() of an Equation is lhs += factor rhs; expression() applied to the text after ' += ' gives rhs_expression() back, also for one-digit factors, and applied to a non-empty left-hand text gives the left-hand side with coefficient 1. str() of a Term is read back as the term with its coefficient. Equations (and terms with non-zero coefficients) over parsable labels that print alike are ==.", "quantifier": "all registries that can arise, all terms and equations over parsable labels with factors whose numerators and denominators fit an int", "why_tests_cant": "All factors, labels, numbers of tensors and operators; the factors 0, 1 and -1 print specially.", "anchors": ["wicked/algebra/equation.cc: str, rhs_expression, operator==", "wicked/algebra/term.cc: str", "wicked/algebra/expression.cc: make_expression"]}
{"id": "C78", "title": "the generated einsum program computes the operator expression", "statement": "For e = contract(E) the Python program made of the lines compile('einsum') of to_manybody_equation(e): all lines compile, numpy accepts every call, the lines filed under one key increment one and the same variable (label followed by the spaces of the key), and the sum over the keys of the arrays times the normal products of creation and annihilation operators of their axes is e, hence (occupied/unoccupied spaces, all ranks) the operator expression E itself.", "quantifier": "all registries that can arise, operator expressions, ranks, settings, orbitals, tensors and algebras", "why_tests_cant": "The values of all arrays for all orbital spaces and tensors; tests compare strings.", "anchors": ["wicked/algebra/equation.cc: compile", "wicked/algebra/expression.cc: to_manybody_equation", "wicked/diagrams/wick_theorem.cc: contract"]}
{"id": "C79", "title": "the registry shows what was registered", "statement": "str(osi()) and osi().to_dict() show exactly the registered spaces: to_dict() has one entry per registered space (its label and index names) and no other; the printed registry determines the order, labels, field types, space types and index names of the spaces; add_space accepts exactly the documented type names (fermion, boson; occupied, unoccupied, general), and with any other string it raises and leaves the registry alone; registering the shown spaces again after reset_space() succeeds and gives a registry that shows the same.", "quantifier": "all histories of reset_space and add_space calls (failed ones included), all strings", "why_tests_cant": "All histories and all strings; tests print one registry.", "anchors": ["wicked/helpers/orbital_space.cc: OrbitalSpaceInfo::str, to_dict, string_to_field_type, string_to_space_type", "wicked/api/orbital_space_api.cc: add_space"]}
{"id": "C80", "title": "terms and expressions built call by call", "statement": "A SymbolicTerm built with add/set/set_normal_ordered has the added tensors in order, the operators of the last set followed by those added since, and the flag of the last set_normal_ordered (false by default); a Term has in addition the coefficient of the last set (1 by default). An Expression built with += of Terms, (term, coefficient) pairs and SymbolicTerms holds for every term the sum of what was added for terms == to it, without zero coefficients, independent of the order of the calls, and adding term by term equals adding whole expressions. tensor(label, lower, upper, symmetry) and tensor(string, symmetry) agree, also on which input they reject; cre(s) and ann(s) act on the index that index(s) makes.", "quantifier": "all sequences of calls, all terms, coefficients and index strings", "why_tests_cant": "All sequences of calls; tests build one term.", "anchors": ["wicked/algebra/symbolic_term.cc: SymbolicTerm::add, set", "wicked/algebra/term.cc: Term", "wicked/algebra/tensor.cc: make_tensor, make_tensor_from_str", "wicked/api/expression_api.cc: __iadd__", "wicked/api/term_api.cc: SymbolicTerm, Term"]}
{"id": "C81", "title": "the antisymmetrisation helpers antisymmetrise", "statement": "antisymmetrize_residual_2_2, _3_3, _3_3_aab and _3_3_abb (helpers of the numerical examples) return the sum over all permutations of the indices of one spin of either half, with the signs of the permutations: the result changes by the sign when these indices are rearranged, an array that already does is multiplied by the number of permutations, the antisymmetrised array stands for the same operator times that number, and it is zero iff that operator is zero.", "quantifier": "all arrays, all dimensions", "why_tests_cant": "All arrays; each line of the tables matters.", "anchors": ["examples/numerical/examples_helpers.py: antisymmetrize_residual_2_2, antisymmetrize_residual_3_3", "examples/numerical/examples_helpers_spin_integrated.py: antisymmetrize_residual_3_3_aab, antisymmetrize_residual_3_3_abb"]}
{"id": "C82", "title": "generated Python functions", "statement": "For every expression and every key of its many-body equations, generate_equation produces the text of a Python function with the parameters H and T that sets an array with one axis per index to zero, adds to this array only, uses only its parameters and returns the array that, together with those of the other keys, stands for the expression; it raises an exception iff there is no such key. get_index_blocks returns exactly the blocks of H that the function uses.", "quantifier": "all expressions, all keys", "why_tests_cant": "All expressions; the text of the function is different for each.", "anchors": ["examples/numerical/examples_helpers.py: generate_equation", "examples/numerical/examples_helpers_spin_integrated.py: generate_equation, get_index_blocks", "wicked/algebra/equation.cc: Equation::compile"]}
{"id": "C83", "title": "denominators and amplitude updates", "statement": "compute_inverse_denominators(H, nocc, nvir, rank) returns for every excitation rank n up to rank (at most 3, a higher rank raises an exception) the array 1/(sum H_oo[i,i] - sum H_vv[a,a]); in the spin-integrated version for every split of n into spin-up and spin-down excitations. update_cc_amplitudes adds the residual times these numbers to the blocks of the amplitudes up to this rank and changes nothing else; if no denominator is zero, an amplitude is unchanged iff its residual is zero.", "quantifier": "all blocks of numbers of all dimensions, all ranks", "why_tests_cant": "All arrays and dimensions, including axes of length one that numpy stretches.", "anchors": ["examples/numerical/examples_helpers.py: compute_inverse_denominators, update_cc_amplitudes", "examples/numerical/examples_helpers_spin_integrated.py: compute_inverse_denominators, update_cc_amplitudes"]}
{"id": "C84", "title": "generated residuals are projections on excited determinants", "statement": "Let all spaces be occupied or unoccupied. If an operator expression is contracted within a window of ranks, the many-body equations are compiled and the lines (or the functions made by generate_equation) are executed, then for all occupied orbitals u and unoccupied orbitals l whose number lies in the window, the array computed for the spaces of u and l, antisymmetrised over the indices of each space (for one to three pairs: by the antisymmetrisation helpers), is at [u,l] the matrix element of the operator expression between the vacuum and the determinant excited from u to l; if there is no equation for these spaces (and generate_equation raises), the matrix element is zero.", "quantifier": "all operator expressions, registries of occupied and unoccupied spaces, windows, orbitals, antisymmetric tensors, representations of the anticommutation relations", "why_tests_cant": "All expressions and all orbitals; the claim joins contraction, many-body equations, code generation, execution and antisymmetrisation.", "anchors": ["wicked/diagrams/wick_theorem.cc: WickTheorem::contract", "wicked/algebra/expression.cc: Expression::to_manybody_equation", "wicked/algebra/equation.cc: Equation::compile", "examples/numerical/examples_helpers.py: generate_equation, antisymmetrize_residual_2_2, antisymmetrize_residual_3_3", "examples/numerical/examples_helpers_spin_integrated.py: antisymmetrize_residual_3_3_aab, antisymmetrize_residual_3_3_abb"]}
{"id": "C85", "title": "the generated coupled-cluster program solves the coupled-cluster equations", "statement": "For a Hamiltonian H of one- and two-body operators with at most N second-quantized operators per product and an excitation operator T of any rank, bch_series(H,T,n) stands for all n>=N exactly for exp(-T) H exp(T); contracting it, converting to many-body equations and running the functions of generate_equation gives the energy (no open indices) and, antisymmetrised, the residuals <excited determinant| exp(-T) H exp(T) |vacuum>; an amplitude block is left unchanged by update_cc_amplitudes exactly when the residual projections on all its determinants vanish.", "quantifier": "all Hamiltonians and excitation operators of that kind, registries of one occupied and one unoccupied space, truncation orders, orbitals, antisymmetric tensors, denominators, representations of the anticommutation relations", "why_tests_cant": "All operators, orders, tensors and orbitals; the claim joins every stage from the BCH series to the amplitude update.", "anchors": ["wicked/diagrams/operator_expression.cc: bch_series, commutator", "wicked/diagrams/wick_theorem.cc: WickTheorem::contract", "wicked/algebra/expression.cc: Expression::to_manybody_equation", "wicked/algebra/equation.cc: Equation::compile", "examples/numerical/examples_helpers.py: generate_equation, update_cc_amplitudes, compute_inverse_denominators"]}
{"id": "C86", "title": "full coupled cluster from generated code is exact", "statement": "For a Hamiltonian H of one- and two-body operators and an excitation operator T acting on the Fock space of the registered orbitals, with bch_series(H,T,n) contracted in a window of ranks that holds all determinants and compiled with generate_equation: the antisymmetrised arrays returned by the functions for all excited determinants vanish if and only if exp(T)|vacuum> is an eigenstate of H whose eigenvalue is the number returned by the energy function.", "quantifier": "all Hamiltonians and excitation operators of that kind, registries of occupied and unoccupied spaces, finite sets of orbitals, antisymmetric tensors, truncation orders", "why_tests_cant": "All operators, tensors and orbital sets; the claim joins the whole chain from bch_series to the executed functions and the Schroedinger equation.", "anchors": ["wicked/diagrams/operator_expression.cc: bch_series, commutator", "wicked/diagrams/wick_theorem.cc: WickTheorem::contract", "wicked/algebra/expression.cc: Expression::to_manybody_equation", "wicked/algebra/equation.cc: Equation::compile", "examples/numerical/examples_helpers_spin_integrated.py: generate_equation"]}
{"id": "C87", "title": "symmetry factor of a tensor", "statement": "Tensor.symmetry_factor returns the number of ways to rearrange the upper indices within their orbital spaces times the number of ways to rearrange the lower indices within their orbital spaces; label, declared symmetry and order of the indices do not matter.", "quantifier": "all registries, tensors with any number of indices of registered spaces", "why_tests_cant": "All index lists and registries; and the int in which the product is kept wraps from thirteen indices on.", "anchors": ["wicked/algebra/index.cc: symmetry_factor, num_indices_per_space", "wicked/algebra/tensor.cc: Tensor::symmetry_factor"]}
{"id": "C88", "title": "product of expressions under the summation convention", "statement": "With the convention of the package that every index of a term is summed over the orbitals of its space, the expression a @ b stands for the product of the operators a and b stand for, and so does its normal-ordered form.", "quantifier": "all expressions, registries, finite sets of orbitals, tensor elements and operators", "why_tests_cant": "All expressions and orbital sets; false when a and b have an index in common, which operator_expr always produces.", "anchors": ["wicked/api/expression_api.cc: __matmul__", "wicked/helpers/algebra.hpp", "wicked/algebra/expression.cc: make_operator_expr", "wicked/algebra/symbolic_term.cc: SymbolicTerm::operator*="]}
{"id": "C89", "title": "normal ordering by commutation and Wick contraction agree", "statement": "For linear combinations of operators created with op() and the same operators written out as expressions (no index in common, no creation and annihilation operators of one operator in the same occupied space): vacuum_normal_ordered of the product of the expressions and WickTheorem.contract of the product of the operators stand for the same operator.", "quantifier": "all registries of occupied and unoccupied fermionic spaces, all products of operators of any rank, all numbers of orbitals, antisymmetric tensors", "why_tests_cant": "Relates two independent algorithms of the package on all inputs; tests compare a handful.", "anchors": ["wicked/algebra/symbolic_term_normal_order.cc: SymbolicTerm::vacuum_normal_ordered", "wicked/algebra/expression_normal_order.cc: Expression::vacuum_normal_ordered", "wicked/diagrams/wick_theorem.cc: WickTheorem::contract"]}
{"id": "C90", "title": "particle numbers are conserved in every space", "statement": "Every term returned by contract carries, in every orbital space, as many creation and as many annihilation operators as the product it comes from, less the same number of contracted pairs: particle number, spin projection and every other quantum number attached to the spaces is conserved, and the full contraction of an expression none of whose products conserves the numbers of every space is empty. The same holds for vacuum_normal_ordered.", "quantifier": "all registries of at most 8 spaces, all products of operators of any rank, all rank windows and settings", "why_tests_cant": "Must hold for every product and every term generated by an exponential enumeration.", "anchors": ["wicked/diagrams/wick_theorem.cc: WickTheorem::contract", "wicked/diagrams/contraction.cc", "wicked/algebra/symbolic_term_normal_order.cc: SymbolicTerm::vacuum_normal_order"]}
{"id": "C91", "title": "labels of operators are only names", "statement": "The label given to an operator in op() has no influence on the contractions: renaming the operators of an expression and contracting gives the value of contracting first and using the tensors under their new names, whatever the renaming (even one that gives two different operators the same label), as long as the reserved names gamma, eta and lambda are kept.", "quantifier": "all registries of at most 8 spaces, all operator expressions, all renamings, all rank windows, all antisymmetric tensors", "why_tests_cant": "Must hold for every renaming: labels take part in sorting, canonicalization and the combinatorial prefactors.", "anchors": ["wicked/diagrams/wick_theorem.cc: WickTheorem::contract", "wicked/diagrams/operator_product.cc", "wicked/diagrams/operator_expression.cc"]}
{"id": "C92", "title": "the order in which spaces are registered is irrelevant", "statement": "Registering the same orbital spaces in another order changes neither which programs run (op, sums, differences, multiples, products, commutators, BCH series, adjoints) nor the value of the contractions of the expressions they build: the terms returned may be ordered and named differently and have different signs, but for all antisymmetric tensors and all assignments of orbitals to the spaces by label the value is the same.", "quantifier": "all histories of at most 8 accepted add_space calls and all their permutations, all programs, all rank windows and settings", "why_tests_cant": "The numbering of the spaces enters every loop, sort and sign of the contraction; must hold for every permutation and every expression.", "anchors": ["wicked/helpers/orbital_space.cc: OrbitalSpaceInfo::add_space", "wicked/diagrams/wick_theorem.cc: WickTheorem::contract", "wicked/diagrams/operator_expression.cc: make_diag_operator_expression, bch_series"]}
{"id": "C93", "title": "gen_op is the n-body operator over its orbitals, however they are divided into spaces", "statement": "gen_op(label, n, cre, ann, diagonal=True) stands for 1/(n!)^2 times the sum over all n-tuples of orbitals of the creation spaces and of the annihilation spaces; with diagonal=False the operators over a single common space are left out. A program built from gen_op, +, -, numbers, products, commutators and BCH series, contracted, therefore has a value which depends only on the sets of orbitals, not on how the sets are divided into orbital spaces (spin orbitals or alpha and beta, with or without a frozen core).", "quantifier": "all histories of at most 8 accepted add_space calls, all ranks, all strings of distinct registered letters, all programs, all pairs of registries dividing the same orbitals, all antisymmetric tensors and all reference states", "why_tests_cant": "The numbers of components and of contractions are different for every division into spaces and grow without bound; the equality of the sums is about all tensors and all numbers of orbitals.", "anchors": ["wicked/utils.py: gen_op", "wicked/diagrams/operator_expression.cc: make_diag_operator_expression", "wicked/diagrams/wick_theorem.cc: WickTheorem::contract"]}
{"id": "C94", "title": "general spaces are compatible with determinants", "statement": "Whether orbitals are registered as one general space or divided into occupied, unoccupied and smaller general spaces does not matter as long as both registries describe the same reference state: programs of gen_op, +, -, numbers, products, commutators and BCH series are contracted to expressions of the same value, with open operators and for full contractions. In particular a general space whose gamma1 is the density matrix of a determinant and whose cumulants vanish may be replaced by an occupied and an unoccupied space, and the normal products are then the ordinary ones.", "quantifier": "all pairs of histories of at most 8 accepted add_space calls with any types of spaces, all programs with operators of any number of orbitals, all reference states, all antisymmetric tensors", "why_tests_cant": "The two contractions go through different branches of the code (pairs only, or gamma1, eta1 and cumulants) and give different numbers of terms; equality is about all tensors and numbers of orbitals.", "anchors": ["wicked/diagrams/wick_theorem.cc: WickTheorem::generate_elementary_contractions", "wicked/diagrams/wick_theorem.cc: WickTheorem::contract", "wicked/helpers/orbital_space.cc: OrbitalSpaceInfo::add_space", "wicked/utils.py: gen_op"]}
{"id": "C95", "title": "residual functions do not depend on the division into spaces", "statement": "A program of gen_op, +, -, numbers, products, commutators and BCH series is run with two registries that divide the same orbitals into occupied and unoccupied spaces in different ways (spin orbitals or their alpha and beta halves, with or without a separate core); the expressions are contracted, turned into many-body equations and into Python functions by generate_equation. Called with the elements of the same tensors, the functions for keys that hold the same determinant return arrays whose antisymmetrised elements at that determinant agree; if only one of the registries has a function for the determinant, its element is zero.", "quantifier": "all pairs of histories of at most 8 accepted add_space calls with occupied and unoccupied spaces, all programs and windows of ranks, all antisymmetric tensors and numbers of orbitals, all determinants", "why_tests_cant": "The two sets of generated functions have different names, arguments and numbers of terms; that they compute the same numbers is about every program, tensor and number of orbitals.", "anchors": ["examples/numerical/spin-integrated-CCSD.ipynb", "wicked/diagrams/wick_theorem.cc: WickTheorem::contract", "wicked/algebra/expression.cc: Expression::to_manybody_equation", "wicked/algebra/equation.cc: Equation::compile", "wicked/utils.py: gen_op"]}
{"id": "C96", "title": "the coupled-cluster notebooks run from start to finish and give the coupled-cluster residuals", "statement": "With the spaces o and v registered, T = op(T, [v+ o, v+ v+ o o, ...]) for any set of excitation ranks up to six, H = gen_op(H, 1, ov, ov) + gen_op(H, 2, ov, ov) and Hbar = bch_series(H, T, 4): op, gen_op, bch_series, contract (any window of ranks) and to_manybody_equation return, and the Python functions that generate_equation makes return, antisymmetrised, the matrix elements of exp(-T) H exp(T) between the excited determinants and the reference determinant in Fock space, for the one- and two-body operator H over all orbitals and the excitation operator T; up to the rounding of the printed coefficients to nine decimals, and exactly if nine decimals are enough. Where generate_equation finds no key these matrix elements are zero. The same for programs of gen_op with any division of the orbitals into occupied and unoccupied spaces and any cluster operator made of excitations. With the four spaces o, v, O, V and the lists of operators that the spin-integrated notebooks make (without the components that change the spin), and tensors that conserve spin, the functions return the matrix elements for the same H and T over all spin orbitals.", "quantifier": "all registries with the spaces o and v (and, for the programs, all histories of at most 8 accepted add_space calls), all sets of ranks, windows of ranks, numbers of orbitals, antisymmetric tensors and determinants", "why_tests_cant": "No hypothesis is left that has to be checked by running the code: that no call fails and every generated function is right is claimed for all sets of ranks, tensors and numbers of orbitals.", "anchors": ["examples/numerical/spinorbital-CCSD.ipynb", "examples/numerical/spinorbital-CCSDT.ipynb", "examples/numerical/spin-integrated-CCSD.ipynb", "examples/numerical/spin-integrated-CCSDT.ipynb", "examples/numerical/examples_helpers.py: generate_equation", "examples/numerical/examples_helpers_spin_integrated.py: generate_equation", "wicked/diagrams/wick_theorem.cc: WickTheorem::contract", "wicked/diagrams/operator_expression.cc: bch_series, make_operator", "wicked/algebra/expression.cc: Expression::to_manybody_equation", "wicked/algebra/equation.cc: Equation::compile", "wicked/utils.py: gen_op"]}
{"id": "C97", "title": "the MP2 notebook gives the second-order energy", "statement": "The cells of spinorbital-MP2.ipynb run: op, commutator, gen_op, contract, to_manybody_equation and compile generate exactly the Python function that the notebook shows, which for all arrays returns 1/2 \u03a3_k F0[ik] T2[jkab] - 1/2 \u03a3_c F0[ca] T2[ijbc] + 1/4 V[ijab]. For every Hamiltonian with diagonal Fock blocks, an antisymmetric two-body block and non-zero excitation energies, the loop of the notebook (residual, antisymmetrize_residual, update_amplitudes_mp2, compute_energy), started from zero amplitudes, with any positive number of rounds and any test of convergence, ends with the amplitudes V[ijab]/(e_i + e_j - e_a - e_b) and the energy 1/4 \u03a3 V[ijab]^2/(e_i + e_j - e_a - e_b).", "quantifier": "all numbers of orbitals, all integrals with these properties, all numbers of rounds and tests of convergence (exact arithmetic; any printer of decimals with nine places)", "why_tests_cant": "The notebook checks one molecule against one number; that the generated function and the loop give the second-order energy is claimed for all integrals.", "anchors": ["examples/numerical/spinorbital-MP2.ipynb", "examples/numerical/examples_helpers.py: compute_inverse_denominators", "wicked/diagrams/wick_theorem.cc: WickTheorem::contract", "wicked/diagrams/operator_expression.cc: commutator, make_operator", "wicked/algebra/expression.cc: Expression::to_manybody_equation", "wicked/algebra/equation.cc: Equation::compile", "wicked/utils.py: gen_op"]}
{"id": "C98", "title": "timers shows where the time went", "statement": "Measuring does not change results: contract gives the same for every clock. In the calling thread every returned call adds to timers() one interval for step 1, one for step 2, one for step 3 and, for each contraction in the window of ranks, one for canonicalize_contraction_graph and one for evaluate_contraction; after any history of returned calls on one object the two timers of the contractions together are at most that of step 3, and the three steps together at most the time that has passed. With several threads, under every schedule, each timer gains exactly the sum of the times measured for it.", "quantifier": "all clocks that never go back, products, windows of ranks, histories of calls and schedules of the threads", "why_tests_cant": "Depends on the clock and on the schedule; lost updates show up rarely.", "anchors": ["wicked/diagrams/wick_theorem.cc: WickTheorem::contract, WickTheorem::timers", "wicked/diagrams/wick_theorem_process_contractions.cc: WickTheorem::process_contractions, WickTheorem::process_single_contraction", "wicked/helpers/timer.hpp: timer"]}
{"id": "C99", "title": "the coupled-cluster notebooks find their equations", "statement": "In the spin-orbital notebooks generate_equation(mbeq, n, n) never raises KeyError: for every excitation rank n of the cluster operator the key o^n|v^n is in the dictionary that to_manybody_equation returns, if 2 n is in the window of ranks of contract, and the key | of the energy is there if the cluster operator has single or double excitations. In the spin-integrated notebooks the same holds for all keys with a electrons of spin up and b of spin down (for instance oO|Vv), a + b at most the rank of the cluster operator.", "quantifier": "all registries with the spaces o and v, all sets of ranks up to six, all windows of ranks", "why_tests_cant": "Terms with a zero coefficient are erased; that the terms of a residual do not all cancel for any set of ranks cannot be tested by running a few of them.", "anchors": ["examples/numerical/spinorbital-CCSD.ipynb", "examples/numerical/spinorbital-CCSDT.ipynb", "examples/numerical/spin-integrated-CCSD.ipynb", "examples/numerical/spin-integrated-CCSDT.ipynb", "examples/numerical/examples_helpers.py: generate_equation", "examples/numerical/examples_helpers_spin_integrated.py: generate_equation", "wicked/diagrams/wick_theorem.cc: WickTheorem::contract", "wicked/algebra/expression.cc: Expression::to_manybody_equation"]}
{"id": "C100", "title": "the loops of the coupled-cluster notebooks solve the coupled-cluster equations", "statement": "In the notebooks spinorbital-CCSD and spinorbital-CCSDT the loop runs without an error from zero amplitudes. In every round the printed energy and the residuals are the matrix elements of exp(-T) H exp(T) with the reference and the excited determinants for the amplitudes at the beginning of the round, up to the error of the printed coefficients; the amplitudes stay antisymmetric and change by the residual divided by the difference of the orbital energies. If the loop ends because the norm is below 1e-8, the coupled-cluster equations hold to 1e-8 for the amplitudes of which the energy is printed.", "quantifier": "all registries with the spaces o and v, all numbers of orbitals, all dictionaries of antisymmetric integrals with nonzero energy denominators, all numbers of rounds", "why_tests_cant": "The notebooks are run for one molecule and compared with a number; what the loop computes for other integrals and after how many rounds cannot be settled by runs.", "anchors": ["examples/numerical/spinorbital-CCSD.ipynb", "examples/numerical/spinorbital-CCSDT.ipynb", "examples/numerical/examples_helpers.py: generate_equation, antisymmetrize_residual_2_2, antisymmetrize_residual_3_3, compute_inverse_denominators, update_cc_amplitudes"]}
{"id": "C101", "title": "the notebook of the coupled-cluster equations derives them", "statement": "cc_equations(n) of the notebook CoupledClusterEquations returns for every n from one to six; there are equations for every excitation rank from zero to n (no KeyError), and for all tensors, orbitals and excited determinants the equations of a rank, antisymmetrised, give exactly the matrix element of exp(-T) (E_0 + f + v) exp(T) between the reference and the determinant.", "quantifier": "all registries with the spaces o and v, all n from one to six, all antisymmetric tensors over commutative rings that contain the rational numbers, all numbers of orbitals and all determinants", "why_tests_cant": "The notebook is run once and shows numbers of terms; that the sum of the terms is the projected Schroedinger equation for all tensors and orbitals cannot be settled by runs.", "anchors": ["examples/CoupledClusterEquations.ipynb", "wicked/utils.py: gen_op", "wicked/diagrams/operator_expression.cc: make_diag_operator_expression, bch_series", "wicked/diagrams/wick_theorem.cc: WickTheorem::contract", "wicked/algebra/expression.cc: Expression::to_manybody_equation"]}
{"id": "C102", "title": "the notebook's equations of full rank are exact", "statement": "If n is at least the number of occupied or the number of unoccupied orbitals, the equations that cc_equations(n) of the notebook CoupledClusterEquations returns determine exact eigenstates: for all amplitudes, the equations of all ranks other than zero, antisymmetrised, vanish for all determinants if and only if exp(T)|reference> is an eigenstate of E_0 + f + v in Fock space, and the value of the equations of rank zero is then the eigenvalue and the only one.", "quantifier": "all registries with the spaces o and v, all n from one to six, all sets of orbitals of which one space has at most n, all antisymmetric tensors over commutative rings that contain the rational numbers", "why_tests_cant": "A run solves the equations for one molecule; that no solution is missed and no solution is spurious for all Hamiltonians, orbitals and amplitudes cannot be settled by runs.", "anchors": ["examples/CoupledClusterEquations.ipynb", "wicked/diagrams/wick_theorem.cc: WickTheorem::contract", "wicked/algebra/expression.cc: Expression::to_manybody_equation"]}
{"id": "C103", "title": "the notebook's equations miss no eigenstate", "statement": "If n is at least the number of occupied or the number of unoccupied orbitals: every eigenstate of E_0 + f + v in Fock space with as many electrons as the reference and the coefficient one on the reference is exp(T)|reference> for antisymmetric amplitudes with which the equations that cc_equations(n) of the notebook CoupledClusterEquations returns, antisymmetrised, vanish for all determinants, and the equations of rank zero give its eigenvalue; the amplitudes of excitations are the only ones.", "quantifier": "all registries with the spaces o and v, all n from one to six, all sets of orbitals of which one space has at most n, all antisymmetric tensors over commutative rings that contain the rational numbers, all eigenstates", "why_tests_cant": "A run finds one solution for one Hamiltonian; that every eigenstate of every Hamiltonian is a solution cannot be settled by runs.", "anchors": ["examples/CoupledClusterEquations.ipynb", "wicked/diagrams/wick_theorem.cc: WickTheorem::contract", "wicked/algebra/expression.cc: Expression::to_manybody_equation"]}
