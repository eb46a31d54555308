# Formal model of fevangelista/wicked in Lean 4

## Layout

* `lean/Verif/Model/*.lean` - executable model. Every definition cites the file and
  lines of `/repo/wicked` it models and says what was simplified.
* `lean/Verif/Spec/*.lean` - small independent specifications (mathematical objects the
  properties are stated with; no model helper is used there unless it is a plain data type).
* `lean/Verif/Proofs/*.lean` - helper lemmas.
* `lean/Verif/Props/*.lean` - the property theorems, named `Cnn_...`, each with an
  `example` showing that a non-trivial case meets the hypotheses.
* `MANIFEST.json` - property -> theorems; `seeded/LOG.jsonl` - mutation tests.

## Modelling conventions

* C++ exceptions, undefined behaviour, `exit(1)` and non-termination are the four
  constructors of `Fault`; a function that can fail returns `Except Fault _`.
* `int` is `Int`. Overflow is ignored except where the property is about it (C06, C07),
  where a checked machine-arithmetic version is modelled.
* `scalar_t` is `rational`; its numerator/denominator are unbounded (`int1024_t` with boost).
* `std::map` is an association list sorted by the comparator; `std::vector` is `List`/`Array`;
  strings are lists of characters; the global `orbital_subspaces` object is an explicit parameter.
* `std::sort` on a total order is modelled by a sorting function (result is unique);
  where the order has ties the model is nondeterministic (a relation), and theorems are
  about every possible outcome.

## Plan per property

| id | modelled | how it is proved |
|---|---|---|
| C01 | Model/Rational: `mk`, `reduce` over `Int` with C++ truncating division | `toRat (mk n d) = n/d` in Mathlib's `ℚ`, plus `0 < den ∧ coprime` |
| C02 | `add sub mul neg` | value via `ℚ` field arithmetic, canonicity via the reduce lemma |
| C03 | `div` | value exact for every non-zero divisor; canonicity only for positive divisors; negation witness for negative divisors (code leaves a negative denominator) -> partial |
| C04 | `eq` | iff with equality in `ℚ` |
| C05 | `str`, `makeFromStr` over character lists, regex modelled by a hand-written recogniser | round trip by digit-list lemmas; rejection iff outside grammar |
| C06 | checked 64-bit version of every step | refinement theorem under the bound; overflow witness |
| C07 | loops of factorial/binomial | equality with `Nat.factorial`, `Nat.choose`; exact-division invariant; machine bound |
| C08 | double loop | equality with `Equiv.Perm.sign`; transposition flips for nodup lists |
| C09 | ZS2 with work array, explicit bounds checks and fuel | invariant + lexicographic successor; membership iff partition |
| C10-C11 | registry state machine | invariant over histories; C11 false: witness + partial (what does hold) |
| C12-C13 | index strings | round trip; injectivity |
| C14 | each operator< as Bool function | StrictWeak instances by lex combinators; equivalence = equality |
| C15-C17 | canonicalize_* | insertion sort + sign lemmas; semantics over all antisymmetric functions / anticommuting algebras |
| C18-C25 | sorted association list model of std::map; add_to_map and everything above it | coefficient function `coef`; ext lemma for equality; bilinear algebra through the free-algebra coefficients |
| C26-C29 | process_vacuum_normal_ordered | measure-based termination, invariants, semantics in arbitrary algebra with CCR/CAR |
| C30-C31 | expression product/adjoint | semantics homomorphism |
| C32 | == ignores the label | negation witness, not provable as stated |
| C33-C35 | SymbolicTerm canonicalize | semantics as finite sum over assignments; capture witness |
| C36-C38 | operator_expr, op, gen_op | structural theorems |
| C39 | Operator.factor | product formula |
| C40-C41 | OperatorProduct.canonicalize | bubble sort soundness; normal-form counterexample |
| C42-C44 | step 1 and step 2 of contract | exact enumeration theorems |
| C45-C46 | interleaving model of the task list | determinism; data-race witness on the timer map |
| C47 | contract on expressions | linear fold |
| C48-C50 | evaluate_contraction, combinatorial_factor | structural invariants; counting; counterexample for m>=3; the tensors and the number of indices of a term from the listing of a contraction by blocks (Props/TermSize) |
| C51-C52 | canonicalize_contraction_graph | permutation soundness; minimality; sort tie witness |
| C53 | whole contraction | refinement in stages (elementary -> composite -> graph -> evaluate), value in an exterior algebra against an independent sum over contraction schemes; then the sum over schemes against the product of the operators in every algebra with the CAR (Wick's theorem itself, by induction over the operator string), and the vacuum expectation value |
| C54 | GraphMatrix fixed array of 8 | bounds theorem both ways |
| C55-C56 | equation layer | partition; injectivity of letters |
| C57 | str / make_expression | counterexample; partial |
| C58 | bosons in contract | counterexample |
| C59 | Expression/OperatorExpression add2 with an aliased argument | iterator-level model; UB witness for c = -1 |
| C60 | == and < of tensors with a conjugation flag | negation, partial |
| C61 | compile("einsum") | the text is read back by an independent reader and given the numpy meaning; equality with the contraction by a bijection letters <-> indices; rounding of the literal: negation |
| C63 | a WickTheorem object with its data members, calls as relations (threads, exceptions in the middle of a call) | induction over histories; C45 for the threads |
| C64 | `STerm.canonicalize` (Model/Term) against the name-free signatures of Spec/CanonForm | the sort keys are functions of the signatures; the relabelling loop commutes with renamings and is the identity on consecutive names; false for tied tensors (witnesses) |
| C65 | `Expr.vacuumNormalOrdered` against the summed value of a term (Spec/OrbitalSum) and the relations of Spec/SummedCCR | the recursion keeps the set of indices of a term (or moves it to a delta), so the sums agree orbital by orbital; false when an index is on two operators and no tensor |
| C66 | `Equation::compile("ambit")`, `SymbolicTerm::compile`, `Tensor::compile` | the text is read back by an independent reader (Spec/AmbitSem); equality with the contraction by a bijection names <-> indices; rounding of the literal and the empty right-hand side: negations; all statements of a key executed in order (Spec/AmbitProgram: `AmbitRuns`): error bound 10^-6 times the sum of the absolute contractions (C66_program_error) |
| C67 | `compile_einsum` of utils.py (Model/PyCompile) | invariant of the two dictionaries (seen indices, unused names); the text is read back by the reader of Spec/PyEinsum and given the meaning of C61; negation for every left-hand side with indices; the program of all equations of an expression (Spec/PyProgram: `Py1Runs`) with an error bound (C67_program_error); composed with C53 and C72: the program of the full contractions computes the expectation value |
| C68 | `set_max_cumulant` and `contract` (Model/Wick) | the elementary contractions for the smaller setting are a filtered list; the backtracking on a filtered list is the filtered backtracking (Proofs/MaxCumulant: `compL_filter`); the labels of a term are followed through graph and term canonicalization |
| C69 | `contract` of `commutator` and `bch_series` (Model/Wick, Model/Operator) | rearranging a contracted product of even operators changes nothing (Proofs/LinkGraph), so the coefficient of a term in a product is a sum over the sub-products split off as isolated (Proofs/LinkSum, LinkMask, LinkSplit); this is a pairing with a coproduct of the free algebra, for which commutators with single operators are primitive (Proofs/LinkAlg); contractions without isolated operators give linked terms (Proofs/LinkTerm) |
| C70 | `latex()` of rational, tensor, operator, term and expression (Model/Latex) | the text is a list of tokens separated by spaces; the tokens form a prefix code because their braces match (Proofs/Latex), and the list of tokens determines the term up to labels that are alike (Proofs/LatexTerm) |
| C71 | every modelled function that reads the registry, before and after further `add_space` calls | relational proof: a simulation `Sim` between the two runs, function by function; vectors with one entry per space are padded with zeros, loops over the extra spaces do nothing (Proofs/Extend, ExtendCanon, ExtendWick) |
| C72 | `contract` for registries with general spaces, against products in an algebra with the canonical anticommutation relations and a reference given by its density matrix and cumulants (Spec/Gno) | generalised Wick theorem for lists (Proofs/GnoSets, Gno, GnoWick: contractions within factors cancel), antisymmetry of generalised normal products and of cumulants (GnoAnti, GnoCum), contractions of the package against cumulants (GnoBlock, GnoSum), then C53's sum over schemes; existence of cumulants, normal products and tensors for every number-conserving state |
| C73 | `contract` of `commutator(H, T1, ..., Tk)` and of `bch_series(H, T, n)` | the coefficient of a term is a linear functional of the expression (C69's coproduct argument): only contractions in which every T is connected to H count; each pair contraction gives at most one T a partner in H (Proofs/LinkCount), so k exceeds the number of legs of H only if nothing is left; `C73_bound_sharp` and `C73_contracting_T_does_not_end` show that the bound and the hypothesis on T are needed |
| C74 | `OperatorExpression.canonicalize` followed by `contract` | every coefficient of the contraction is a sum over contraction patterns (C69's `compM`); a rearrangement that exchanges only operators that cannot be contracted maps the patterns of one order bijectively onto those of the other and keeps the generated term and its sign (Proofs/LinkSwap); `canonicalize` only makes such exchanges; `C74_contractible_do_not_exchange` shows the condition is needed |
| C75 | `OperatorExpression.adjoint` followed by `contract`, in a *-algebra (Spec/Adjoint) | the second-quantized operators of the adjoint product are those of the product in the opposite order with creation and annihilation exchanged (Proofs/AdjSum); this maps schemes of contractions onto schemes, keeps the sign (every contraction has an even number of legs) and the overcounting weight, and conjugates the values; normal products (`C75_normal_products`) and generalised normal products of a Hermitian reference (`C75_generalized_products`, by uniqueness, Proofs/AdjGno) are closed under the adjoint |
| C76 | `Operator::str`, `OperatorExpression::str` (Model/Print) and `op` (Model/MakeOp) | the printed text is a list of tokens separated by blanks; the tokens between the last opening brace and the closing brace give the counts back (`compOf_operator`), hence the symmetry factor, hence the label; lines and coefficients by injectivity of joining words without the separator and of `rational::str(true)`; `C76_labels_with_braces` shows that the condition on the labels is needed |
| C77 | `Equation::str`, `Term::str`, `Equation::rhs_expression`, `Equation::operator==` (Model/Print) and `make_expression` (Model/Parse) | the lemmas of C57 about the scanners, applied to a factor that is always followed by a blank; injectivity by splitting at `=` and at the blank after the factor |
| C78 | the composition of `contract`, `to_manybody_equation` and `compile("einsum")` with a semantics of Python programs (Spec/Program: `Runs`) | C55 gives the equations of every key, C61 the meaning of every line, C62 the meaning of the equations and C53 that of `contract`; sorted operators make the variable name a function of the key; partial: exact for coefficients that are multiples of 10^-9; for all others the result with the printed literals and an error bound (`C78_program_rounded`, `C78_program_error`) |
| C79 | `OrbitalSpaceInfo::str`, `to_dict`, the two string-to-type functions and the Python `add_space` (Model/Introspect) | case analysis on the names; invariants of C10 for `to_dict` and for replaying; splitting the text at the fixed words for `str`; partial: index names that are empty or contain `,` or `]` make the text ambiguous (witness) |
| C80 | the calls of SymbolicTerm, Term and `Expression +=` as a sequence (Model/Build), `make_tensor`, `make_sqoperator` | induction on the sequence of calls; C18 for the coefficients; the scanner lemmas of C57 for the string form of tensors |
| C81 | the tables of the antisymmetrisation helpers of the numerical examples (Model/Examples) | the 4/36 lines against the sum over all pairs of permutations with Mathlib's `Perm.sign`; the operator an array stands for from C78; zero iff: the free algebra in which operators of a kind anticommute |
| C82 | `generate_equation`, `get_index_blocks` as string functions (Model/Examples) | the text is read back as a Python function (Spec/PyFunction) and the C61/C78 meaning of its lines is used; partial: rounded coefficients; only the first `H` of a line is found (`C82_missed_block`) |
| C83 | `compute_inverse_denominators`, `update_cc_amplitudes` with numpy broadcasting over an arbitrary field (Model/Examples) | computing the broadcast shapes and elements; induction on the list of updated blocks |
| C84 | the whole chain of C78/C82 and the helpers of C81 | excited determinants are orthonormal up to the signs of permutations (determinants, from the CAR and the vacuum only); orbitals tell their spaces, so only one key contributes; ranks outside the window are orthogonal; partial: `NoTriples`; rounded coefficients give a bounded error (`C84_residual_error_partial`); `C84_equations_partial` and `C84_equations_space_partial` say the same of the equations of `to_manybody_equation` themselves: exact, for every tensor label, nothing printed |
| C85 | `bch_series`, the whole chain of C84, `update_cc_amplitudes` | the value of a product is a homomorphism of the free algebra (C24 gives nested commutators); excitation operators are nilpotent and commute with every non-killing mode, so the double commutators of normal products end; Hadamard's formula with `IsNilpotent.exp`; C84 for the projections; C83 for the update; partial: rounded coefficients, two-body Hamiltonians (C50) |
| C86 | the chain of C85 with `generate_equation(mbeq, nocc, nvir, space)` | an explicit Fock space (finite sets of orbitals with signs) satisfies the anticommutation relations and has the vacuum expectation for every set of orbitals; projections read off coefficients up to sign; `exp(T)` is invertible; C85 for several spaces; partial: as C85 |
| C87 | `symmetry_factor` with its 32-bit running product | counts per space give the order of the stabiliser of the space labelling (`DomMulAct.stabilizer_card`); partial: true while the product fits an `int`; with 13 indices of one space it is false (`C87_wraps`) |
| C88 | `Expression` product (concatenation of terms) with the sum over orbitals | the sum over disjoint sets of indices factorises; with C65 for the normal-ordered product; partial: false if the factors share an index (`C88_shared_indices`), since nothing renames indices |
| C89 | `vacuum_normal_ordered` and `contract` on the same product | value of an operator written out = weight times the value of the operator (invariance under reordering of indices, anticommuting operators may be reordered); C88, C65 and C53; partial: NoTriples as C53 |
| C90 | `contract`, `vacuum_normal_ordered` | numbers of operators per kind and space: every block of a listing of the contractions has as many creation as annihilation slots of its space, canonicalization only renames within a space; for normal ordering induction on the recursion |
| C91 | `contract`, labels of operators | the sum over contractions of C53 depends on labels only through the elements of the operators' tensors; both sides evaluated with C53 |
| C92 | `add_space` in another order, programs of `op` and the operations on expressions, `contract` | both contractions evaluated with C53; the two sums over contractions are matched by moving every slot to the space of the same label, and the lists of slots and of tensor indices differ by permutations whose signs cancel (`Relist`, `SpaceOrder`, `SpaceMove`); programs by induction |
| C93 | `gen_op`, programs of `gen_op` and the operations on expressions, `contract`, against many-body operators over sets of orbitals (Spec/ManyBody) | the components of `gen_op` (C38) are the compositions of the rank over the spaces; a sum over tuples from a disjoint union splits by the multinomial theorem for symmetric functions (`Proofs/ManyBody`); programs by induction; contractions with C53 and C72 |
| C94 | programs of `gen_op` and `contract`, with registries of different types of spaces (Spec/Determinant) | generalised normal products are unique (C72); for a determinant the contractions of a normal-ordered list vanish, so they are the ordinary normal products; the value of a program (C93) does not mention spaces |
| C95 | the whole chain `gen_op` ... `contract` ... `to_manybody_equation` ... `generate_equation`, with two registries | C84 for the programs with several spaces and C93: the antisymmetrised array of each function is a matrix element of an operator that does not mention spaces; compared in the Fock space; `C95_equations_partial` and `C95_equations_division_partial` do it for the equations, exactly, with arbitrary tensor labels (`Spec/CCEquations.lean`) |
| C96 | the cells of the spin-orbital notebooks (`op`, `gen_op`, `bch_series`, `contract`, `to_manybody_equation`, `generate_equation`) one after the other | C85 with all its hypotheses discharged: `op("T", ...)` is the sum of `gen_op("T", n, "v", "o")` (C37), the sizes of the products bound the number of indices and exclude every failure of `contract` (C93_returns, C48, C49), the tensors are the operators' (C49), the values are the many-body operators over all orbitals (C93). Spin-integrated: the operators that the notebooks make are those of the `gen_op` program except the ones that change the spin (kernel computation on the four spaces), whose values are zero for tensors that conserve spin |
| C97 | the cells of the MP2 notebook: the operators, the contraction, the generated function, `antisymmetrize_residual`, `update_amplitudes_mp2`, `compute_energy` and the loop (`Model/MP2`) | the text of the function is computed by the kernel for a symbolic printer and is the text shown in the notebook; its value comes from the semantics of einsum (C82) for arbitrary arrays; one round from any antisymmetric amplitudes gives the first-order amplitudes (C83 for the denominators), induction on the rounds |
| C98 | `contract` in the calling thread with a clock that is a function of the number of the reading (`Model/Timers`); the interleaving model of the threads with the measured times recorded (`Spec/Timers`) | induction on the contractions and on the history; for the threads an invariant on the timers and the tasks about to store a time (at most the sum, exact for one contraction), negation by a schedule that loses an update |
| C99 | as C96 | by C96 a missing key means that the matrix elements vanish in every system; for each rank `n` a system with `n` occupied and `n` unoccupied orbitals is given in which they do not: `H` counts the electrons in the unoccupied orbitals, so `exp(-T) H exp(T) = H + n T`; for the energy `H` is the adjoint of `T` and the energy is a sum of squares; for the spin-integrated notebooks the same tensors restricted to the elements that conserve spin |
| C100 | the loops of spinorbital-CCSD.ipynb and spinorbital-CCSDT.ipynb over an ordered field (`Model/CCNotebook.lean`), the generated functions by the meaning of their text | spin orbitals are numbered, the dictionaries define antisymmetric tensors; C96 and C99 give the functions and their values, C83 the denominators and the update, C81 the antisymmetrisation; induction over the rounds with the invariant that the amplitudes are antisymmetric. The claim about convergence is false for the triples: the test does not look at them |
| C101 | `make_T`, the Hamiltonian and `cc_equations` of CoupledClusterEquations.ipynb (`Model/CCEquations.lean`), without the time and the printing; a missing key is `KeyError` | an equation by the sum it stands for (`Spec/CCEquations.lean`, exact arithmetic); C93 gives that the calls return, C55 and C62 that the equations of all keys stand for the result of contract, C84 the projection on a determinant, C85 the similarity transformation. The keys exist because there are tensors for which the matrix elements do not vanish: a constant for the energy, the operator that counts the electrons in the unoccupied orbitals for the others (C99) |
| C102 | the chain of C101 in the Fock space of C86, amplitudes of all ranks up to n | C101 and C86 with the conservation of charge (`Proofs/FockCharge.lean`): the transformed Hamiltonian maps the reference to states with as many holes as particles, so its coefficients on determinants of rank at most n are all coefficients when one space has at most n orbitals; `exp(T)` is invertible. Instance: one electron in two orbitals |
| C103 | as C102 | C102 and the cluster expansion (`Proofs/ClusterExpansion.lean`, `Proofs/ClusterUnique.lean`): amplitudes are found rank by rank, because in `exp(T + T_k)` the operator `T_k` enters the coefficients of determinants of rank up to `k` only linearly and antisymmetric amplitudes are its matrix elements; the amplitudes of all ranks up to `n` reach all determinants. Instance: an electron shared by two orbitals |
| C62 | to_manybody_equation | value of the equations as operators; combined with C53 |

## Modules

| model file | code modelled | properties |
|---|---|---|
| Rational, RationalMachine | helpers/rational.{h,cc}: all constructors and operators, str, make_rational_from_str; and the same steps in checked 64-bit arithmetic | C01-C06 |
| Combinatorics | helpers/combinatorics.{h,cc}: factorial, binomial, permutation_sign, integer_partitions (ZS2) | C07-C09 |
| Orbital, Index | helpers/orbital_space.cc, algebra/index.cc | C10-C13, C54 |
| Order | operator< of Index, SQOperator, Tensor, SymbolicTerm, Term, the sort keys | C14 |
| Term | algebra/{sqoperator,tensor,symbolic_term}.cc: canonicalisation, reindexing, normal ordering | C15-C17, C26-C29, C32-C34, C60, C64, C65 |
| Algebra | helpers/algebra.hpp (the map of terms, shared by Expression and OperatorExpression) | C18-C20, C25, C59 |
| Expression | algebra/expression.cc | C19, C30, C31, C35 |
| Operator, GenOp | diagrams/{operator,operator_product,operator_expression}.cc and graph_matrix.cc; gen_op of python/wicked | C21-C24, C37-C41, C54 |
| MakeOp | make_operator_expr | C36 |
| Wick | diagrams/wick_theorem*.cc: elementary and composite contractions, canonicalize_contraction_graph, evaluate_contraction, combinatorial_factor, contract | C42-C44, C47-C53, C58 |
| Threads | the task pool of diagrams/wick_theorem_process_contractions.cc | C45, C46 |
| Session | diagrams/wick_theorem.{h,cc}: the object between calls | C63 |
| Equation | algebra/equation.cc (manybody equations, einsum, ambit) | C55, C56, C61, C62, C66 |
| PyCompile | utils.py: compile_einsum | C67 |
| Latex | latex() of rationals, tensors, operators, terms and expressions | C70 |
| Extend | results before and after further add_space calls | C71 |
| Gno | contractions of a list, references (density matrix, cumulants), generalised normal products, reference states | C72 |
| Adjoint | adjoint of a list of operators, Hermitian tensors and references, braces closed under the adjoint | C75 |
| Print | str() of operators, operator expressions, terms and equations; rhs_expression; diag_operator | C37, C76, C77 |
| Introspect | orbital_space.cc: str, to_dict, string_to_field_type, string_to_space_type; Python add_space | C79 |
| Symmetry | index.cc: symmetry_factor; tensor.cc: Tensor::symmetry_factor | C87 |
| Timers | timer.hpp; wick_theorem.cc: contract (both); wick_theorem_process_contractions.cc: process_contractions, with the map of timers | C98 |
| MP2 | examples/numerical/spinorbital-MP2.ipynb: all code cells (except reading the file and printing) | C97 |
| CCNotebook | examples/numerical/spinorbital-CCSD.ipynb, spinorbital-CCSDT.ipynb: the loops (except printing) | C100 |
| CCEquations | examples/CoupledClusterEquations.ipynb: `make_T`, the Hamiltonian, `cc_equations` (except the time) | C101, C102, C103 |
| Build | symbolic_term.cc, term.cc: add, set; Expression +=; make_tensor, make_sqoperator | C80 |
| Examples | examples/numerical/examples_helpers*.py: antisymmetrisation, generated functions, denominators, amplitude update | C81, C82, C83 |
| Parse | str() of Index ... Expression and make_expression, string_to_expr | C57 |

`Spec/` contains the independent notions: `Rational` (value in Mathlib's rationals),
`Fock` and `OrbitalSum` (value of a term as a sum over assignments of orbitals in an algebra
with the canonical (anti)commutation relations), `Lin` (formal linear combinations),
`Order`, `Slots`, `Pairing`, `Graph`, `Wick`, `WickSum` (the sum over contraction schemes of
Wick's theorem), `NormalProduct` (normal products, operators and vacuum expectation values in an
algebra with the canonical anticommutation relations), `Equation`, `CCEquations` (what a list of equations says about its left-hand side), `EinsumSem` (a reader for einsum statements and what numpy computes), `Program` (running a program of such statements, the operator an array stands for), `AmbitSem` (the same for ambit), `AmbitProgram` and `PyProgram` (running a program of ambit statements or of lines of utils.py), `PyEinsum` (the reader for the lines of utils.py), `MaxCumulant` (labels of cumulants), `Linked` (terms whose tensors are connected by common indices), `Latex` (matching braces, labels that print alike), `Extend` (calls of add_space only; a call still returns), `Gno` (generalised normal order with respect to a reference with cumulants), `MakeOp`, `OpMake`, `OpProduct`, `Parse`, `Session` (expected settings after a history), `Introspect` (names of types, replaying a registry), `Build` (what a sequence of calls adds), `Antisym` (sum over permutations with signs), `PyFunction` (reading the text of a Python function), `Amplitudes` (excitation denominators, updated blocks), `Projection` (excited determinants, antisymmetrised elements), `CoupledCluster` (excitation operators, value of an operator expression), `FockSpace` (determinants, creation and annihilation operators), `Symmetry` (rearrangements within spaces), `Engines` (operators written out as terms), `Conserve` (operators per kind and space), `Relabel` (operators under other labels), `SpaceOrder` (the spaces in another order, programs that build expressions), `ManyBody` (n-body operators over sets of orbitals, programs of `gen_op`), `Determinant` (the reference of a determinant), `Notebook` (the cells of the coupled-cluster notebooks), `Timers` (histories of calls, runs of the threads with measured times), `MP2` (the function and the first-order amplitudes of the MP2 notebook), `CCNotebook` (the tensors the loops should hold round by round, the errors they compare), `Reindex` (substitution of indices), `StarValuation` (terms in a *-algebra), `GenOp` (components of a general operator), `OpAlg` (the free algebra on the operators), `CanonForm`, `SummedCCR`
(signatures of tensors without index names, terms equal up to names).

## Findings (properties that are false of the code)

Each of these is proved as the negation of the property for the model, with a `_partial`
theorem for what does hold (names in MANIFEST.json).

* C03/C20: dividing by a negative rational leaves a negative denominator, and equal values
  then compare different where the comparison is structural.
* C11: `add_space` that fails on an index-name clash leaves the label registered.
* C16/C58: sign of reordering is always fermionic; `contract` ignores field types.
* C20: multiplication by 0 keeps zero-coefficient terms.
* C32/C60: `==`/`<` ignore the normal-ordered flag and the conjugation flag.
* C33: an index that only occurs on an operator can be captured by a renamed one.
* C34: more than 64 index occurrences per space write outside `std::bitset<64>`.
* C35: `Expression::reindex` throws its result away.
* C36: `make_operator_expr` ignores its coefficient argument.
* C41: `OperatorProduct::canonicalize` is not a normal form in general.
* C43: more than 100 elementary contractions overrun a fixed buffer.
* C46: timers are written without synchronisation by concurrent tasks (C98: arbitrarily large parts of the measured time are lost).
* C50/C53: the combinatorial factor divides by m where m! is needed (m equal elementary
  contractions), so three-body operators get wrong coefficients.
* C52: two rearrangements that compare equal can carry opposite signs.
* C55: with a space labelled `|` two kinds of terms share one key.
* C57: the printer joins a one-digit coefficient to the tensor label.
* C61: the coefficient in the compiled einsum line is rounded to nine decimals.
* C66: the coefficient in the compiled ambit line is rounded to six decimals; with no tensor on the right the line is `T[..] += c * ;`.
* C67: `compile_einsum` raises an exception for every left-hand side with indices.
* C69: commutators of operators with an odd number of second-quantized operators, and commutators with a product of two operators, contract to unlinked terms (`C69_odd_unlinked`, `C69_pair_unlinked`); this is correct, but the user has to know.
* C70: `latex()` drops the digits after a Greek letter (`gamma1` and `gamma2` print alike) and the underscore of `t_1`; a scalar term with coefficient ±1 prints as a bare sign; bosonic operators print as `\hat{a}` when creation operators come first and as `\hat{b}` otherwise (`C70_greek_subscript_lost`, `C70_unit_scalar`, `C70_boson_symbol`).
* C71: registering a ninth space makes `op` (and everything else that builds a graph matrix) write outside an array of 8; a label left behind by a failed `add_space` silently denotes the next space that is added (`C71_ninth_space_witness`, `C71_stale_label_witness`).
* C72: false for products in which three alike contractions are possible, as C53 (`C53_three_body_doubled`).
* C62: `to_manybody_equation` drops the relative order of creation and annihilation operators.
* C64: `SymbolicTerm::canonicalize` is neither idempotent nor a canonical form when tensors tie
  in the sort key (the names of the indices break the tie).
* C65: normal ordering `a(i) a+(i)` gives `1 - a+(i) a(i)`: the sum over `i` is lost when no tensor carries `i`.
* C88: `@` of expressions does not rename indices, and `operator_expr` numbers the indices of every operator from 0: the product of two such operators loses terms.
* C89: false for three alike contractions, as C53.
* C87: `symmetry_factor` keeps its product in a 32-bit `int` and wraps with thirteen indices of one space.
* C82: `get_index_blocks` finds only the first `H` block of every generated line.
* C100: the loop of the CCSDT notebook stops on the singles and doubles residuals alone (`C100_triples_not_tested`: it stops with a triples residual as large as one likes), and the energy printed in the last round is that of the amplitudes before the last update.
* C59: `e.add2(e, -1)` erases the element its iterator points to.

## Trusted base

* Lean's kernel; the axioms used by the theorems are at most `propext`,
  `Classical.choice` and `Quot.sound` (printed by vcheck). No `native_decide`, `bv_decide`
  or own axioms.
* The reading of the C++ source expressed by the citations in the model files.
* The C++ regular expressions are replaced by deterministic recognisers of the same language
  (leftmost, greedy); `std::sort` by a stable sort where ties cannot matter;
  `std::map` by a sorted association list; `std::next_permutation` loops by the list of
  permutations in lexicographic order; hash-free maps only.
* Undefined behaviour is modelled as the outcome `Fault.ub`.

## Not modelled

* pybind11 marshalling, `repr`, string helpers
  not mentioned above, the boost multiprecision library.
* floating-point rounding of `norm()` and of numpy arrays (exact arithmetic over a field, C83).
* the C++ regex engine, `std::sort`'s implementation, the memory model (data races are
  expressed as conflicting accesses of concurrent tasks).
* printing to stdout (`PRINT` macros) and verbosity settings.
