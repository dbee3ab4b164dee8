# A formal model of E (eprover) in Lean 4

## Trusted base

* Lean 4.33.0's kernel (and, for reading the statements, Lean's elaborator).
* Axioms: only Lean's standard `propext`, `Classical.choice`, `Quot.sound`.
  No axioms of our own, no `sorry`, no `native_decide`/`bv_decide`.  The gate
  (`vcheck`) reports the axioms of every theorem.
* The faithfulness of the hand-written model to the C code.  Every definition
  carries a comment with the file and lines in `/repo` it was transcribed from
  and says where it simplifies.
* Not modelled anywhere: memory management, machine integer overflow (C `long`
  is modelled by `Int`/`Nat` unless a definition says otherwise), floating
  point, I/O, timing, higher-order mode (`problemType == PROBLEM_HO`) except for the normalisation of lambda terms (C63, C64),
  lambda/FOOL features, statistics counters and debugging output.

## Layout

`lean/Verif/` holds the model (definitions + helper lemmas) in directories that
follow the source tree (`Basics`, `Terms`, `Orderings`, `Clauses`, `Control`,
...).  `lean/Verif/Props/` holds the property theorems: statements that should be
readable with only the small specification at the top of each file, plus
`example`s that show that their hypotheses are satisfiable.

## Conventions of the model

* A term is `var x` or `app f args`.  C: `f_code < 0` is a variable, `f_code > 0`
  a symbol.  Shared cells are modelled by the terms they denote where only
  syntactic equality matters (justified by C04, which proves the sharing
  invariant for the term bank itself).
* Variable bindings stored in the variable cells are a trail
  (newest first) of (variable, term) pairs, as `Subst_p` is.
* An equation/literal is `(sign, lhs, rhs)`; a predicate atom `P(..)` is
  `P(..) = $true`, as in E.
* Interpretations are many-sorted: a carrier type with a sort predicate, symbol
  interpretation, sorted valuations.  A clause holds if under every sorted
  valuation some literal holds.
* Loops whose termination is part of the claim are modelled with fuel and a
  distinct out-of-fuel outcome; the theorem says that enough fuel always exists.

## Plan per property

| id | modelled | proof |
|---|---|---|
| C01 | matching loop with stack, weight bound, trail | loop invariant; weight monotonicity under substitution |
| C02 | unification job deque, deref, occurs check | invariant "unifiers preserved", measure (unbound vars, instantiated size) |
| C03 | trail push / pop | induction on histories |
| C04 | hash-consing store as list of cells with (symbol, argument indices) | invariant by induction on insertions |
| C05 | recursive insert functions on terms with current bindings | structural induction vs. specification `subst`, `replaceAt`, `replaceAll` |
| C06 | SubstNorm traversal | invariant: injective renaming; canonical by simultaneous induction |
| C07 | var bank counters per type | history invariant |
| C08 | kbo6cmp/kbolincmp with balance state | simultaneous induction: state delta = occurrence counts |
| C09 | textbook KBO | order theory: induction, Kruskal-free well-foundedness via weights |
| C10, C11 | LPO4 functions | well-founded/structural recursion, textbook LPO |
| C12 | matrix, closure, undo stack | history invariant |
| C13 | cache tree keyed by ordered term ids | history invariant |
| C14 | EqnOrient | case analysis |
| C15 | compare_pos_eqns etc. | case analysis against Dershowitz-Manna definition |
| C16 | one-pass scan | loop invariant |
| C17-C19 | construction of the conclusion clauses | semantic soundness lemma for substitution + congruence |
| C20 | normal-form computation | semantic + well-founded induction |
| C21, C22 | backtracking subsumption search and pre-checks | soundness by induction; completeness of prechecks by monotonicity |
| C23 | ground completion tautology test | soundness: every rewrite justified by negative literals |
| C24 | both tests | sorted-array binary search lemma |
| C25-C27 | list filters, unit search, condensation | semantic lemmas |
| C28 | partition loop, definitions | model extension |
| C29 | trie with bounds | history invariant + exact traversal |
| C30 | fingerprint sampling and trie lookup | table lemma + trie induction |
| C31 | feature vectors, trie | monotonicity lemmas + trie induction |
| C32 | top-down splay | in-order sequence preserved; BST invariant |
| C33 | array heap | heap invariant |
| C34 | four representations | refinement to partial function |
| C35 | HCB counters, selection | induction over runs, fairness argument |
| C36, C37 | abstract given-clause loop with the modelled rules | invariant on reachable states |
| C38 | decision function over flags; marking of proof steps as a worklist over the recorded derivations | case analysis; loop invariant: marked = reachable |
| C39 | slice computation | arithmetic (reals for fractions) |
| C40 | AC normalisation | invariant under AC steps, completeness by normal form |

| C41 | the functions of C17-C19 | lifting: every ground instance of an inference on instances is an instance of the conclusion |
| C42 | subterm index and the search for rewritable clauses | exact description of the result; counterexample to completeness |
| C43 | overlap indices, compact positions | history invariant on top of C30 |
| C44 | HCB deletion of bad clauses | reduction of the loops to a list of picks, invariant over it |
| C45 | main loop of schedule execution, results of processes as input | invariant over rounds |
| C46 | filtering of the default schedule, placeholder | loop invariant; counterexample |
| C47 | import of clauses into the SAT interface, pure literals | numbering invariant; a model of the clauses gives a valuation |
| C48 | frequency loops of the grounding strategies | loop invariant; counterexample |
| C49 | disequation decomposition | semantic argument per literal |
| C50 | extraction with reference counts, queue-based topological sort, renumbering, `strtol` | loop invariants: count = citations by steps not yet listed; round trip of decimal numbers |
| C51 | formulas as an inductive type with the usual truth definition; the steps of `WTFormulaConjunctiveNF3` | induction on fuel and formula; termination by a weight for each step |
| C52 | `tformula_rek_skolemize` with the stack of universal variables and the bindings | induction on the formula; the new symbol is interpreted by choice |
| C53 | `FormulaSetCNF2` without definitions, down to the clauses | composition of C51, C52, C06; elimination of Boolean variables separately |
| C54 | `TFormulaSetIntroduceDefs`: finding, polarity marks, definitions, application | marks are closed under subformulas with sign; replacement at marked places only weakens or strengthens in the right direction; the new predicate is interpreted by the subformula |
| C55 | `FormulaSetPreprocConjectures` and `FormulaSetCNF2` for a list of typed (axiom, conjecture, ...) formulas | composition of C51–C54; `$answer` is interpreted as false; proofs by C36 |
| C56 | `ProofStateClausalPreproc`: superfluous literals, tautologies, injectivity, canonical order, unfolding | the defined symbol is interpreted by its definition, the inverse function by choice; one relation between clause sets that composes |
| C57 | `EliminateBlockedClauses` with both tests, occurrence map, task queue and waiting tasks | a maximal set of flipped atoms (Zorn) makes the removed clause true; without equality in the term model, where the unifier of the instance follows the loop of the test; measure for termination, invariant for completeness |
| C58 | `ClauseSetGDTransform` with the collection of ground terms | invariant over the steps: each definition interprets a new constant by the value of its term |
| C59 | `PredicateElimination` with the bookkeeping of the clauses of each predicate, both kinds of resolvents, gates, the SAT check of gates and the rescheduling | invariant of the loop: the sets of a task are the clauses in which its predicate occurs; one step preserves models in both directions (the predicate is redefined by what the positive clauses demand) |
| C60 | the weight generation methods for first-order problems, `find_max_symbols`, the loop over the constants, the variable weight | invariants of the loops: every weight is positive except that of the maximal symbol; with C09 the comparison is a simplification ordering |
| C61 | the generating functions of C17-C19 with the tests of the calculus as conditions on the unifier; redundancy through ground instances (`Clauses/SupSpec`) | model construction: ground rewrite system from the productive clauses, reduction of counterexamples, lifting by C41 |
| C62 | the loop of C36 with identities of processed clauses, selected literals and recorded parents (`Control/Complete`); every step that processes a clause adds all results of the three inference rules | invariant: the inputs and all results of inferences with processed clauses are redundant with respect to the clauses that may not be deleted; each simplification shown to make the original redundant; then C61 |
| C63 | `cte_lambda.c` on terms with de Bruijn indices (`HO/Lambda`), normalisation with fuel | translation into the textbook calculus (`HO/Lam`); confluence by parallel reduction, strong normalisation by reducibility, both proved here; then refinement of each function, injectivity of the translation on well-formed cells |
| C64 | eta reduction and expansion in the same model | each function against eta steps of the calculus; maximality of the dropped arguments by the loose indices; for canonicity: eta is confluent, commutes with beta on typed terms, hence unique normal forms; eta-long forms by induction over the spine: equal heads fix the types of the arguments |
| C65 | `do_named_to_db` with the binding fields as state, `replace_fvars`, `AbstractVars` (Verif/HO/Named.lean) | values in arbitrary interpretations of application and abstraction (Verif/HO/LamEval.lean); for the converse the interpretation by terms |
| C66 | `SigInsertId`, `SigFindFCode` on character lists (Verif/Text/Signature.lean) | invariant of the table (`SigFor`): keys are different and encode name and arity; witnesses for the names excluded |
| C67 | scanner, printer and parser of terms, literals, clauses on lists of characters (Verif/Text/{Scanner,Print,Parse}.lean) | the text scans to a list of tokens defined beside it (`Scans`), the parser inverts that list; induction on terms; renaming lemma for models |
| C68 | printer and parser of formulas | as C67, with modes of the printer (or-chains, merged quantifiers); induction on formulas |
| C69 | the stages of C55, C56, C36/C62 and C38 put together (`Prepared`, Verif/Props/Verdict.lean) | composition of the theorems of the stages |
| C70 | axioms as lists of symbol occurrences, symbol distribution, D-relation, selection loop with queue, marker and flags (Control/Sine) | invariant of the breadth first search; counting for the distribution; sorting for the D-relation |
| C71 | levels, symbol relevance and index removal (Control/Relevance) | invariant: core = axioms at distance k, rest = axioms farther away |
| C72 | ring buffer with memory, head, tail, size (Basics/PQueue) | refinement to lists for every sequence of operations |
| C73 | literals with marks, CPIsOriented, all selection functions and the table of names (Heuristics/LitSel) | one lemma for every function (`Base`, `Full`), combined along the table; marks by C16 |
| C74 | annotation of questions (C55), test for answer clauses and print (Control/Answers) | the symbol of a question is interpreted as the test whether its arguments answer the question; clausification extends that model, saturation preserves truth |
| C75 | expansion of `$distinct` and the loop over the formulas (Formulas/Distinct) | partial: the disjunction-free formula is evaluated by induction over the stack of disequations; the set is compared formula by formula |
| C76 | iterators over positions, sides and pairs for paramodulation without index (Clauses/OverlapIter) | each iterator runs through a list (linked by its step); skipping unwanted states filters the list; the pairs are the concatenation over the sides |
| C77 | instantiation with constants, purity constraints, unit simplification, DIMACS output of eground (Clauses/Grounding) | the counter of instances is a linked list of all choices; every step keeps the satisfying assignments; pure atoms can be set to their sign; Herbrand's theorem with a term model; splitting of the printed numbers at the zeros |
| C78 | the state and the commands of CSSCPA_filter (External/Csscpa) | invariant over the commands: shape of the three sets, counters, kept clauses imply all earlier ones (C21, C23); the forward check through the index finds every kept unit that subsumes (C01, C29) |
| C79 | PCL protocols, both marking functions, printing (Pcl/Protocol) | loop invariants for soundness and completeness of the marking, a decreasing potential for termination |
| C80 | the checks generated per step, the counting, the verdict (Pcl/Protocol) | a model that falsifies a step is extended to the Skolem constants, against soundness of the prover; induction along the references |
| C81 | formulas as terms, expansion of literals, lifting of `$ite`, unrolling of Boolean arguments (Formulas/Fool) | positions as contexts; the value of a literal depends on the value at a position outside quantifiers; case distinction on it; a weight for termination |
| C82 | reading of command lines, integer arguments, line breaks of the help text (Inout/CommandLine) | a grammar as an inductive relation; invariant: the array is arguments passed ++ arguments to come; soundness by induction on the calls, completeness on the grammar |
| C83 | lifting of `$let` (Formulas/LetLift) | denotational semantics with local functions; a replacement lemma for interpretations that fit; invariant of the lifting by induction on the recursion; definitional extension symbol by symbol |
| C84 | watch list (Control/Watchlist) | transition system over the one of C36 with tests and simplification of the list; invariant: each original clause present up to equivalence over the input, or entailed; uses C21, C31, C36 and the lemma on `Modify` |
| C85 | types (Terms/SimpleTypes) | meaning of cells as curried types; injectivity of the meaning on well-formed cells; parsers by induction on a grammar of type expressions; invariant of the bank (cells distinct, arguments earlier) |
| C86 | `include` (Inout/Include) | file systems as functions; big-step text relation beside the reader; both directions by induction; uniqueness of directories; rank function for termination |
| C87 | sorts while reading (Terms/Sorts) | typing of symbols and sorts of terms as a separate specification; invariant "between literals every known symbol has a fixed type"; soundness and completeness by induction on terms, then on the items |
| C88 | argument congruence, extensionality, flex clauses (HO/HoInfer) | extensional typed models (Henkin style) as a separate specification; soundness by changing the valuation of one variable; flex clauses by a valuation with constant functions built from the table of signs |
| C89 | abstracting superposition, equality resolution and factoring (HO/ExtInfer) | the models of C88; induction on the two terms compared (equal symbols and equal types give equally many arguments), then case distinction on the conditions |
| C90 | equations between formulas in literals (HO/NormEqs) | values of terms (truth values and other elements) as a separate specification; one lemma for each step of the function, then for literals and clauses |
| C91 | identifiers of proof steps (Text/PclId) | reading and printing on tokens are inverse to each other; printed names unique by taking off digits; comparison against `List.Lex` |
| C92 | messages over a connection (Inout/NetMsg) | the system's answers (numbers of bytes taken or given, contents of the buffer) as an arbitrary list; invariant over the calls for the bytes already read |

## What is modelled

| Lean (under `lean/Verif`) | Code in `/repo` | Properties |
|---|---|---|
| `Terms/{Term,Spec,Subst,Match,Mgu}` | `cte_subst.c`, `cte_match_mgu_1-1.c` (first-order parts) | C01-C03 |
| `Terms/{Inst,VarBank,Norm}` | `cte_termbanks.c` insertion functions, `cte_replace.c`, `cte_varbanks.c`, `cte_subst.c` (SubstNorm*) | C05-C07 |
| `Terms/TermBank*` | `cte_termbanks.c`, `cte_termcellstore.c`, `cte_termtrees.c` with garbage collection | C04 |
| `Terms/FPIndex*` | `cte_idx_fp.c`, `cte_fp_index.c` | C30 |
| `Orderings/{Kbo,Lpo,Prec,CmpCache}*` | `cto_kbolin.c`, `cto_kbo.c`, `cto_lpo.c`, `cto_ocb.c`, `cto_cmpcache.c`, parts of `che_to_precgen.c` | C08-C13 |
| `Clauses/{LitCmp,OrdSpec}*` | comparison and maximality in `ccl_eqn.c`, `ccl_eqnlist.c` | C14-C16 |
| `Clauses/{Infer,InferProof}`, `Clauses/Sem` | `cco_eqnresolving.c`, `ccl_factor.c`, `ccl_paramod.c` | C17-C19, C41 |
| `Clauses/Rewrite*` | `ccl_rewrite.c` | C20 |
| `Clauses/{Subsume,Condense,Taut}*` | `ccl_subsumption.c`, `ccl_unit_simplify.c`, `ccl_condensation.c`, `ccl_context_sr.c`, `ccl_tautologies.c`, parts of `ccl_clauses.c` | C21-C27 |
| `Clauses/Split*` | `ccl_splitting.c`, `ccl_def_handling.c` | C28 |
| `Clauses/ClauseIndex*` | `ccl_clausecpos.c`, `ccl_subterm_index.c`, `ccl_overlap_index.c`, indexed search in `ccl_rewrite.c` | C42, C43 |
| `Clauses/FVIndex*` | `ccl_freqvectors.c`, `ccl_fcvindexing.c`, indexed searches in `ccl_subsumption.c`, set-up in `cco_proofproc.c` | C31 |
| `Clauses/PDTree*` | `ccl_pdtrees.c` (insertion, deletion, search, constraints), `ClauseSetPDTIndexedInsert` | C29 |
| `Terms/AC*`, `Clauses/ACClause` | `cte_acterms.c`, `che_axiomscan.c`, AC functions of `ccl_eqnlist.c`, `ccl_clauses.c`, `ccl_clausefunc.c` | C25, C40 |
| `Heuristics/HCB*` | `che_hcb.c` (selection, deletion of bad clauses), `EvalCompare`, evaluation trees of clause sets | C35, C44 |
| `Control/Schedule*` | `cco_scheduling.c`, process sets of `cco_gproc_ctrl.c` (exact arithmetic) | C39, C45, C46 |
| `Clauses/SatCheck` | `ccl_satinterface.c` (without the solver), `ccl_diseq_decomp.c`, `cco_diseq_decomp.c` | C47–C49 |
| `Control/Saturate*` | `cco_proofproc.c` (`ProcessClause`, `Saturate` and helpers), `cco_forward_contraction.c` as a transition system; splitting, watch list, answers, higher-order rules and preprocessing left out | C36, C37 |
| `Control/Status` | `PROVER/eprover.c` 594-982 (status and exit code), `ccl_derivation.c` (`DerivationMarkProofSteps`, skipping of copies) | C38 |
| `Clauses/Derivation*` | `ccl_derivation.c` (`DerivationCompute`, `DerivationExtract`, `DerivationTopoSort`, `DerivationRenumber`, `derivation_find_max_id`), `ccl_clauseinfo.c` (`ClauseInfoGetIdCounter`) | C50 |
| `Formulas/*` | `ccl_tcnf.c` (`TFormulaSimplify`, `TFormulaNNF`, `TFormulaMiniScope`, `TFormulaMiniScope3`, `TFormulaVarRename`, `TFormulaSkolemizeOutermost`, `TFormulaShiftQuantors`, `TFormulaDistributeDisjunctions`, `WTFormulaConjunctiveNF3`), `ccl_tformulae.c` (`TFormulaVarIsFree`, `EncodePredicateAsEqn`, `TFormulaCollectFreeVars`, `TFormulaCollectClause`), `ccl_formulafunc.c` (`TFormulaToCNF`, `WFormulaCNF2`, loop of `FormulaSetCNF2`), `ccl_clausefunc.c` (`ClauseEliminateNakedBooleanVariables`).  Not: formulas inside terms (FOOL, lambda, let, ite), `tform_find_miniscopeable` (left open) | C51, C52, C53 |
| `Formulas/{Defs,Problem}` | `ccl_tcnf.c` (`TFormulaEstimateClauses`, `tformula_rename_test`, `TFormulaFindDefs`, `TFormulaDefRename`, `TFormulaCopyDef`), `ccl_tformulae.c` (`TFormulaMarkPolarity`, `TFormulaDecodePolarity`, `TFormulaCreateDef`, `TFormulaAddQuantors`), `ccl_formulafunc.c` (`TFormulaSetIntroduceDefs`, `WFormulaAnnotateQuestion`, `WFormulaConjectureNegate`, `FormulaSetPreprocConjectures`, `FormulaSetSimplify`, `FormulaSetCNF2`). | C54, C55 |
| `Clauses/Preproc` | `ccl_unfold_defs.c`, `EqnIsDefinition`, `TermIsDefTerm`, `ClauseRecognizeInjectivity`, `ClauseSetReplaceInjectivityDefs`, `ClauseSetCanonize`, `ClauseSetFilterTautologies`.  Not: `ClauseSetInjectivityIsDefined` (arbitrary), the watchlist, the higher-order steps of `cco_preprocessing.c` | C56 |
| `Clauses/Bce*` | `ccl_bce.c`, `EqnListFindCompLitExcept`, `EqnEqualDeref`.  The heap is an arbitrary choice of the next task | C57 |
| `Clauses/GoalDefs*` | `ccl_gd_transformation.c`, `TermCollectGroundTerms`, `EqnListCollectGroundTerms`.  The order of the collected terms (by address) is arbitrary | C58 |
| `Clauses/PredElim*` | `ccl_pred_elim.c` completely.  Orders of sets (addresses) and of the heap are arbitrary; the SAT solver and the tautology test are parameters; archive and derivations are not modelled | C59 |
| `Orderings/WeightGen*` | `che_to_weightgen.c` without the methods for higher-order problems and user weights; exact division instead of `float`; sorting is insertion sort by the keys | C60 |
| `Clauses/Sup*` | which inferences the prover computes: `ComputeAllEqnResolvents`, `ComputeAllEqualityFactors`, the paramodulation loops, as conditions on the literals and positions that are tried; the tests after unification may accept more than they must | C61 |
| `Control/Complete` | the loop as in `Control/Saturate`, without destructive equality resolution and AC redundancy; runs through states with well-typed clauses over the signature | C62 |
| `HO/Lambda` | `cte_lambda.c`: shifting, substitution of bound variables, `WHNF_step`, `BetaNormalizeDB`, eta reduction and expansion; curried types; the cache of `WHNF_step` and bindings of free variables left out | C63, C64 |
| `Text/*` | `cio_scanner.c` (tokens, without positions, includes and the skipping of comments into the token), `cte_signature.c` (`SigInsertId`, `SigFindFCode`), TPTP-3 printing and parsing in `cte_termfunc.c`, `cte_termbanks.c`, `ccl_eqn.c`, `ccl_eqnlist.c`, `ccl_clauses.c`, `ccl_tformulae.c` for untyped first-order problems; not: numbers, `$let`, `$ite`, types, sources and annotations after the formula, other formats | C66-C68 |
| `Basics/{Splay,MinHeap,IntMap}*` | the splay trees of `BASICS`, `clb_min_heap.c`, `clb_intmap.c`, `clb_pdrangearrays.c` | C32-C34 |

Simplifications that run through all of it: first-order mode; `long` does not
overflow; allocation succeeds; sorting (`qsort`, `PStackSort`) is any
permutation or any correct sort, as stated at each place; the term properties
that are not read by the modelled function are left out.

## Where code and property disagree

Each of these is a theorem with a concrete witness, unless marked (read), which means that it was
noted while reading and not formalised.

* C08: with a partial precedence the fast KBO reports different terms as equal (`kbo6Compare_partial_precedence`).
* C09: symbols introduced after weight generation get a weight that breaks admissibility (`kgt_subst_fails_for_new_constants`).
* C10: at the recursion limit LPO answers "no" (`lpo4_limit_incomplete`).
* C12: the value returned when a pair is added is not a state to backtrack to, and a redundant pair is reported as if
  refused (`addTuple_result_is_no_state`, `addTuple_redundant_reported_as_refused`); generated chains may stay partial
  (`precChain_partial_with_user_precedence`, `precChain_partial_with_distinct`).
* C13: the assertion in `CmpCacheInsert` is too strict (`cmpCacheInsert_assertion_too_strict`); the cache has no users.
* C14, C28: `EPIsSplitLit` is 65636 instead of 65536 and overlaps other flags: literals made by `GenDefLit` are never
  oriented, the split mark is lost, definitions are split again, and a satisfiable result can arise from an unsatisfiable set
  (`genDefLit_never_oriented`, `definition_literal_forgotten`, `definition_split_again`).
* C15: a positive unoriented literal against a negative one: a possible answer is missed (`literalCompare_incomplete`).
* C19: the unindexed super-simultaneous paramodulation applies the unifier twice and is unsound (`superSim_direct_unsound`).
  `ComputeClauseClauseParamodulants` records the derivation on the copy of the parent (`cco_paramodulation.c:721, 766`, read).
* C20: terms protected by the restriction flag are not normalised below (`restricted_normalisation_incomplete`).
  `enormalizer` marks all demodulators as oriented without an ordering check (`PROVER/enormalizer.c:290-314`, read).
* C22: unit subsumption does not try the second orientation after a half success (`unitSubsumes_incomplete`).
* C24: the test for long clauses misses complementary literals (`longTrivial_incomplete`).
* C26: strong simplify-reflect records too few parents (`strongSR_records_too_little`); `ClauseSimplifyWithUnitSet` records none (read; unused).
* C28: whether a clause is split depends on the order of its literals (`split_depends_on_order`), as `find_free_literal` is
  used as a boolean (`ccl_splitting.c:299`).
* C29: every matching entry is handed out twice, and once even if its age excludes it, because a leaf that was just entered is not
  marked as done (`pdtree_search_twice`, example `PDTreeEx.twice`).  This costs time only.  Deleting a term that is not in the tree leaves
  empty alternatives behind (`ccl_pdtrees.c:1278`, read), the model gives no result there; `trav_order` is one global array for all
  trees (1377-1412, read), so searches in two trees must not be interleaved; `prefer_general` visits function symbols first, the
  opposite of its name (1395-1406, read).
* C31: positive units "subsume" literals with identical sides, for which features are not monotone
  (`features_trivial_literal`); deletion of a clause that is not stored damages the index (`fv_delete_absent`); the permutation of
  the main index is used for the definition store, whose vectors may be shorter (`def_store_perm_out_of_range`).
  `BillPlusFeaturesCollectAlloc` asserts `len > 2`, but does not end for lengths 3 to 5 (read; the prover passes at least 6).
* C33: `MinHeapDecrKey`/`MinHeapIncrKey` repair in the wrong direction (`decrKey_wrong_direction`; unused).
  `react_clause_removed` changes a key without telling the heap (`ccl_pred_elim.c:1240-1280`, read).
* C34: the density test always chooses an array for a second, greater key (`second_key_array`, `second_key_tree`); lookups
  enlarge arrays (`lookup_enlarges`).
* C40: `DetectAssociativity` tests the weight of the left side twice and never that of the right side
  (`che_axiomscan.c:128-131`); harmless, as detection is exact all the same (`detect_assoc_exact`).
* C41: equality factoring is not most general: variables are captured (`equalityFactor_not_general`).
* C42: deeper subterms are never put into the subterm index (`bw_search_misses_deep_subterms`), as the recursive call passes
  true for `lambda_demod` (`ccl_subterm_index.c:81`).
* `tb_termtop_insert` writes to a freed cell (`cte_termbanks.c:166-167`, only with `ENABLE_LFHO`, read).
* C44: `HCBClauseSetDelProp` runs `j < select_switch[j]`, so the declared ratio is ignored (`hcb_delete_ignores_ratio`, `hcb_delete_witness`).
* C39: if more than a second beyond the limit has been used, a negative number is converted to an unsigned one (`sched_exceeded_undefined`).
  A slice of 0 means "no limit" for the process (`cco_gproc_ctrl.c:177-180`, read); `sched_search_positive` excludes it for positive fractions.
* C45: a strategy that needs more cores than there are blocks the loop forever (`sched_exec_stuck`).  The exit status is read from a handle that
  was just freed (`cco_scheduling.c:304-305`, read).
* C46: `GetFilteredDefaultSchedule` leaves the last fraction unset (`sched_filtered_last`).  If the placeholder were the first entry, the
  schedule would become empty (`initPlaceholder`; the tables always have entries before it).
* C48: the comparison functions for conjecture frequencies assign (`=`) where they should compare (`ccl_satinterface.c:220, 242, 272, 294`), so
  ties are not broken as documented and the recorded frequency is overwritten (`satcheck_choice_conj_wrong`).
* `cleanup_unprocessed_clauses` adds the number of orphans instead of the number of deleted clauses to `non_redundant_deleted`
  (`cco_proofproc.c:923`, read).  `ForwardModifyClause` ignores its parameter `context_sr` (read).
* Option `--assume-completeness` has no effect on status and exit code (`assume_completeness_ineffective`): `eprover.c:939, 951` test
  `inf_sys_complete` alone, so a restricted calculus still ends in `GaveUp`, contrary to `e_options.h:945-953`.
* A clause that is pushed twice on the stack of roots is printed twice, and if another root cites it, its ancestors are missing from the
  proof object (`derivation_repeated_root`): `DerivationExtract` counts its citations twice.  This happens to answer clauses with
  `--full-deriv` when more than one answer is wanted (`cco_proofproc.c:1612`, `eprover.c:853-865`).
* Clausification (all read, none affects C51–C53): `tform_find_miniscopeable` returns `LONG_MAX` for ground subformulas and the caller adds to it
  (`ccl_tcnf.c:820-867`, signed overflow; only a size estimate); the instantiated copy of an unencoded Boolean term is discarded during Skolemization
  (`ccl_tcnf.c:393`) and `TFormulaCollectClause` silently drops such terms, neither reachable after negation normal form; `tform_copy_mod` does not
  descend below quantifiers, so candidates there are not miniscoped.
* C55: `ClauseIsSemFalse` (`ccl_clauses.c:722-734`) looks for pseudo literals of either sign, because `EqnAlloc` sets the property without regard to the sign.  A
  clause `~$answer(X)` in the input is therefore reported as an answer, although the input is satisfiable (`problem_sign_ignored`).  For problems without `$answer`
  all answer literals made by the prover are positive (read off the code, not proved), and `problem_proof` applies to them.
* C54: `subform_sign` in `tformula_rename_test` (`ccl_tcnf.c:489`) is always false, so that the test for negated subformulas is never made.  This changes which definitions
  are introduced, not their correctness.
* C57: `ccl_bce.c` does not exempt pseudo predicates.  A clause with a (positive) `$answer` literal is pure and removed, so for a question with `--bce` the answer is lost
  (`bce_loses_answer`); C55 and C56 interpret `$answer` as false, and C57 keeps satisfiability only if its meaning may change.  Also (read off the code): with `--no-preprocessing` the clause
  `~$true` contains a pure predicate and would be removed; `FOLit` excludes it.
* C58: `gd_term_define` stores a definition under the normal form of the term but looks it up under the term itself.  A term met a second time is normalised to its constant, and this constant
  gets another name (`goaldefs_double_name`).  Harmless, but the transformation is not what the comment says.
* C58: without subterms `TermCollectGroundTerms` does not go below a ground atom, although atoms themselves are not collected: for a ground goal nothing is named (`goaldefs_ground_atom`); the
  comment promises the maximal ground terms.
* C59: the inner loop of `check_tautologies` (CLAUSES/ccl_pred_elim.c:834) is `for(j = 0; ... i < ...; i++)`: it tests and increments `i`.  Hence only the resolvent of the first positive
  and the first negative clause is tested, and clauses that contradict each other can be taken for a gate.  Gate elimination does not resolve the clauses of a gate with each other: `pe_gates_wrong`
  is an unsatisfiable set of five propositional clauses from which all clauses are removed (E would report satisfiability).
* C59: the local variable `eqn_found` of `PredicateElimination` (line 1468) is read uninitialised; the model has it as parameter `eqnInit`.  The theorems hold for both values.
* C59: `PTreeMerge` in `react_clause_removed` does not update the cardinality of the set.  It is only used for scheduling.
* C59: `$answer` is treated like every other predicate (`pe_loses_answer`), as in C57.
* C60: `set_maximal_0` (HEURISTICS/che_to_weightgen.c:234-257) gives weight 0 to the maximal symbol without looking at its arity (a comment says so).  If it is a constant, the weights are not
  admissible and the comparison is not stable under substitution (`WeightEx.default_not_stable`).  The assertion in line 1456 notices this in debug builds only.
* C60: only two of the frequency rank methods avoid weight 0 for symbols that do not occur in the axioms.  With `WFrequencyRankSq` every such constant (for example `$false`) has weight 0, and with
  `force_kbo_var_weight` variables get weight 0 as well (`WeightEx.unused_constant`).
* `OCBCondSetMinConst` is called with the loop index instead of the symbol (`che_to_precgen.c:98-102`, read);
  `OCBFindMinConst` picks the largest constant (`cto_ocb.c:574`, read); `FCodeFeatureArrayAlloc` leaves `axiomdist_array` unset (read).
* C66: quoted names with a second arity get a new code at each occurrence (`symbol_quoted_arity_new_code`), `'f_ARITYFIX2 '` collides with
  the second arity of `f` (`symbol_key_collision`), `'$true'` is `$true` (`symbol_quoted_true`), and in `scan_string` the character after a
  backslash is not read again before it is tested, so texts with escapes change (`symbol_escape_lost`).  Symbols with a second arity lose
  their quotes when printed (`SigInsertId` stores the key without quotes as the printed name; excluded by `Vocab.quoted`).
* C67: clauses of type conjecture are printed with the role `conjecture`, which `ClauseParse` refuses (`clause_conjecture_rejected`).
  A comment `/*` that is not closed makes `scan_C_comment` loop forever (`cio_scanner.c:242-250`, read).

## Partial results

* C19: sound on all paths but the one refuted above.
* C22: complete for at least two literals; for units only the direct cases (refuted in general).
* C24: sound, exact for short clauses (long test refuted).
* C28: satisfiability of the result implies that of the input only if the definitions in use still follow (refuted in general).
* C41: without simultaneous paramodulation (equality factoring refuted).
* C42: exact description of what is found (completeness refuted).
* C44: number kept exact, shares of the functions equal (declared ratio refuted).
* C46: strategies exact, shares equal but for the last one (refuted for it).
* C48: exact for global frequencies (refuted for conjecture frequencies).
* C37: the statement includes the former demodulators and AC axioms (`links`, `ac`), to which rewrite links in term cells may still refer.
  Leaving them out needs a proof that they stay redundant, by induction on an ordering of clause instances; unorientable equations are used
  at the top of each other without such a decrease.
* C50: roots that stand for different clauses (refuted otherwise).
* C59 with gates: false in general (see above); proved for clause sets in which the clauses that can be part of a gate do not contradict each other, or there is at most one per sign.
* C60: the three cases in which the weights are not admissible are excluded by hypotheses (`WeightsOK`).
* C61: clauses with a positive literal, not the only one, that has a variable occurring nowhere else (see C41).  Object constants (distinct objects) are excluded.  Redundancy is what the theorem is about;
  which simplifications are justified by it is C62.
* C62: redundancy compares ground instances, the code compares terms.  A demodulator may rewrite a whole side of a maximal positive literal whenever the match is not a renaming
  (`RewriteSpec`, field `proper`), even if the demodulator is then greater than the rewritten clause.  Such steps are not justified by the redundancy criterion used here (a criterion on closures would be needed), so the model
  of the loop allows a rewriting step only under `TopOK`.  Destructive equality resolution and AC redundancy are not justified by it either.  A former demodulator may be used through links in
  term cells only while it follows from the processed clauses.
* C63: `BetaNormalizeDB` (TERMS/cte_lambda.c:1258-1272) replaces an equation `s = $true` by the formula `s` only if the term was not in normal form before, so the result is not
  canonical for such equations: `betaNormalize_not_canonical`.  The normal form itself (`do_beta_normalize_db`) is.
* C64: `LambdaEtaReduceDB` (TERMS/cte_lambda.c:1430) returns a term without abstractions unchanged, but for a term with an abstraction anywhere it expands the arguments of all quantifiers in it
  (560-568).  So `h (!! p) (λx. f x)` and `h (!! p) f` get different normal forms: `etaReduce_quantifier_not_canonical`.
* C66, C67: the names excluded by `GoodNames` and `Vocab`, and the role conjecture (both refuted, see above).
* C69: for `Satisfiable` and `CounterSatisfiable` as C61 and C62.  `ContradictoryAxioms` depends on the recorded derivation (`conjecture_found`, C38);
  that the axioms alone are contradictory would need derivations in the states of the loop and is not proved.
* C70: three disagreements with the claim, proved with witnesses (`sine_limit_exceeded`, `sine_listed_twice`, `sine_last_internal_lost`).  The limit is
  tested with `>` before the next axiom is taken (ccl_sine.c:574).  Axioms without trigger are put into the result without being marked
  (ccl_sine.c:748-752), so a conjecture among them comes a second time as a seed; eprover moves it twice, which is harmless, e_axfilter prints it
  twice.  `compute_d_rel` files axioms under symbols `>= internal_symbols` (ccl_f_generality.c:198) while the loop only looks at symbols
  `> internal_symbols` (ccl_sine.c:630); `internal_symbols` itself is `$distinct`, so in e_axfilter (where `$distinct` is not expanded before
  selection) an axiom `$distinct(...)` whose constants occur elsewhere is never selected.  Formulas are represented by their symbol occurrences;
  `TermTrimImplications`, the parser of filters, and the choice of an automatic filter are not modelled; `double` arithmetic is exact.
* C71: `FIndex` is represented by its contents.
* C73: four disagreements, proved with witnesses.  `PSelectFirstVariableLiteral` (che_litselection.c:946-954) selects the positive literals but not the
  literal found (`pureVar_blocks`); the clause then takes part in no inference.  `SelectVGNonCR` (5674-5679) does not delete CPIsOriented after
  marking and selecting, so `ClauseCondMarkMaximalTerms` does nothing and the marks are those without selection (`vgNonCR_marks`).
  `SelectComplexPreferNEQ`, `SelectComplexPreferEQ` (3516-3561, 3665-3710) leave the loop with `break` at the first literal that is not better
  (`preferNEQ_misses`).  `SelectCondOptimalLiteral` (1989-1997) and its variants exchange the weights for variables and symbols in `TermWeight`
  (`condOptimal_inverted`).  The weight functions of `generic_uniq_selection` are an arbitrary function of the clause and the position (`SelCtx.eval`),
  so the theorems hold for all of them; so are the tests for type predicates and range restriction.  Weights are assumed to stay below LONG_MAX
  (`SmallLit`).
* C74: `answer_lit_print` prints the arguments of the term under `$answer` without looking at its head.  Rewriting with an equation that applies to all
  individuals (`X = c`) can replace the term made for the question; the tuple is then empty or that of another term.  The theorems are about clauses in which
  the terms are those made for the questions (`AnswerClause`).  The sign of the literals is not looked at either (C55, `problem_sign_ignored`).  The print does
  not say which question a tuple belongs to.  With several questions and a model with just one individual the symbols of the questions have the same value, and
  nothing can be concluded about a particular question; hence the side condition of `answers_correct`.
* C75: `ProofStateProcessDistinct` builds the new formula with `WTFormulaAlloc`, which leaves the type empty.  A conjecture `$distinct(a, b)` therefore becomes
  an axiom instead of being negated (`DistinctEx.distinct_conjecture_asserted`): from `a = b` the prover reports it as proved.
* C76: paramodulation without index does not try overlaps of a variable side of the second clause into the top of a positive literal of the first one, in
  either direction (`OverlapIterEx.variable_top_lost`).  The indexed variant (C43) tries them.  `ComputeClauseClauseParamodulants`
  (CONTROL/cco_paramodulation.c:721, 766) moreover pushes the derivation onto the given clause instead of the new one, so that clauses made without index have
  no derivation; the derivations of C50 are taken as recorded.
* C77: `ClausePrintDimacs` (CLAUSES/ccl_grounding.c:587, 591) prints literals to `stdout` whatever the output file is; with `--output-file` the file contains
  empty clauses instead (`GroundingEx.eground_file_wrong`).  The estimate for `--give-up` stores the number of constants in a `bool` (1014, 1023), so it never
  gives up (`GroundingEx.giveUp_ineffective`).  Equations are recoded as atoms by the program; the input of the model are clauses of atoms.  Not modelled:
  splitting, limits on time and memory, `--add-one-instance`.
* C78: `CSSCPAProcessClause` (EXTERNAL/cex_csscpa.c:274-424) never sorts literals as `clause_subsumes_clause` asserts (CLAUSES/ccl_subsumption.c:624-625), so
  subsumed clauses are kept (`CsscpaEx.unsorted_subsumption_missed`; with assertions enabled the program aborts instead).  `find_unit_contradiction` unifies without renaming variables apart
  (`CsscpaEx.shared_variables`) and is not called when the clause is an improvement (`CsscpaEx.improvement_hides_contradiction`).  The help text says that a `check`ed clause is only
  integrated if it subsumes heavier clauses; a clause lighter than the average is integrated, too.  The floating point test is an arbitrary function.  Not modelled:
  parsing, the output, and clauses rejected as heavy remain allocated (a leak).
* C79: `PCLProtMarkProofClauses` (PCL2/pcl_protocol.c:532-549) computes its result from all steps, so epclextract can announce a `CNFRefutation` that is not in its output
  (`PclEx.frame_without_refutation`); the mini version (pcl_miniprotocol.c:403-415) uses the steps reached, which is right.  The fast mode stops at the first gap in the
  numbering (`PclEx.gap_loses_step`).  Compound identifiers, positions, and reading and printing of steps are not modelled.
* C80: `PCLProtCheck` (PCL2/pcl_proofcheck.c:754-808) never checks that references go to earlier steps: a circular protocol is "verified" with a sound prover
  (`PclEx.circular_verified`).  `PCLCollectPreconds` skips full formulas, and a step without remaining parents is counted as checked (`PclEx.formula_parent_verified`).
  A dangling reference makes the program dereference a null pointer (`none` in the model).  The external provers and the files exchanged with them are a parameter.
* C81: `TermFindIteSubterm` (TERMS/cte_termfunc.c:2318-2346) and `find_fool_subterm` (CLAUSES/ccl_formulafunc.c:809-853) stop at lambda terms, but not at quantifiers.
  `$ite(c, ?[X]: p($ite(q(X), a, b)), d)` loses the binding of `X` (`FoolEx.lift_scope`), and so does `X = (![Y]: q(Y))` for a Boolean variable `X` (`FoolEx.unroll_scope`); in both cases a true formula
  becomes one that is not true.  `do_bool_eqn_replace`, which might have prevented the second case, never applies since `TFormulaIsComplexBool` (CLAUSES/ccl_tformulae.h:66-68) tests
  the term instead of its type.  Lambda terms, applied variables and `$let` are not modelled.
* C81, further: `TFormulaSetLiftItes` runs before `TFormulaSetLiftLets` (CLAUSES/ccl_formulafunc.c:1648-1649), and `TermFindIteSubterm` descends into `$let`; an `$ite` in a `$let` is taken out of it,
  with a condition that may mention the local symbol.  Not modelled, found by reading.
* C82: `CLStateGetIntArg` (INOUT/cio_commandline.c:603-631) tests `errno` and the rest of the string after `strtol`, but not whether there is a number at all: `--cpu-limit=` is accepted as 0
  (`CmdLineEx.empty_number`).  `strtol` is modelled after the C standard with a `long` of 64 bits, in the C locale; strings do not contain the terminating character.
* C83: the domain of the semantics contains the values of terms and formulas, logical operators are symbols, a quantifier is any function on functions; so the theorems hold for any fixed reading of these.
  Simplified: no lambda terms and partially applied local symbols; formulas are closed; that no variable in scope is bound again is a hypothesis (the parser allocates a new variable for every binder,
  and `TFormulaSetLiftLets` renames quantified variables first).  `$let` with two definitions of one symbol passes the parser (TERMS/cte_termbanks.c:386-459 looks only for the declaration) and yields
  two axioms for one new symbol (`LetEx.dup_definition`).
* C84: the calls of `check_watchlist` are steps that may happen at any time to clauses of the state (as in the code: copied axioms, new clauses, the given clause).  Not modelled: parsing of the list, documentation
  output and the use of the marks by evaluation functions.  With an empty list (for instance an empty file) the loop is not entered and the list is reported as emptied (`WatchEx.watchlist_initially_empty`).
* C85: the model of types covers flattening, the shared bank, both parsers, both printers, the type of an application and choice types.  Not modelled: application encoding, inference of types of undeclared symbols.
  Disagreements: for first-order problems `a * b` is read as the function type `a > b` (`type_product_read`), and one parenthesis of `((a > b))` is left unread (`type_parens_left`).
  `TypeCheckConsistent` reads one argument past the end of the arguments, but is not called.
* C86: files are lists of statements, the content of formulas is left to C67 and C68.  Disagreement: `FormulaAndClauseSetParse` stops at the first token that begins no statement, and only `parse_spec` checks that the
  end of the file is reached; for an included file nobody does, so a misspelt `foff(...)` in an axiom file silently drops all axioms after it (`included_rest_dropped`).  A file that includes itself is opened again and again
  (`include_cycle`).  Single-quoted names cannot be selected (`Name` does not include `SQString`; a syntax error, outside the model).
* C87: the model follows `EqnParseInfix` with the types of symbols only; the scanner, variables and their scopes are outside (a variable is written with its sort).  `SigDeclareIsFunction` would turn a constant of type `$o`
  into the type `$o` again, because `TypeChangeReturnType` ignores the new type for constants; the theorems show that this call is never reached with such a constant unless its type is fixed.
  A declaration after the first use is refused if the guess was different (`late_declaration`), so the order of declarations and formulas matters.
* C88: terms have no abstractions; the normalisation applied to the results (`EqnListLambdaNormalize`) keeps the meaning (C63, C64) and is left out.  A variable is a number with its type, and the table of signs of `ResolveFlexClause` uses both as key
  (in E the number determines the type).  Fresh variables are numbered from a given number; soundness does not need them to be fresh, because the clause is universally closed and the other literals only lose instances.
  Negative extensionality (HO/NegExt): the order of the variables collected from a literal is a parameter, only their presence is required.  Its soundness is that of Skolemisation: the model is changed only in the new symbols, whose
  types are given by `SkolemTypes`; full function spaces provide the choice functions.
* C89: `find_disagreements` asserts that equal symbols have equally many arguments; the proof shows that this holds for typed terms.  `ComputeExtEqRes` and `CollectExtSupFromPos` call `TypeIsArrow` with a term instead of its type, so equations between
  functions are not excluded as intended; soundness does not need the test, which is part of the parameter `sel`.  `advance_eq_fact_pos` never looks at the right side of a literal whose left side has no eligible subterm (`factoring_misses_right_sides`).
* C90: `NormalizeEquations` does not look again at the sides which it has lifted, so a second pass may do more (`one_step_not_enough`); each pass makes the literals smaller.
* C91: `PCLIdCompare` cuts a `long` difference to `int`, so the steps 4294967296 and 0 are taken as the same step, and 2147483648 and 0 are each smaller than the other (`compare_cut`). For numbers below 2³¹ - 1 the order is lexicographic (`pcl_id_order_partial`). Numbers are unbounded in the model.
* C92: `TCPMsgRead` ends the buffer at the number of bytes asked for instead of the number read, so after a short read whatever is on the stack in between is appended to the string (`short_read_adds_bytes`). For the empty string it asks for 0 bytes and takes the answer 0 as a closed connection (`recv_empty_fails`). The framing is right in all other cases (`recv_takes_message`), and the string is exact if no read of the body is short (`recv_exact_partial`). A header that gives fewer bytes than already read makes the code ask for a negative number; the model stops there (`undef`).
