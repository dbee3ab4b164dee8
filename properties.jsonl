{"id": "C01", "title": "First-order matching is exact and leaves no trace on failure", "statement": "SubstComputeMatch(matcher, to_match, subst) succeeds exactly when the bindings already present can be extended to a type-respecting substitution that makes the matcher syntactically equal to to_match (predicate-position terms are never matched by a bare variable). On success the bindings are that substitution and only variables of the matcher were newly bound; on failure the bindings are exactly those before the call.", "quantifier": "all terms, all type assignments of symbols and variables, all bindings present before the call", "why_tests_cant": "The weight pre-check, the running weight bound and the early aborts must never reject a matchable pair; the pair space is infinite and failure is silent (a missed match only loses a rewrite or subsumption step).", "anchors": ["TERMS/cte_match_mgu_1-1.c:SubstComputeMatch", "TERMS/cte_subst.h:SubstAddBinding", "TERMS/cte_subst.c:SubstBacktrackToPos"]}
{"id": "C02", "title": "First-order unification computes a most general unifier or proves there is none", "statement": "SubstComputeMgu(s, t, subst) terminates on every pair. If it returns true, applying the resulting bindings makes s and t syntactically equal and every type-respecting unifier of s and t that extends the bindings present before is an instance of the result. If it returns false, no type-respecting unifier exists and all bindings made during the attempt have been removed.", "quantifier": "all pairs of well-typed terms and all acyclic prior bindings", "why_tests_cant": "Most-generality and termination quantify over all unifiers and all terms; a unifier that is too special makes the calculus incomplete and a wrong one makes it unsound, in both cases only on particular term shapes (shared variables, occurs check through chains).", "anchors": ["TERMS/cte_match_mgu_1-1.c:SubstComputeMgu", "TERMS/cte_match_mgu_1-1.c:OccurCheck", "TERMS/cte_termtypes.h:TermDerefAlways"]}
{"id": "C03", "title": "Substitution backtracking restores the exact earlier bindings", "statement": "After any sequence of SubstAddBinding, SubstBacktrackSingle and nested mark/backtrack operations, SubstBacktrackToPos(mark) restores the binding of every variable to the value it had when the mark was taken, and SubstBacktrack clears exactly the variables bound through the substitution.", "quantifier": "all finite operation histories over all variables", "why_tests_cant": "The state space of interleaved bindings and backtracks is unbounded and a stale binding silently corrupts every later term operation.", "anchors": ["TERMS/cte_subst.c:SubstBacktrackSingle", "TERMS/cte_subst.c:SubstBacktrackToPos", "TERMS/cte_subst.h:SubstAddBinding"]}
{"id": "C04", "title": "Shared term bank: syntactic equality is pointer equality, cached measures are right", "statement": "After any history of insertions, two terms inserted into a term bank get the same cell if and only if they are syntactically equal; the cell reads back as the inserted term; its cached weight, variable count and function-symbol count equal the recomputed values; and no earlier cell changes.", "quantifier": "all insertion histories over all terms", "why_tests_cant": "Sharing is an invariant over the whole insertion history; every comparison in the prover relies on pointer equality.", "anchors": ["TERMS/cte_termbanks.c:TBInsert", "TERMS/cte_termbanks.c:tb_termtop_insert", "TERMS/cte_termcellstore.c:TermCellStoreInsert", "TERMS/cte_termtrees.c:TermTopCompare"]}
{"id": "C05", "title": "Instantiation and subterm replacement build the intended term", "statement": "TBInsertInstantiated yields the term obtained by applying all current bindings; TBInsertRepl(t, old, repl) yields t with every occurrence of old replaced; TBTermPosReplace yields t with the subterm at exactly the given position replaced; weights of the results agree with these meanings.", "quantifier": "all terms, positions and acyclic bindings", "why_tests_cant": "Correctness at every position of every term cannot be sampled; a wrong replacement yields an unsound inference.", "anchors": ["TERMS/cte_termbanks.c:TBInsertInstantiatedFO", "TERMS/cte_termbanks.c:TBInsertRepl", "TERMS/cte_replace.c:TBTermPosReplace"]}
{"id": "C06", "title": "Variable normalisation is a renaming and a canonical form", "statement": "Normalising the variables of a clause maps distinct variables to distinct variables of the same type, hence yields a variant of the clause; two literal lists that are variants of one another (same literal order and orientation) get identical normal forms; and normalising twice gives the same result as once.", "quantifier": "all literal lists and all variable typings", "why_tests_cant": "Injectivity must hold for every clause; a collision identifies two universally quantified variables and is an unsound instantiation or a lost generality.", "anchors": ["TERMS/cte_subst.c:SubstNormTerm", "CLAUSES/ccl_eqnlist.c:NormSubstEqnListExcept", "CLAUSES/ccl_clauses.c:ClauseNormalizeVars", "TERMS/cte_termvars.c:VarBankGetFreshVar"]}
{"id": "C07", "title": "Fresh and disjoint variables never collide", "statement": "Every variable handed out as fresh by a variable bank has the requested type and differs from every variable handed out since the counters were last reset; the disjoint copy of a clause shares no variable with the original and is a variant of it.", "quantifier": "all request histories and all clauses", "why_tests_cant": "Freshness is a property of the history; variable capture between the two premises of an inference changes the logical content of the result.", "anchors": ["TERMS/cte_termvars.c:VarBankGetFreshVar", "TERMS/cte_termvars.c:VarBankGetAltVar", "TERMS/cte_termbanks.c:TBInsertDisjoint", "CLAUSES/ccl_clauses.c:ClauseCopyDisjoint"]}
{"id": "C08", "title": "KBO comparison computes the Knuth-Bendix ordering", "statement": "With a total precedence and admissible weights, KBO6Compare(s,t) returns greater/lesser/equal/uncomparable exactly as the textbook Knuth-Bendix ordering with those weights and that precedence says, KBO6Greater agrees with it, and the work state left behind is clean so that the next comparison is not influenced.", "quantifier": "all pairs of terms, all admissible weight functions and total precedences, all earlier comparisons", "why_tests_cant": "The single-pass algorithm with running variable balances must agree with a recursive definition on every term pair; disagreement silently loses termination or completeness.", "anchors": ["ORDERINGS/cto_kbolin.c:KBO6Compare", "ORDERINGS/cto_kbolin.c:KBO6Greater", "ORDERINGS/cto_kbolin.c:kbo6cmp", "ORDERINGS/cto_kbolin.c:kbolincmp"]}
{"id": "C09", "title": "The KBO of the prover is a simplification ordering", "statement": "For admissible weights and total precedence the relation KBO6Compare(s,t)=greater is irreflexive, transitive, stable under substitutions, compatible with contexts, contains the proper-subterm relation, is total on ground terms, and has no infinite descending chain.", "quantifier": "all terms, substitutions, contexts and infinite sequences of terms", "why_tests_cant": "Universal over infinite objects; termination of rewriting and refutational completeness rest on it.", "anchors": ["ORDERINGS/cto_kbolin.c:KBO6Compare", "ORDERINGS/cto_ocb.c:OCBFunCompareMatrix", "ORDERINGS/cto_ocb.h:OCBFunWeight"]}
{"id": "C10", "title": "LPO comparison computes the lexicographic path ordering", "statement": "As long as the recursion limit is not hit, LPO4Greater/LPOGreater/LPO4Compare decide the textbook lexicographic path ordering for the given precedence; when the limit is hit they never report a relation that does not hold.", "quantifier": "all pairs of terms, all precedences", "why_tests_cant": "Two different implementations of a doubly recursive definition must agree on every pair of terms.", "anchors": ["ORDERINGS/cto_lpo.c:LPO4Greater", "ORDERINGS/cto_lpo.c:LPOCompare", "ORDERINGS/cto_lpo.c:lpo4_greater", "ORDERINGS/cto_lpo.c:lpo_greater"]}
{"id": "C11", "title": "The LPO of the prover is a simplification ordering", "statement": "For every strict precedence the LPO is irreflexive, transitive, stable under substitution, compatible with contexts, has the subterm property, is total on ground terms for total precedences and well-founded for well-founded precedences.", "quantifier": "all terms, substitutions, contexts, infinite sequences", "why_tests_cant": "Universal over infinite objects.", "anchors": ["ORDERINGS/cto_lpo.c:LPO4Compare", "ORDERINGS/cto_lpo.c:LPOCompare"]}
{"id": "C12", "title": "Building a precedence keeps it a strict partial order", "statement": "After any history of OCBPrecedenceAddTuple and OCBPrecedenceBacktrack calls the precedence relation on symbols reported by OCBFunCompareMatrix is irreflexive/antisymmetric and transitively closed, contains every accepted pair, refuses exactly the pairs that contradict it, and backtracking restores the relation of the marked state.", "quantifier": "all call histories on all signatures", "why_tests_cant": "Transitive closure under incremental updates with an undo log is a history invariant.", "anchors": ["ORDERINGS/cto_ocb.c:OCBPrecedenceAddTuple", "ORDERINGS/cto_ocb.c:OCBPrecedenceBacktrack", "ORDERINGS/cto_ocb.c:ocb_trans_compute", "ORDERINGS/cto_ocb.c:OCBFunCompareMatrix"]}
{"id": "C13", "title": "The comparison cache is transparent", "statement": "A comparison answered from the ordering cache gives the same result as a fresh comparison of the same two terms in the same orientation, for every history of insertions and lookups.", "quantifier": "all histories of cached comparisons", "why_tests_cant": "A single stale or wrongly oriented entry only matters after a particular later lookup.", "anchors": ["ORDERINGS/cto_cmpcache.c:CmpCacheFind", "ORDERINGS/cto_cmpcache.c:CmpCacheInsert", "BASICS/clb_partial_orderings.h:POInverseRelation"]}
{"id": "C14", "title": "Orienting an equation records the true relation", "statement": "After EqnOrient the literal is the same equation (possibly with sides exchanged), the maximal side, if any, is on the left, the oriented flag is set exactly when the left side is greater than the right side, and the returned/maximality flags describe the actual comparison result.", "quantifier": "all literals and all orderings", "why_tests_cant": "Rewriting with a wrongly oriented equation need not terminate; correctness is needed on every literal.", "anchors": ["CLAUSES/ccl_eqn.c:EqnOrient"]}
{"id": "C15", "title": "Literal comparison agrees with the multiset extension of the term ordering", "statement": "For equational literals without selection LiteralCompare/EqnGreater return greater, lesser or equal only if the standard multiset extension (positive s=t as {s,t}, negative as {s,s,t,t}) says so, and the result is antisymmetric when the arguments are exchanged.", "quantifier": "all pairs of literals and all term orderings that are strict partial orders", "why_tests_cant": "The code uses a case analysis with shortcuts for oriented literals rather than the definition; all combinations of four comparison results must be right.", "anchors": ["CLAUSES/ccl_eqn.c:LiteralCompare", "CLAUSES/ccl_eqn.c:EqnGreater", "CLAUSES/ccl_eqn.c:compare_pos_eqns", "CLAUSES/ccl_eqn.c:compare_poseqn_negeqn"]}
{"id": "C16", "title": "Maximal literals of a clause are marked exactly", "statement": "After EqnListMaximalLiterals a literal carries the maximal mark exactly when no other literal of the list is greater, the strictly-maximal mark exactly when additionally no other literal is equal to it, and at least one literal of a non-empty clause is marked maximal.", "quantifier": "all literal lists and all literal comparison functions that are strict partial orders up to equality", "why_tests_cant": "A one-pass elimination scan must agree with the all-pairs definition for every list; a missing mark loses inferences (incompleteness) and is invisible to tests.", "anchors": ["CLAUSES/ccl_eqnlist.c:EqnListMaximalLiterals", "CLAUSES/ccl_eqnlist.c:EqnListEqnIsMaximal", "CLAUSES/ccl_eqnlist.c:EqnListEqnIsStrictlyMaximal"]}
{"id": "C17", "title": "Equality resolution is sound", "statement": "Every clause produced by equality resolution, and the result of destructive equality resolution, is a logical consequence of the parent clause (in every many-sorted interpretation with equality); destructive equality resolution on variable disequations is an equivalence.", "quantifier": "all clauses, all literals, all interpretations", "why_tests_cant": "Quantifies over all interpretations.", "anchors": ["CLAUSES/ccl_eqnresolution.c:ComputeEqRes", "CONTROL/cco_eqnresolving.c:ClauseERNormalizeVar", "CONTROL/cco_eqnresolving.c:ComputeAllEqnResolvents"]}
{"id": "C18", "title": "Factoring is sound", "statement": "Every clause produced by ordered factoring or equality factoring is a logical consequence of its parent.", "quantifier": "all clauses, literal pairs and interpretations", "why_tests_cant": "Quantifies over all interpretations.", "anchors": ["CLAUSES/ccl_factor.c:ComputeOrderedFactor", "CLAUSES/ccl_factor.c:ComputeEqualityFactor"]}
{"id": "C19", "title": "Paramodulation and superposition are sound", "statement": "Every clause produced by plain, simultaneous or super-simultaneous paramodulation from one clause into another is a logical consequence of the two parents.", "quantifier": "all pairs of clauses, from-literals, into-positions and interpretations", "why_tests_cant": "Quantifies over all interpretations and all positions.", "anchors": ["CLAUSES/ccl_paramod.c:ClauseOrderedParamod", "CLAUSES/ccl_paramod.c:ClauseOrderedSimParamod", "CLAUSES/ccl_paramod.c:ClauseOrderedSuperSimParamod", "CLAUSES/ccl_paramod.c:ClausePlainParamodConstruct"]}
{"id": "C20", "title": "Rewriting preserves meaning, decreases terms and terminates", "statement": "Normalising a clause with a set of processed unit equations yields a clause that is equivalent to the original in every model of the equations; every replaced term is strictly larger in the ordering than its replacement; and normalisation terminates and ends in a term to which no rule of the set applies at any position.", "quantifier": "all clauses, all rule sets, all well-founded simplification orderings, all interpretations", "why_tests_cant": "Interpretations, ordered chains and rule sets are infinite.", "anchors": ["CLAUSES/ccl_rewrite.c:ClauseComputeLINormalform", "CLAUSES/ccl_rewrite.c:term_li_normalform", "CLAUSES/ccl_rewrite.c:indexed_find_demodulator", "CLAUSES/ccl_rewrite.c:instance_is_rule"]}
{"id": "C21", "title": "Clause subsumption is sound", "statement": "If ClauseSubsumesClause(C, D), the unit subsumption test, or set subsumption reports that D is subsumed, then there is a substitution that maps C into D (distinct literals of C to distinct literals of D), so C logically implies D and D may be deleted.", "quantifier": "all pairs of clauses and all clause sets", "why_tests_cant": "A wrong positive deletes a needed clause and makes a saturation claim false; needs all clauses.", "anchors": ["CLAUSES/ccl_subsumption.c:ClauseSubsumesClause", "CLAUSES/ccl_subsumption.c:eqn_list_rec_subsume", "CLAUSES/ccl_subsumption.c:UnitClauseSetSubsumesClause", "CLAUSES/ccl_eqn.c:EqnSubsume"]}
{"id": "C22", "title": "Clause subsumption pre-checks lose nothing", "statement": "Whenever a substitution maps the literals of C to distinct literals of D (up to the orientation conventions of EqnSubsume), none of the pre-checks (literal counts, weight, literal-order cut-offs) rejects the pair, so the backtracking search finds it.", "quantifier": "all pairs of clauses", "why_tests_cant": "Completeness of a pruned search over all pairs.", "anchors": ["CLAUSES/ccl_subsumption.c:clause_subsumes_clause", "CLAUSES/ccl_subsumption.c:check_subsumption_possibility", "CLAUSES/ccl_eqn.c:EqnSubsumeQOrderCompare"]}
{"id": "C23", "title": "Deleted tautologies are tautologies", "statement": "If ClauseIsTautology or ClauseIsTrivial reports true, the clause holds in every interpretation.", "quantifier": "all clauses and interpretations", "why_tests_cant": "Quantifies over interpretations; the ground-completion test is intricate and unbounded.", "anchors": ["CLAUSES/ccl_tautologies.c:ClauseIsTautologyReal", "CLAUSES/ccl_tautologies.c:ground_complete_neg_eqns", "CLAUSES/ccl_eqnlist.c:EqnListIsTrivial"]}
{"id": "C24", "title": "The fast triviality test on long clauses agrees with the simple one", "statement": "EqnLongListIsTrivial and EqnListIsTrivial agree on every literal list: both report true exactly when the list contains a trivially true literal or two complementary literals with the same sides.", "quantifier": "all literal lists", "why_tests_cant": "Sorting plus alternating binary search must find complementary pairs for every length and arrangement.", "anchors": ["CLAUSES/ccl_eqnlist.c:EqnLongListIsTrivial", "CLAUSES/ccl_eqnlist.c:EqnListIsTrivial", "BASICS/clb_pstacks.c:PStackBinSearch"]}
{"id": "C25", "title": "Removing superfluous literals keeps the meaning", "statement": "Removing duplicate literals, trivially false literals and AC-resolved literals yields a clause equivalent to the original (for AC: in all models of the AC axioms), and no duplicate or resolved literal remains.", "quantifier": "all clauses and interpretations", "why_tests_cant": "Quantifies over interpretations and clauses.", "anchors": ["CLAUSES/ccl_eqnlist.c:EqnListRemoveDuplicates", "CLAUSES/ccl_eqnlist.c:EqnListRemoveResolved", "CLAUSES/ccl_eqnlist.c:EqnListRemoveACResolved", "CLAUSES/ccl_clauses.c:ClauseRemoveSuperfluousLiterals"]}
{"id": "C26", "title": "Unit simplification (simplify-reflect, unit cutting) is sound", "statement": "A literal removed from a clause by positive/negative simplify-reflect or by ClauseSimplifyWithUnitSet is false in every model of the unit clauses used, so the shortened clause follows from the original together with those units (and implies the original).", "quantifier": "all clauses, unit sets and interpretations", "why_tests_cant": "Quantifies over interpretations; involves descent through a unique differing argument.", "anchors": ["CLAUSES/ccl_subsumption.c:ClausePositiveSimplifyReflect", "CLAUSES/ccl_subsumption.c:ClauseNegativeSimplifyReflect", "CLAUSES/ccl_unit_simplify.c:ClauseSimplifyWithUnitSet", "CLAUSES/ccl_unit_simplify.c:FindSimplifyingUnit"]}
{"id": "C27", "title": "Contextual literal cutting and condensation keep the meaning", "statement": "Contextual simplify-reflect yields a clause implied by the original and the subsuming clause and implying the original; Condense yields a clause logically equivalent to the original.", "quantifier": "all clauses, clause sets, interpretations", "why_tests_cant": "Quantifies over interpretations.", "anchors": ["CLAUSES/ccl_context_sr.c:ClauseContextualSimplifyReflect", "CLAUSES/ccl_condensation.c:Condense", "CLAUSES/ccl_condensation.c:CondenseOnce"]}
{"id": "C28", "title": "Clause splitting is conservative", "statement": "Splitting a clause into variable-disjoint parts with new definition predicates preserves satisfiability in both directions: every model of the results is a model of the original, and every model of the original extends to a model of the results by interpreting only the new predicates; the parts are pairwise variable-disjoint and together contain every literal exactly once.", "quantifier": "all clauses, all split modes, all interpretations", "why_tests_cant": "Model extension quantifies over interpretations; the partition must be right for every variable-sharing graph.", "anchors": ["CLAUSES/ccl_splitting.c:clause_split_general", "CLAUSES/ccl_splitting.c:build_part", "CLAUSES/ccl_splitting.c:find_free_literal"]}
{"id": "C29", "title": "Perfect discrimination tree retrieval finds exactly the generalisations", "statement": "After any history of insertions and deletions, searching the demodulator index for a query term enumerates exactly the stored entries whose indexed term matches the query (subject to the stated age/size filters, which drop only entries that cannot be used), each with the right matching bindings.", "quantifier": "all insertion/deletion histories, all query terms", "why_tests_cant": "The index keeps cached size and age bounds over its whole history; a stale bound silently loses rewrite rules.", "anchors": ["CLAUSES/ccl_pdtrees.c:PDTreeInsert", "CLAUSES/ccl_pdtrees.c:PDTreeDelete", "CLAUSES/ccl_pdtrees.c:PDTreeFindNextDemodulator", "CLAUSES/ccl_pdtrees.c:pdtree_forward"]}
{"id": "C30", "title": "Fingerprint index retrieval loses no unification or matching partner", "statement": "For every fingerprint function offered, after any history of insertions and deletions, FPIndexFindUnifiable returns every stored entry whose term is unifiable with the query (after renaming apart) and FPIndexFindMatchable returns every stored entry whose term is an instance of the query.", "quantifier": "all histories, all query terms, all fingerprint functions", "why_tests_cant": "A missing table case loses inferences only for special term shapes.", "anchors": ["TERMS/cte_fp_index.c:FPIndexFindUnifiable", "TERMS/cte_fp_index.c:FPIndexFindMatchable", "TERMS/cte_idx_fp.c:TermFPSampleFO", "TERMS/cte_idx_fp.c:IndexFP7Create"]}
{"id": "C31", "title": "Feature vector index retrieval loses no subsumption partner", "statement": "If C subsumes D then every feature of C is at most the corresponding feature of D; hence after any history of indexed insertions and deletions the forward (backward) search visits every stored clause that subsumes (is subsumed by) the query.", "quantifier": "all clauses, permutations of features, histories", "why_tests_cant": "Monotonicity of each feature under all substitutions, plus a history invariant of the trie.", "anchors": ["CLAUSES/ccl_freqvectors.c:VarFreqVectorAddVals", "CLAUSES/ccl_freqvectors.c:FVCollectFreqVectorCompute", "CLAUSES/ccl_fcvindexing.c:FVIndexInsert", "CLAUSES/ccl_subsumption.c:clause_set_subsumes_clause_indexed"]}
{"id": "C32", "title": "Splay trees behave as finite maps", "statement": "After any history of find, insert and extract operations a splay tree (of terms, numbers, strings, pointers or evaluations) contains exactly the keys inserted and not extracted, each once; find returns the stored entry exactly if present, and an in-order traversal is sorted.", "quantifier": "all operation histories, all total orders on keys", "why_tests_cant": "Every operation restructures the tree; correctness depends on the history.", "anchors": ["TERMS/cte_termtrees.c:splay_term_tree", "BASICS/clb_numtrees.c:splay_tree", "BASICS/clb_ptrees.c", "CLAUSES/ccl_neweval.c:EvalTreeInsert", "CLAUSES/ccl_neweval.c:EvalTreeExtractEntry"]}
{"id": "C33", "title": "The binary heap always yields the least element", "statement": "After any history of add, pop-min, update and remove operations the heap property holds, pop-min returns a least element, the multiset of elements is exactly what was put in and not yet removed, and the index recorded through the setter is the element's current position.", "quantifier": "all operation histories and total preorders", "why_tests_cant": "Index arithmetic at every size and position.", "anchors": ["BASICS/clb_min_heap.c:MinHeapPopMin", "BASICS/clb_min_heap.c:MinHeapRemoveElement", "BASICS/clb_min_heap.c:bubble_up", "BASICS/clb_min_heap.c:drop_down"]}
{"id": "C34", "title": "Integer maps behave as finite maps across representation changes", "statement": "After any history of assignments, deletions and lookups IntMapGetVal(key) returns the value last assigned and not deleted, regardless of switches between the empty, single, array and tree representations, and iteration over a key range visits exactly the keys with a value in increasing order.", "quantifier": "all operation histories", "why_tests_cant": "The representation depends on densities computed over the history.", "anchors": ["BASICS/clb_intmap.c:IntMapGetRef", "BASICS/clb_intmap.c:IntMapDelKey", "BASICS/clb_intmap.c:IntMapGetVal", "BASICS/clb_intmap.h:IntMapIterNext"]}
{"id": "C35", "title": "Clause selection serves every evaluation function in its ratio and is fair", "statement": "HCB selection cycles through the evaluation functions giving each its declared number of picks per cycle; each pick is a clause with the least evaluation for the active function that is not orphaned; and a clause that stays in the set is eventually picked provided only finitely many clauses are ever better under some function of the heuristic.", "quantifier": "all heuristics, all infinite runs", "why_tests_cant": "Fairness is a property of infinite runs.", "anchors": ["HEURISTICS/che_hcb.c:HCBStandardClauseSelect", "HEURISTICS/che_hcb.c:HCBAddWFCB", "CLAUSES/ccl_neweval.c:EvalCompare", "CLAUSES/ccl_clausesets.c:ClauseSetFindBest"]}
{"id": "C36", "title": "The saturation loop is sound", "statement": "Whatever the order of clause selection and whatever simplifications are applied, every clause in the processed or unprocessed set is a logical consequence of the input clauses, so if the empty clause is returned the input is unsatisfiable.", "quantifier": "all inputs, all clause selection orders, all numbers of steps", "why_tests_cant": "Quantifies over unbounded runs and all interpretations.", "anchors": ["CONTROL/cco_proofproc.c:ProcessClause", "CONTROL/cco_proofproc.c:Saturate", "CONTROL/cco_forward_contraction.c:ForwardModifyClause"]}
{"id": "C37", "title": "Simplification steps never lose models or proofs", "statement": "In every step of the saturation loop each clause that is deleted or replaced is implied by the clauses that remain (or archived ones that remain derivable), i.e. the current clause set stays logically equivalent to the input.", "quantifier": "all runs", "why_tests_cant": "Unbounded runs; a lost clause turns an unsatisfiable problem into a wrong 'Satisfiable'.", "anchors": ["CONTROL/cco_proofproc.c:ProcessClause", "CONTROL/cco_proofproc.c:remove_subsumed", "CONTROL/cco_simplification.c:ClauseMoveSimplified"]}
{"id": "C38", "title": "The reported SZS status is consistent with the state of the search", "statement": "'Satisfiable'/'CounterSatisfiable' is reported only if no clause is left unprocessed, no clause was deleted for resource reasons, no axiom was pruned, the calculus was not restricted, the problem is first-order and has no interpreted symbols; 'Theorem'/'Unsatisfiable'/'ContradictoryAxioms' only if a refutation was found; and 'Theorem' rather than 'ContradictoryAxioms' exactly if the refutation uses a negated conjecture. Exit codes match.", "quantifier": "all combinations of end states and option settings", "why_tests_cant": "The decision logic has many interacting flags over all runs.", "anchors": ["PROVER/eprover.c:main", "CONTROL/cco_proofproc.c:cleanup_unprocessed_clauses"]}
{"id": "C39", "title": "Strategy schedules respect the time limit", "statement": "The time slices assigned to a search schedule sum up to at most the remaining limit, no slice is negative, and every strategy that is kept gets its rounded share or what is left.", "quantifier": "all schedules, fractions and limits", "why_tests_cant": "Arithmetic over all inputs with rounding and unsigned subtraction.", "anchors": ["CONTROL/cco_scheduling.c:ScheduleTimesInitMultiCore", "CONTROL/cco_scheduling.c:ScheduleTimesInit", "CONTROL/cco_scheduling.c:GetFilteredDefaultSchedule"]}
{"id": "C40", "title": "AC normal-form comparison is sound and complete", "statement": "Two terms are reported equal modulo AC exactly when one can be transformed into the other by associativity and commutativity of the symbols marked AC and commutativity of those marked commutative.", "quantifier": "all terms and all sets of AC symbols", "why_tests_cant": "Equivalence closure over all terms.", "anchors": ["TERMS/cte_acterms.c:ACTermNormalize", "TERMS/cte_acterms.c:TermACEqual", "CLAUSES/ccl_eqnlist.c:EqnListRemoveACResolved"]}
{"id": "C41", "title": "Inference conclusions are most general", "statement": "Whenever some type-respecting substitution makes an inference (equality resolution, ordered factoring, equality factoring, paramodulation) possible on an instance of the parents, the inference is performed on the parents themselves and the conclusion drawn on the instances contains an instance of the clause produced (or the clause was dropped because it is trivially true).", "quantifier": "all clauses, literals, positions and substitutions", "why_tests_cant": "Needs all instances of all clauses; a variable captured by renaming only shows for particular variable numberings.", "anchors": ["CLAUSES/ccl_eqnresolution.c:ComputeEqRes", "CLAUSES/ccl_factor.c:ComputeOrderedFactor", "CLAUSES/ccl_factor.c:ComputeEqualityFactor", "CLAUSES/ccl_paramod.c:ClausePlainParamodConstruct"]}
{"id": "C42", "title": "The index for backward rewriting finds all clauses a new unit equation can rewrite", "statement": "After any history of clause insertions and removals, the indexed search for a new unit equation returns exactly the stored clauses having a non-variable subterm that the equation rewrites (at the left side of a maximal oriented positive equation: more than by renaming variables).", "quantifier": "all histories, clauses, unit equations and fingerprint functions", "why_tests_cant": "A miss shows only for particular combinations of clause shape, depth of the redex and fingerprint; the prover stays sound and merely keeps reducible clauses, so no test result changes.", "anchors": ["CLAUSES/ccl_subterm_index.c:ClauseCollectIdxSubterms", "CLAUSES/ccl_subterm_index.c:SubtermIndexInsertClause", "CLAUSES/ccl_subterm_index.c:SubtermIndexDeleteClause", "CLAUSES/ccl_rewrite.c:FindRewritableClausesIndexed"]}
{"id": "C43", "title": "The paramodulation indices cover all eligible positions, and compact positions are faithful", "statement": "After any history of clause insertions and removals, looking up a term in an overlap index returns, for every stored clause, every eligible position whose subterm has a common instance with the query, nothing of removed clauses and nothing twice; the compact position returned decodes to that position, and encoding and decoding are inverse to each other.", "quantifier": "all histories, clauses, positions, queries and fingerprint functions", "why_tests_cant": "A missed position only loses an inference; an off-by-one in the weights used for packing shows only for clauses with particular shapes.", "anchors": ["CLAUSES/ccl_clausecpos.c:PackClausePos", "CLAUSES/ccl_clausecpos.c:UnpackClausePosInto", "CLAUSES/ccl_overlap_index.c:OverlapIndexInsertIntoClause2", "CLAUSES/ccl_overlap_index.c:OverlapIndexDeleteIntoClause2", "CLAUSES/ccl_overlap_index.c:OverlapIndexInsertFromClause"]}
{"id": "C44", "title": "Deleting bad clauses keeps the requested number, chosen by the heuristic's ratio", "statement": "When unprocessed clauses are deleted for lack of memory, exactly the requested number of clauses is kept (all if there are fewer), and they are those the evaluation functions would pick first, each function choosing in proportion to its declared number of picks.", "quantifier": "all heuristics, clause sets after any history, and numbers of clauses to keep", "why_tests_cant": "It happens only when the memory limit is reached; the result is a plausible set of clauses either way, so a wrong ratio changes only the search.", "anchors": ["HEURISTICS/che_hcb.c:HCBClauseSetDelProp", "HEURISTICS/che_hcb.c:HCBClauseSetDeleteBadClauses", "HEURISTICS/che_hcb.c:get_next_clause"]}
{"id": "C45", "title": "Executing a schedule respects the cores, overlooks no result, and gives up only if all strategies failed", "statement": "While a schedule is executed, the running strategies together never use more cores than allowed and each strategy is started once, in order; a result is reported only if one of the strategies reported it, a reported result is never overlooked, and 'Schedule exhausted' is printed only after every strategy was run and failed; the parent process never waits without a running strategy.", "quantifier": "all schedules, numbers of cores and interleavings of process terminations", "why_tests_cant": "Which process ends when is up to the operating system; a test sees a few interleavings.", "anchors": ["CONTROL/cco_scheduling.c:ExecuteScheduleMultiCore", "CONTROL/cco_gproc_ctrl.c:EGPCtrlSetGetResult", "CONTROL/cco_gproc_ctrl.c:EGPCtrlSetAddProc", "CONTROL/cco_gproc_ctrl.c:EGPCtrlSetDeleteProc"]}
{"id": "C46", "title": "The schedule used after an exhausted one contains each remaining strategy with an equal share", "statement": "After a schedule is exhausted, the default schedule without the strategies already tried is run: exactly the strategies not tried before, in their order, each with an equal share of the time.", "quantifier": "all default schedules and exhausted schedules", "why_tests_cant": "It needs the first schedule to be exhausted, and a wrong share only changes how long a strategy runs.", "anchors": ["CONTROL/cco_scheduling.c:GetFilteredDefaultSchedule", "CONTROL/cco_scheduling.c:InitializePlaceholderSearchSchedule"]}
{"id": "C47", "title": "The propositional check refutes only unsatisfiable clause sets", "statement": "The propositional problem handed to the SAT solver is, clause by clause and literal by literal, the ground instance of the current clauses under one well-typed grounding substitution, with two literals sharing a propositional variable exactly if they have the same atom; removing clauses with pure literals does not change its satisfiability; hence if the solver answers 'unsatisfiable', the current clause set has no model.", "quantifier": "all clause sets, grounding substitutions, size limits and answers of the solver", "why_tests_cant": "A wrong variable number or sign would make the prover report a proof of a satisfiable problem only for special sets; tests see a few sets.", "anchors": ["CLAUSES/ccl_satinterface.c:SatClauseSetImportProofState", "CLAUSES/ccl_satinterface.c:SatClauseCreateAndStore", "CLAUSES/ccl_satinterface.c:SatClauseSetMarkPure", "CLAUSES/ccl_satinterface.c:SatClauseSetCheckUnsat"]}
{"id": "C48", "title": "Frequency-based grounding picks the preferred constant", "statement": "For each type the constant used for grounding is a constant of that type that is preferred over all others by the documented strategy: minimal or maximal frequency, in the conjecture with ties broken by the frequency in the axioms.", "quantifier": "all lists of constants, frequencies and strategies", "why_tests_cant": "A wrong choice is still sound, the result only differs in which proofs are found.", "anchors": ["CLAUSES/ccl_satinterface.c:prefer_conj_min_min_freq", "CLAUSES/ccl_satinterface.c:prefer_global_min_freq", "TERMS/cte_termbanks.c:TBGetFreqConstTerm"]}
{"id": "C49", "title": "Disequation decomposition is sound", "statement": "A clause obtained by replacing a negative equation between two terms with the same head symbol by the negative equations between their arguments follows from the original clause and is well-typed.", "quantifier": "all well-typed clauses, limits and literals", "why_tests_cant": "Soundness is about all models of the clause.", "anchors": ["CLAUSES/ccl_diseq_decomp.c:ClauseDisEqDecomposition", "CONTROL/cco_diseq_decomp.c:ComputeDisEqDecompositions"]}
{"id": "C50", "title": "Proof objects are complete and well-ordered", "statement": "The proof object printed for a list of root clauses contains every clause and formula the roots depend on exactly once and nothing else; each step comes after all steps it cites; input clauses and formulas come first; no two steps have the same name, whatever the names in the input.", "quantifier": "all recorded derivations (acyclic), all lists of roots, all input names", "why_tests_cant": "Derivations are arbitrary large directed acyclic graphs with shared steps; tests see a few of them.", "anchors": ["CLAUSES/ccl_derivation.c:DerivationCompute", "CLAUSES/ccl_derivation.c:DerivationExtract", "CLAUSES/ccl_derivation.c:DerivationTopoSort", "CLAUSES/ccl_derivation.c:DerivationRenumber", "CLAUSES/ccl_clauseinfo.c:ClauseInfoGetIdCounter"]}
{"id": "C51", "title": "The normal form steps preserve meaning", "statement": "Simplification, negation normal form, miniscoping, renaming of quantified variables, moving quantifiers to the front and distribution of disjunctions each return a formula that has the same truth value as the given one in every interpretation and for all values of the free variables, and that has the shape the next step needs; every step ends.", "quantifier": "all first-order formulas, all interpretations, all values of the free variables, all size limits", "why_tests_cant": "Equivalence is a statement about all interpretations; termination one about all formulas.", "anchors": ["CLAUSES/ccl_tcnf.c:TFormulaSimplify", "CLAUSES/ccl_tcnf.c:TFormulaNNF", "CLAUSES/ccl_tcnf.c:TFormulaMiniScope3", "CLAUSES/ccl_tcnf.c:TFormulaVarRename", "CLAUSES/ccl_tcnf.c:TFormulaShiftQuantors", "CLAUSES/ccl_tcnf.c:TFormulaDistributeDisjunctions"]}
{"id": "C52", "title": "Skolemization preserves models", "statement": "Skolemization removes all existential quantifiers. Every model of the result is a model of the formula, and every model of the formula can be turned into a model of the result by choosing meanings for the new symbols only. Each new symbol is used for one quantifier and was not in use before.", "quantifier": "all formulas in negation normal form, all interpretations", "why_tests_cant": "The statement is about all interpretations, infinite ones included.", "anchors": ["CLAUSES/ccl_tcnf.c:TFormulaSkolemizeOutermost", "CLAUSES/ccl_tcnf.c:tformula_rek_skolemize", "TERMS/cte_termtypes.c:TermAllocNewSkolem", "CLAUSES/ccl_tformulae.c:TFormulaCollectFreeVars"]}
{"id": "C53", "title": "Clausification preserves satisfiability", "statement": "The clauses computed from a list of formulas and clauses are well-typed and have a model exactly if the list has one; models of the clauses are models of the list, and models of the list become models of the clauses by choosing meanings for new symbols only. Clausification always ends.", "quantifier": "all lists of well-typed formulas and clauses, all interpretations, all states of the variable bank", "why_tests_cant": "Satisfiability quantifies over all interpretations; tests compare a few clause sets.", "anchors": ["CLAUSES/ccl_formulafunc.c:FormulaSetCNF2", "CLAUSES/ccl_formulafunc.c:WFormulaCNF2", "CLAUSES/ccl_formulafunc.c:TFormulaToCNF", "CLAUSES/ccl_tcnf.c:WTFormulaConjunctiveNF3", "CLAUSES/ccl_tformulae.c:TFormulaCollectClause", "CLAUSES/ccl_clausefunc.c:ClauseEliminateNakedBooleanVariables"]}
{"id": "C54", "title": "Introduced definitions do not change satisfiability", "statement": "Large subformulas are replaced by new predicates whose definitions are added, as implications where one direction is enough. The new list of formulas has a model exactly if the old one has; models of the new list are models of the old one, and models of the old one become models of the new one by interpreting the new predicates only. Each new predicate was not in use before.", "quantifier": "all lists of formulas and clauses, all definition limits, all interpretations", "why_tests_cant": "Whether one direction of a definition is enough depends on all occurrences of a subformula in all formulas; satisfiability ranges over all interpretations.", "anchors": ["CLAUSES/ccl_formulafunc.c:TFormulaSetIntroduceDefs", "CLAUSES/ccl_tcnf.c:TFormulaFindDefs", "CLAUSES/ccl_tcnf.c:TFormulaCopyDef", "CLAUSES/ccl_tformulae.c:TFormulaMarkPolarity", "CLAUSES/ccl_tformulae.c:TFormulaCreateDef"]}
{"id": "C55", "title": "A proof found for the clauses proves the conjecture", "statement": "The clauses made from a problem are unsatisfiable (where questions are annotated with answer literals: have no model without answers) exactly if the axioms imply one of the conjectures or questions. If saturation of these clauses derives the empty clause, or a clause of answer literals, then the axioms imply one of the conjectures or questions.", "quantifier": "all first-order problems (axioms, clauses, conjectures, negated conjectures, questions), all options for answers and definitions, all saturation runs", "why_tests_cant": "Logical consequence ranges over all interpretations, and the runs are unbounded.", "anchors": ["CLAUSES/ccl_formulafunc.c:FormulaSetPreprocConjectures", "CLAUSES/ccl_formulafunc.c:WFormulaAnnotateQuestion", "CLAUSES/ccl_formulafunc.c:WFormulaConjectureNegate", "CLAUSES/ccl_formulafunc.c:FormulaSetCNF2", "CLAUSES/ccl_clauses.c:ClauseIsSemFalse", "CONTROL/cco_proofproc.c:Saturate"]}
{"id": "C56", "title": "Clausal preprocessing changes neither satisfiability nor the answers", "statement": "Between clausification and saturation superfluous literals and tautologies are removed, equational definitions are unfolded and dropped, and on request injectivity axioms are replaced by axioms for an inverse function. Every model of the clauses becomes a model of the result by interpreting the new symbols, and conversely by interpreting the symbols whose definitions were dropped; $answer is never dropped. A proof from the preprocessed clauses is a proof of the conjecture.", "quantifier": "all clause sets, all option values, all interpretations, all problems and saturation runs", "why_tests_cant": "Satisfiability ranges over all interpretations; unfolding one definition changes all other clauses, including later definitions.", "anchors": ["CONTROL/cco_preprocessing.c:ProofStateClausalPreproc", "CLAUSES/ccl_unfold_defs.c:ClauseSetPreprocess", "CLAUSES/ccl_unfold_defs.c:ClauseSetUnfoldEqDefNormalize", "CLAUSES/ccl_unfold_defs.c:ClauseSetUnfoldAllEqDefs", "CLAUSES/ccl_clausefunc.c:ClauseRecognizeInjectivity", "CLAUSES/ccl_clausefunc.c:ClauseSetReplaceInjectivityDefs", "CLAUSES/ccl_clausefunc.c:ClauseSetCanonize"]}
{"id": "C57", "title": "Blocked clause elimination keeps satisfiability and removes all it can", "statement": "With the option for blocked clause elimination clauses are removed before saturation. The clauses that are kept are satisfiable exactly if the original clauses are, with and without equality. The procedure ends. Without a limit on the number of occurrences no clause is left that passes the test of blockedness against all the other clauses left; in particular clauses with a pure predicate are removed.", "quantifier": "all sets of first-order clauses, all limits, all orders in which candidates are processed, all interpretations", "why_tests_cant": "The set of interpretations is infinite, and eliminating one clause makes others blocked, so that the argument has to follow the whole run.", "anchors": ["CLAUSES/ccl_bce.c:EliminateBlockedClauses", "CLAUSES/ccl_bce.c:make_sym_map", "CLAUSES/ccl_bce.c:make_bce_queue", "CLAUSES/ccl_bce.c:check_blockedness_eq", "CLAUSES/ccl_bce.c:check_blockedness_neq", "CLAUSES/ccl_bce.c:check_l_resolvents_neq", "CLAUSES/ccl_bce.c:do_eliminate_clauses"]}
{"id": "C58", "title": "Definitions for goal terms are conservative", "statement": "With the options for goal definitions ground terms of the conjecture clauses are named by new constants. All clauses are kept, only defining equations are added, and a clause over the old symbols follows afterwards if and only if it followed before. The new clauses are well-typed and each new constant is used for one definition only. Every ground term of the selected literals (all subterms, or the maximal ones) is equal to one of the new constants.", "quantifier": "all clause sets, all choices of signs and subterms, all orders of the terms, all interpretations", "why_tests_cant": "That consequences are kept speaks about all interpretations and all clauses over the old symbols.", "anchors": ["CLAUSES/ccl_gd_transformation.c:ClauseSetGDTransform", "CLAUSES/ccl_gd_transformation.c:gd_term_rek_define", "CLAUSES/ccl_gd_transformation.c:gd_def_nf", "TERMS/cte_termfunc.c:TermCollectGroundTerms", "CLAUSES/ccl_eqnlist.c:EqnListCollectGroundTerms"]}
{"id": "C59", "title": "Predicate elimination preserves satisfiability", "statement": "With --pred-elim predicates are eliminated by replacing the clauses they occur in by resolvents. Every clause of the result follows from the clauses given. The result has a model if and only if the clauses given have one; if there is an equation, a model of the result becomes a model of all clauses by changing only the meaning of the eliminated predicates. The result consists of first-order clauses with normalised variables and has no new predicates. With --pred-elim-gates the same holds.", "quantifier": "all clause sets, all settings of the options, all orders in which predicates are tried and clauses are listed, all variable banks", "why_tests_cant": "The clauses are replaced one predicate after the other, and later eliminations work on resolvents of earlier ones. Lost models or lost contradictions show only in the answer for a whole problem; which predicates are eliminated depends on sizes and on addresses of clauses.", "anchors": ["CLAUSES/ccl_pred_elim.c: PredicateElimination, eliminate_predicates, build_task_queue, scan_clause_for_predicates, build_neq_resolvent, build_eq_resolvent, check_tautologies, check_unsat_and_tauto, do_singular_elimination, do_gates_against_offending, react_clause_removed, measure_decreases", "CONTROL/cco_preprocessing.c: ProofStateClausalPreproc"]}
{"id": "C60", "title": "Generated weights make the Knuth-Bendix ordering a simplification ordering", "statement": "Whatever method is chosen to generate symbol weights (-w), whatever weight of constants (-c) and whatever generated precedence, the comparison KBO6 with these weights is a simplification ordering on the terms of the problem: irreflexive, transitive, stable under substitutions, compatible with contexts, with the subterm property, total on ground terms, without infinite descent. The weights are those documented for the method: they depend on the arity, the number of smaller or larger symbols, or order the symbols by the number of occurrences.", "quantifier": "all first-order signatures, total precedences, numbers of occurrences, weight generation methods, weights of constants and both values of force_kbo_var_weight", "why_tests_cant": "Weights that are not admissible give wrong comparisons only for particular terms, and wrong comparisons show up as lost proofs or endless rewriting; whether weights are admissible depends on the signature and the precedence of the problem.", "anchors": ["HEURISTICS/che_to_weightgen.c: TOGenerateWeights, find_max_symbols, set_maximal_0, set_maximal_unary_0, generate_arity_weights, generate_precedence_weights, generate_precrank_weights, generate_freqrank_weights, generate_inv_modfreqrank_weights", "HEURISTICS/che_fcode_featurearrays.c: FCodeFeatureArraySort", "ORDERINGS/cto_ocb.h: OCBFunWeight", "HEURISTICS/che_to_autoselect.c: TOSelectOrdering"]}
{"id": "C61", "title": "A saturated set of clauses without the empty clause is satisfiable", "statement": "If every equality resolvent, every paramodulant and every equality factor that the prover computes for the literals its ordering and its literal selection require is redundant in a set of clauses (follows, instance by instance, from instances of clauses of the set that are not greater), and the set does not contain the empty clause, then the set has a model. So a saturated unsatisfiable set contains the empty clause. The restrictions by ordering, maximality, selection and the tests after unification never prevent a proof. Members, tautologies and subsumed clauses are redundant. KBO and LPO as implemented are suitable orderings.", "quantifier": "all first-order clause sets with equality, finite or not, all signatures, orderings that are simplification orderings with $true least, all selection functions that select negative literals, all types of paramodulation", "why_tests_cant": "Incompleteness shows as a missing proof or a wrong Satisfiable on particular problems; the claim is about all clause sets, and the argument builds an infinite model.", "anchors": ["CLAUSES/ccl_eqnresolution.c: ComputeEqRes", "CLAUSES/ccl_factor.c: ComputeEqualityFactor", "CLAUSES/ccl_paramod.c: ClauseParamodConstruct", "CONTROL/cco_paramodulation.c: compute_into_pm_pos_clause, compute_pos_into_pm_term, sim_paramod_q", "CONTROL/cco_factoring.c: ComputeAllEqualityFactors", "CONTROL/cco_eqnresolving.c: ComputeAllEqnResolvents", "CLAUSES/ccl_eqnlist.c: EqnListMaximalLiterals"]}
{"id": "C62", "title": "If the given-clause loop ends without the empty clause, the input is satisfiable", "statement": "If the loop ends because no unprocessed clause is left, no clause was discarded for lack of resources, and the empty clause was not found, then the input clauses have a model; equivalently, from an unsatisfiable input the loop does not end without a proof. Simplification of new and of processed clauses, subsumption in both directions, deletion of tautologies and of orphans, and restarting with the processed clauses may happen at any time and in any order without losing a proof.", "quantifier": "all sets of input clauses, all runs of the loop (every clause selection heuristic, every order and choice of simplifications), all literal selections, all suitable orderings", "why_tests_cant": "A wrong deletion costs completeness only on problems where the deleted clause is needed, and the prover then reports Satisfiable with the same confidence as for right answers; the number of interleavings of generation, simplification and deletion is unbounded.", "anchors": ["CONTROL/cco_proofproc.c: Saturate, ProcessClause, generate_new_clauses, insert_new_clauses, remove_subsumed, eliminate_backward_rewritten_clauses, ProofStateResetProcessed", "CONTROL/cco_forward_contraction.c: ForwardContractClause, ForwardModifyClause, forward_contract_keep, ForwardSubsumption", "CONTROL/cco_simplification.c: ClauseMoveSimplified", "CLAUSES/ccl_clausefunc.c: ClauseIsOrphaned, ClauseSetDeleteOrphans, ClauseArchive"]}
{"id": "C63", "title": "Beta normalisation of lambda terms is correct, terminating and canonical", "statement": "For every well-typed term, beta normalisation ends; its result is reached by beta steps only, contains no redex and has the same type; no bound variable is captured or lost on the way. Two terms get the same normal form exactly if they are equal modulo beta. The flag in a term cell that says whether a term has a redex is exact.", "quantifier": "all simply typed terms with de Bruijn variables, any nesting of binders and partial applications", "why_tests_cant": "Errors in index arithmetic show only for terms with loose variables below several binders, in combinations of argument counts and nesting that cannot be enumerated; termination rests on typing for all terms.", "anchors": ["TERMS/cte_lambda.c: BetaNormalizeDB, do_beta_normalize_db, WHNF_step, whnf_step_uncached, replace_bound_vars, ShiftDB, do_shift_db", "TERMS/cte_lambda.h: ApplyTerms, UnfoldLambda", "TERMS/cte_termbanks.c: tb_termtop_insert"]}
{"id": "C64", "title": "Eta normalisation of lambda terms is correct and canonical", "statement": "Eta reduction of a term gives an eta-equal term of the same type in which no eta step is possible; eta expansion gives an eta-equal term of the same type in which every subterm of functional type is an abstraction. Both keep beta normal forms. Typed terms are represented by the same normal form exactly if they are equal modulo beta and eta.", "quantifier": "all simply typed terms with de Bruijn variables, any number of binders and trailing arguments", "why_tests_cant": "Which binders may be dropped depends on the smallest loose variable in the other arguments; off-by-one errors show only for particular combinations of binders, arguments and loose variables. Canonicity is about all pairs of terms.", "anchors": ["TERMS/cte_lambda.c: LambdaEtaReduceDB, do_eta_reduce_db, reduce_eta_top_level, find_min_db, drop_args, LambdaEtaExpandDB, do_eta_expand_db, LambdaEtaExpandDBTopLevel, LambdaNormalizeDB", "TERMS/cte_termbanks.c: tb_termtop_insert"]}
{"id": "C65", "title": "Conversion of named lambda terms to de Bruijn terms keeps the meaning", "statement": "Converting a term with named binders gives a term without names that has the same value in every interpretation; terms that differ only in the names of bound variables give the same term, and terms with different meaning different terms. Variables are unbound afterwards as before. Abstracting variables from a term gives the function that maps values of these variables to the value of the term.", "quantifier": "all named lambda terms, including nested binders of the same variable; all lists of different variables; all interpretations and assignments", "why_tests_cant": "The result depends on the depth of every occurrence and on which binders hide which; only an argument over all terms and all nestings shows that no occurrence is captured or confused.", "anchors": ["TERMS/cte_lambda.c: NamedToDB, do_named_to_db, AbstractVars, replace_fvars, CloseWithDBVar"]}
{"id": "C66", "title": "A symbol is identified by its name and arity", "statement": "When a problem is read, two occurrences of symbols are the same symbol exactly if they have the same name and the same number of arguments; single quotes around a lower case word do not matter. The symbol is printed with that name.", "quantifier": "all sequences of names and arities read into a new signature", "why_tests_cant": "The key of a second arity is made from the name; that it never collides with another name, and that earlier codes are not disturbed by later insertions, is a statement about all names and all sequences.", "anchors": ["TERMS/cte_signature.c: SigInsertId, SigFindFCode", "INOUT/cio_scanner.c: scan_string, scan_ident"]}
{"id": "C67", "title": "Printed clauses can be read again", "statement": "A clause printed in TPTP-3 format, with any name and role, is accepted by the reader of clauses; the clause read has the same role and the same literals in the same order, with the same symbols, up to an injective renaming of variables, so it has the same models. The text is consumed completely.", "quantifier": "all clauses (any nesting of terms), all symbols of the signature, all roles, all states of the reader including one that has never seen the symbols", "why_tests_cant": "Terms are unbounded; the variables get names from their codes and new codes from their names, and the scanner splits the text without knowledge of the grammar. Only an induction over terms and texts shows that no separator, quote or look-ahead goes wrong for some combination.", "anchors": ["CLAUSES/ccl_clauses.c: ClauseTSTPPrint, ClauseParse", "CLAUSES/ccl_eqn.c: EqnTSTPPrint, EqnParse, EqnParseInfix", "TERMS/cte_termbanks.c: TBTermParseReal", "TERMS/cte_termfunc.c: TermPrintFO, VarPrint", "INOUT/cio_scanner.c: scan_token"]}
{"id": "C68", "title": "Printed formulas can be read again", "statement": "A formula printed in TPTP-3 format is accepted by the reader of formulas, and the formula read has the same connectives, quantifiers and literals in the same places, up to names of variables; it is true in the same interpretations.", "quantifier": "all first-order formulas with all TPTP connectives, any nesting of quantifiers (also several binders of the same variable), all signatures and states of the reader", "why_tests_cant": "Brackets are left out for chains of disjunctions and lists of variables are merged; whether the reader groups the text the same way depends on the nesting, of which there are infinitely many.", "anchors": ["CLAUSES/ccl_tformulae.c: TFormulaTPTPPrint, tformula_print_or_chain, TFormulaTSTPParse, quantified_tform_tstp_parse, assoc_tform_tstp_parse, literal_tform_tstp_parse", "CLAUSES/ccl_eqn.c: EqnFOFPrint, EqnParseInfix", "INOUT/cio_scanner.c"]}
{"id": "C69", "title": "The reported verdict is true of the input problem", "statement": "If the prover reports Theorem, the conjecture is a logical consequence of the axioms of the input; if it reports Unsatisfiable, the input has no model; if it reports Satisfiable or CounterSatisfiable, the axioms have a model in which the conjecture is false.", "quantifier": "all first-order problems, all ways the saturation loop can run, all values of the options and heuristics modelled; interpretations of any size", "why_tests_cant": "Truth of the verdict is a statement about all interpretations of the input; it depends on every stage (clausification, preprocessing, inference, simplification, report), and a bug in the interplay of stages shows only on particular problems.", "anchors": ["PROVER/eprover.c: main", "CLAUSES/ccl_formulafunc.c: FormulaSetCNF2, FormulaSetPreprocConjectures", "CONTROL/cco_preprocessing.c", "CONTROL/cco_proofproc.c: Saturate, ProcessClause"]}
{"id": "C70", "title": "SinE selects exactly the axioms within the trigger distance", "statement": "With a SinE filter without size limit, the axioms used are exactly those reached from the conjectures (and hypotheses, if asked for) by at most the given number of trigger steps, where a symbol triggers the axioms in which it is among the least general symbols up to the tolerances; with a size limit no axiom is used while a nearer one is not, and not more than the limit. All conjectures are kept. The number of axioms reported as pruned is the number of axioms dropped, and a proof from the selected axioms is a proof from all.", "quantifier": "all problems (lists of axioms with any symbols), all filter parameters", "why_tests_cant": "The trigger relation and the breadth first search depend on all symbol counts and on the order in which axioms are met; a boundary error loses an axiom only for particular counts, and the result still looks like a plausible selection.", "anchors": ["CLAUSES/ccl_sine.c: SelectAxioms, SelectDefiningAxioms, DRelationAddClause, DRelationAddFormula", "CLAUSES/ccl_f_generality.c: compute_d_rel, GenDistribAddClause, GenDistribAddFormula", "CONTROL/cco_sine.c: ProofStateSinE", "CONTROL/cco_batch_spec.c: StructFOFSpecGetProblem"]}
{"id": "C71", "title": "Relevance pruning keeps the axioms near the conjectures", "statement": "With relevance pruning level n, the axioms kept are those connected to a conjecture by a chain of fewer than n shared symbols; if there are fewer levels than that, nothing is dropped. The number reported as pruned is the number of axioms dropped.", "quantifier": "all problems, all levels", "why_tests_cant": "The layers are computed incrementally with an index from which axioms are removed while it is traversed; that the increments give the distance in the symbol graph is a statement about all graphs.", "anchors": ["CLAUSES/ccl_relevance.c: RelevanceDataCompute, find_level_fcodes, extract_new_core, proofstate_rel_prune, ProofStateRelevancyProcess"]}
{"id": "C72", "title": "Queues return elements in the right order", "statement": "After any sequence of operations (insertion and removal at both ends, reset) a queue behaves like a list: removal, look, number of elements, emptiness and the loop over the indices give the elements in order, however often the memory has wrapped around and grown.", "quantifier": "all sequences of operations, all element values, all contents of uninitialised memory", "why_tests_cant": "Wrap-around and growth interact: the copy in the growing step depends on where head and tail are, which depends on the whole history.", "anchors": ["BASICS/clb_pqueue.h: pqueue_store, pqueue_bury, PQueueGetNext, PQueueGetLast, PQueueLook, PQueueLookLast", "BASICS/clb_pqueue.c: PQueueGrow, PQueueCardinality, PQueueTailIndex, PQueueIncIndex"]}
{"id": "C73", "title": "Literal selection is admissible", "statement": "With every literal selection strategy: selection changes no literal of the clause; if anything is selected, a negative literal is; strategies without the prefix P select negative literals only, and all strategies but those that select all negative literals select at most one of them, namely one of those that are best by the criterion of the strategy. After selection and marking, the literals that inferences may use are exactly the eligible ones of the superposition calculus with that selection function: the selected negative literals if there are any, the maximal literals otherwise.", "quantifier": "all strategies in the table, all term orderings, all literal evaluations, all clauses", "why_tests_cant": "There are 144 strategies and they share helpers and marks on the clause; a strategy that selects only positive literals or leaves marks of an earlier computation makes the prover incomplete for particular clauses only, and the prover then reports saturation.", "anchors": ["HEURISTICS/che_litselection.c: name_fun_assoc, GetLitSelFun, generic_uniq_selection and all Select functions", "HEURISTICS/che_proofcontrol.c: DoLiteralSelection, select_inherited_literal", "CONTROL/cco_forward_contraction.c: ForwardContractClause", "CLAUSES/ccl_clauses.c: ClauseCondMarkMaximalTerms"]}
{"id": "C74", "title": "Reported answers are correct", "statement": "If the prover reports a disjunction of tuples as answer to the questions of a problem, by a derived clause of positive answer literals over the terms introduced for the questions, then the axioms imply (unless they imply a goal for which no answers were asked) that one of the tuples answers its question, whatever the values of variables in the tuple: if the printed terms use symbols of the problem this holds in every model of the axioms (with at least two individuals, or with one question about individuals), otherwise for some interpretation of the symbols introduced by the prover. Every tuple has one term of the right type for each existentially quantified variable of the question, in order.", "quantifier": "all problems with questions or conjectures treated as questions, all sequences of saturation steps, all derived answer clauses, all models", "why_tests_cant": "An answer is a claim about all models of the axioms; correctness depends on the composition of annotation, negation, clausification, renaming and every inference and simplification applied to the clause with the answer literal.", "anchors": ["CLAUSES/ccl_formulafunc.c: answer_lit_alloc, TFormulaAnnotateQuestion, WFormulaAnnotateQuestion, FormulaSetPreprocConjectures", "CONTROL/cco_interpreted.c: answer_lit_print, ClausePrintAnswer", "CONTROL/cco_proofproc.c: ProcessClause", "CLAUSES/ccl_clauses.c: ClauseIsSemFalse"]}
{"id": "C75", "title": "$distinct means pairwise different", "statement": "Replacing the formulas $distinct(c1, ..., ck) of the input changes nothing about the problem: the new formula is true in an interpretation exactly if the constants have pairwise different values, all other formulas are kept, and the goals follow from the processed formulas exactly if they follow from the input.", "quantifier": "all lists of input formulas of any type, all lists of constants, all interpretations", "why_tests_cant": "The claim is an equivalence over all interpretations and all numbers of constants, including none, one and repeated ones, and for every role a formula can have.", "anchors": ["CLAUSES/ccl_proofstate.c: ProofStateProcessDistinct", "CLAUSES/ccl_tformulae.c: TFormulaExpandDistinct, TFormulaStackToForm"]}
{"id": "C76", "title": "All overlaps of two clauses are tried once", "statement": "Paramodulation of two clauses without index tries every admissible overlap exactly once and then ends: every usable side of every usable literal of one clause with every non-variable position of the maximal sides of the maximal literals of the other one (only the negative atoms, if an atom is used). In the second direction the overlaps into tops of positive literals are left out; the opposite overlap has then been tried in the first direction, if the literal is an equation that is not selected and the side is not a variable.", "quantifier": "all pairs of clauses with arbitrary flags of their literals, all settings of the iterator", "why_tests_cant": "The iterators keep a stack in the term, a side and a literal and move on from any of them; that no position is skipped or repeated concerns all shapes of terms and all combinations of flags.", "anchors": ["TERMS/cte_termpos.c: TermPosNextLIPosition", "TERMS/cte_termpos.h: TermPosFirstLIPosition", "CLAUSES/ccl_clausepos.c: ClausePosFindMaxLiteral, ClausePosFindFirstMaximalSide, ClausePosFindNextMaximalSide, ClausePosFindFirstMaximalSubterm, ClausePosFindNextMaximalSubterm", "CLAUSES/ccl_paramod.c: ClausePosFirstParamodInto, ClausePosNextParamodInto, ClausePosFirstParamodFromSide, ClausePosNextParamodFromSide, ClausePosFirstParamodPair, ClausePosNextParamodPair", "CONTROL/cco_paramodulation.c: ComputeClauseClauseParamodulants"]}
{"id": "C77", "title": "eground yields an equisatisfiable propositional problem", "statement": "For near-propositional clauses (no function symbols with arguments, or no variables) eground ends with a finite propositional problem in DIMACS format that is satisfiable exactly if the clauses have a model, with or without restriction of the instances by purity constraints, unit subsumption, unit resolution and tautology deletion. The header announces the right number of clauses and no smaller number of variables than occurs. Other clause sets are refused.", "quantifier": "all well-typed sets of clauses over atoms, all symbol tables, all combinations of the options, all interpretations", "why_tests_cant": "Equisatisfiability compares all propositional assignments with all first-order interpretations over arbitrary domains; the purity constraints leave out most instances and need an argument about all of them.", "anchors": ["CLAUSES/ccl_grounding.c: ClauseSetCreateGroundInstances, ClauseSetCreateConstrGroundInstances, ClauseCreateGroundInstances, GroundSetInsert, GroundSetUnitSimplifyClause, GroundSetPrintDimacs, ClausePrintDimacs", "CLAUSES/ccl_groundconstr.c: SigCollectConstantTerms, LitOccAddClauseSetAlt, ClauseCollectVarConstr", "PROVER/eground.c: main"]}
{"id": "C78", "title": "The clause filter loses nothing but clauses rejected as too heavy", "statement": "CSSCPA_filter keeps clauses among those it is sent. Every clause accepted, or rejected as a tautology or as subsumed, follows from the clauses kept at every later time; with `accept` throughout, the clauses kept and the clauses sent have the same models. A `check`ed clause is dropped only if it fails the test for improvement, computed from the weight of all kept clauses it subsumes. A unit contradiction is only reported if the kept clauses have no model; the counters are those of the kept clauses; no kept clause subsumes another.", "quantifier": "all sequences of well-typed clauses sent with accept or check, all deltas, all orders in which an index enumerates its entries, all interpretations", "why_tests_cant": "A clause removed early has to follow from the clauses kept after arbitrarily many later removals, in all interpretations.", "anchors": ["EXTERNAL/cex_csscpa.c: CSSCPAProcessClause, CSSCPALoop, collect_subsumed, find_unit_contradiction", "EXTERNAL/CSSCPA_filter.c: main", "CLAUSES/ccl_subsumption.c: UnitClauseSetSubsumesClause, ClauseSetSubsumesClause, ClauseSetFindUnitSubsumedClause, ClauseSetFindSubsumedClause", "CLAUSES/ccl_eqn.c: EqnUnifyP"]}
{"id": "C79", "title": "Extracted proofs are complete and contain nothing superfluous", "statement": "epclextract prints exactly the steps of the protocol marked for extraction and the steps they depend on, in the order of the protocol; every step a printed step refers to is printed. It terminates for every protocol and gives up exactly if a needed step refers to one that does not exist. It announces a refutation exactly if the printed steps contain a contradiction. Fast extraction prints the same if the steps to extract are at the end.", "quantifier": "all protocols with unique identifiers, all justifications, all orders in which a tree of steps is emptied", "why_tests_cant": "The printed set is the closure under references of arbitrary depth, and protocols may be circular.", "anchors": ["PCL2/pcl_protocol.c: PCLProtMarkProofClauses, PCLExprCollectPreconds, PCLProtPrintPropClauses", "PCL2/pcl_miniprotocol.c: PCLMiniProtMarkProofClauses", "PCL2/pcl_expressions.c: PCLStepExtract", "PROVER/epclextract.c: main"]}
{"id": "C80", "title": "A verified proof is a proof", "statement": "If checkproof prints that a proof is verified and the external prover is sound, every clause of the protocol follows from the clauses given as assumptions; if the proof is partially verified, it follows from these and the splitting steps. A correct proof is verified if the prover is complete.", "quantifier": "all protocols, all sound external provers, all interpretations", "why_tests_cant": "The claim is about truth in all interpretations, uses new Skolem constants in every step, and composes arbitrarily many local checks.", "anchors": ["PCL2/pcl_proofcheck.c: PCLCollectPreconds, PCLNegSkolemizeClause, PCLGenerateCheck, PCLStepCheck, PCLProtCheck", "CLAUSES/ccl_clauses.c: ClauseSkolemize", "TERMS/cte_subst.c: SubstSkolemizeTerm", "PROVER/checkproof.c: main"]}
{"id": "C81", "title": "Conditional terms and Boolean arguments are removed without changing the problem", "statement": "The translation of $ite and of formulas in argument positions ends for every formula; the result contains no $ite, and no formula in an argument position except variables, $true, $false and literals over these; and it has the same truth value as the formula in every interpretation and for all values of the free variables.", "quantifier": "all well-typed formulas with formulas as terms, all interpretations, all valuations", "why_tests_cant": "The claim is about truth in all interpretations and for arbitrarily nested formulas and terms; the procedures rewrite formulas they have generated themselves, so termination is not obvious.", "anchors": ["CLAUSES/ccl_formulafunc.c: do_fool_unroll, find_fool_subterm, fool_should_ignore, do_ite_unroll, TFormulaUnrollFOOL", "CLAUSES/ccl_tcnf.c: TFormulaExpandLiterals", "CLAUSES/ccl_tformulae.c: EncodePredicateAsEqn, TFormulaNegate", "TERMS/cte_termfunc.c: TermFindIteSubterm"]}
{"id": "C82", "title": "Command lines are read as documented", "statement": "For every table of options, reading a command line ends; it yields the options in order with their arguments and the remaining arguments exactly as the grammar of POSIX/GNU options says, and reports an error exactly for command lines outside the grammar. A numerical argument is accepted exactly if it is an integer in the range, with that value. The help text of an option is broken into lines of the given width without losing words.", "quantifier": "all option tables, all lists of arguments, all argument strings, all texts and line widths", "why_tests_cant": "Arguments are removed from the array while it is scanned, and groups of short options are read in several calls with hidden state; the claim is about all lists of arbitrary strings.", "anchors": ["INOUT/cio_commandline.c: CLStateAlloc, CLStateGetOpt, CLStateInsertArg, CLStateGetIntArg, CLStateGetIntArgCheckRange, PrintOption, process_long_option, process_short_option, print_start_of_str"]}
{"id": "C83", "title": "Local definitions are replaced by global ones without changing the problem", "statement": "The lifting of $let ends; the result contains no $let; in every interpretation in which the new definitions hold every formula keeps its value, and every interpretation of the problem extends to the new symbols such that the definitions hold; so the lifted problem is satisfiable exactly if the problem is.", "quantifier": "all lists of well-formed closed formulas with arbitrarily nested $let (in bodies and in definitions), all interpretations and valuations", "why_tests_cant": "The claim is about truth in all interpretations; the bodies are rewritten before they are lifted themselves, variables from outside become arguments of the new symbols, and capture must be excluded.", "anchors": ["CLAUSES/ccl_formulafunc.c: lift_lets, close_let_def, replace_body, make_fresh_defs, TFormulaSetLiftLets", "CLAUSES/ccl_tformulae.c: TFormulaCollectFreeVars, TFormulaClosure", "TERMS/cte_termbanks.c: ParseLet"]}
{"id": "C84", "title": "An emptied watch list is a list of consequences", "statement": "If the prover reports \"Watchlist is empty!\", every clause of the given watch list follows from the input clauses; at any time a clause of the list is still present in a form equivalent modulo the input, or follows from the input; a clause is marked as hitting the list exactly if it subsumes one of its clauses; a static list never shrinks; the reported numbers of removed clauses are right.", "quantifier": "all input clause sets, all watch lists of well-typed clauses, all runs of the saturation loop (any order of selection, simplification, tests and rewriting of the list), with and without index", "why_tests_cant": "Consequence is about all models, and the list itself is rewritten with clauses found during the search, so the clause finally hit is not the clause the user gave.", "anchors": ["CONTROL/cco_proofproc.c: check_watchlist, remove_subsumed, simplify_watchlist, ProcessClause, Saturate", "CLAUSES/ccl_proofstate.c: ProofStateLoadWatchlist, ProofStateInitWatchlist", "PROVER/eprover.c: main"]}
{"id": "C85", "title": "Types are read, printed, shared and taken apart correctly", "statement": "A type expression is read as the type it denotes (> associates to the right, parentheses do not matter), and a printed type is read back; each type has one representation, and two types in the bank have the same address iff they are equal; the type of a symbol applied to n arguments is that of n applications, and there is none iff there are too many arguments; the types of choice operators are recognised exactly.", "quantifier": "all type expressions of the grammar, all declared type constructors, all types (any nesting and number of arguments), all orders of insertion, all numbers of arguments", "why_tests_cant": "Types nest without bound on both sides of the arrow and are stored flattened; unit tests exercise a few shapes, and sharing is about all pairs of types.", "anchors": ["TERMS/cte_typebanks.c: TypeBankParseType, parse_single_type, TypeBankInsertTypeShared, TypePrintTSTP", "TERMS/cte_simpletypes.c: FlattenType, ArrowTypeFlattened, TypeDropFirstArg, IsChoiceType", "TERMS/cte_typecheck.c: term_determine_type"]}
{"id": "C86", "title": "Problems with include directives are read as their text", "statement": "The formulas of the problem are those of the files given, in order, with every include directive replaced by the selected formulas of the file it means (absolute, relative to the including file, or in the TPTP library), watch list clauses going to the watch list; a missing file, a selected name that does not occur, or text that is no statement is reported; reading ends unless a file includes itself.", "quantifier": "all file systems, all nestings of includes, all selections of names, all settings of the TPTP directory, all lists of files on the command line", "why_tests_cant": "Includes nest, each with its own directory and selection; losing an axiom silently shows only as a wrong verdict (satisfiable, countersatisfiable) on some problem.", "anchors": ["CLAUSES/ccl_formulafunc.c: FormulaAndClauseSetParse, verify_name, check_all_found", "INOUT/cio_scanner.c: CreateScanner, ScannerParseInclude", "INOUT/cio_fileops.c: FileNameDirName, FileNameBaseName", "INOUT/cio_initio.c: InitIO", "PROVER/eprover.c: parse_spec"]}
{"id": "C87", "title": "First-order problems are read well-sorted, and well-sorted problems are read", "statement": "If a first-order problem is accepted, there is one type for each symbol (name and number of arguments) that agrees with all declarations and under which all atoms are formulas and all equations are between terms of one sort; the sorts stored in the terms are those of this typing. A problem with declarations first, whose undeclared symbols are predicates or give the default sort, is accepted if it is well-sorted, in whatever order its literals come.", "quantifier": "all sequences of type declarations and literals, all terms of any depth, all overloadings of names by number of arguments, all default sorts", "why_tests_cant": "A type is guessed at the first occurrence of a symbol and corrected while the literal is read; whether a correction comes too late depends on the order and nesting of all occurrences.", "anchors": ["TERMS/cte_typecheck.c: TypeInferSort, TypeDeclareIsPredicate, TypeDeclareIsNotPredicate", "TERMS/cte_signature.c: SigDeclareType, SigDeclareFinalType, SigDeclareIsFunction, SigDeclareIsPredicate, SigParseTFFTypeDeclaration", "TERMS/cte_termbanks.c: TBTermParseReal, tb_subterm_parse", "CLAUSES/ccl_eqn.c: EqnParseInfix, EqnAlloc"]}
{"id": "C88", "title": "Higher-order inferences on one clause are sound", "statement": "In every extensional model of a typed clause, the clauses made from it by argument congruence and by positive extensionality hold too; a clause is replaced by the empty clause as a flex clause only if it holds in no model with constant functions; clauses made by negative extensionality hold in a model that differs only in the new Skolem symbols. Argument congruence makes a clause for each number of missing arguments, and positive extensionality strips all trailing variables that occur nowhere else.", "quantifier": "all typed clauses of applied symbols and variables, all extensional models, all selections of literals", "why_tests_cant": "Soundness speaks of all models; a wrong side condition (a variable that still occurs in another literal, a predicate variable with both signs) makes satisfiable problems unsatisfiable only in clauses that a test suite does not contain.", "anchors": ["CONTROL/cco_ho_inferences.c:ComputeArgCong", "CONTROL/cco_ho_inferences.c:ComputePosExt", "CONTROL/cco_ho_inferences.c:ComputeNegExt", "CONTROL/cco_ho_inferences.c:term_drop_last_arg", "CONTROL/cco_ho_inferences.c:ResolveFlexClause", "TERMS/cte_termfunc.c:TermApplyArg"]}
{"id": "C89", "title": "Abstracting higher-order inferences are sound", "statement": "Comparing two terms of one type for abstracting inferences gives pairs of subterms of one type such that the terms are equal wherever the pairs are. The clauses made by abstracting superposition, equality resolution and equality factoring (with the pairs as negated conditions) hold in every model of their premises.", "quantifier": "all typed clauses of applied symbols and variables, all models, all positions", "why_tests_cant": "The inferences replace unification by conditions; a lost condition or a lost literal makes unsound clauses only for particular pairs of terms, in all models at once.", "anchors": ["CONTROL/cco_ho_inferences.c:find_disagreements", "CONTROL/cco_ho_inferences.c:do_ext_sup", "CONTROL/cco_ho_inferences.c:do_ext_eqres", "CONTROL/cco_ho_inferences.c:do_ext_eq_fact", "CONTROL/cco_ho_inferences.c:ComputeExtEqRes", "CONTROL/cco_ho_inferences.c:ComputeExtEqFact", "CONTROL/cco_ho_inferences.c:advance_eq_fact_pos", "CLAUSES/ccl_ext_index.h:TYPE_EXT_ELIGIBLE"]}
{"id": "C90", "title": "Lifting equations between formulas to literals keeps the meaning", "statement": "When equations, negated equations and negations inside a literal are lifted to the level of the literal, each literal stays true for exactly the same values of its terms and stays well-typed, and exactly the literals with a right-hand side other than $true are marked as equational. If nothing is reported as changed, nothing was changed, $true is on the right and no literal states a negation or an equation.", "quantifier": "all well-typed literals, all values of the other terms", "why_tests_cant": "The sign of the literal is flipped for each negation, each negated equation and each $false; the combinations and nestings are unbounded.", "anchors": ["CONTROL/cco_ho_inferences.c:NormalizeEquations"]}
{"id": "C91", "title": "Identifiers of proof steps are read, printed and ordered consistently", "statement": "Reading an identifier of a proof step accepts exactly the printed identifiers not followed by a full stop and returns the identifier printed. Different identifiers are printed differently in PCL and in TSTP format. Two steps are compared as equal only if their identifiers are the same, and smaller exactly if the identifier is lexicographically smaller.", "quantifier": "all identifiers with any number of elements, all token sequences", "why_tests_cant": "Identifiers are unbounded sequences of unbounded numbers; a clash of two of them would silently replace one proof step by another.", "anchors": ["PCL2/pcl_idents.c:PCLIdParse", "PCL2/pcl_idents.c:PCLIdPrintFormatted", "PCL2/pcl_idents.c:PCLIdPrintTSTP", "PCL2/pcl_idents.c:PCLIdCompare", "PCL2/pcl_steps.c:PCLStepIdCompare"]}
{"id": "C92", "title": "Strings sent over a connection arrive unchanged", "statement": "A string sent by the server or a client is written completely and in order, however few bytes the socket takes at a time. The receiver takes exactly the bytes of one message from the stream, in whatever pieces they arrive, and returns the string that was sent.", "quantifier": "all strings without zero bytes, all sequences of partial reads and writes, all following contents of the stream", "why_tests_cant": "How the stream is cut into pieces depends on the network and on timing; in a test on one machine short messages arrive in one piece.", "anchors": ["INOUT/cio_network.c:TCPMsgPack", "INOUT/cio_network.c:TCPMsgWrite", "INOUT/cio_network.c:TCPMsgRead", "INOUT/cio_network.c:TCPMsgSend", "INOUT/cio_network.c:TCPMsgRecv", "INOUT/cio_network.c:TCPStringRecv"]}
