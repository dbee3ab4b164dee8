{
 "claims": [
  {
   "property": "C01",
   "status": "proved",
   "theorems": [
    "Verif.Props.matching_exact",
    "Verif.Props.matching_success",
    "Verif.Props.matching_failure_restores"
   ],
   "note": "SubstComputeMatch, first-order, for all terms/types/prior bindings"
  },
  {
   "property": "C02",
   "status": "proved",
   "theorems": [
    "Verif.Props.mgu_terminates",
    "Verif.Props.mgu_success",
    "Verif.Props.mgu_welltyped",
    "Verif.Props.mgu_failure",
    "Verif.Props.fullInst_unique"
   ],
   "note": "SubstComputeMgu, first-order; termination, most general unifier, restoration on failure"
  },
  {
   "property": "C03",
   "status": "proved",
   "theorems": [
    "Verif.Props.backtrack_restores",
    "Verif.Props.backtrack_all",
    "Verif.Props.backtrack_single"
   ],
   "note": "all histories of the substitution API"
  },
  {
   "property": "C04",
   "status": "proved",
   "theorems": [
    "Verif.Props.bank_inv",
    "Verif.Props.bank_reads_back",
    "Verif.Props.bank_sharing",
    "Verif.Props.bank_sharing_cells",
    "Verif.Props.bank_counts",
    "Verif.Props.bank_insert_keeps",
    "Verif.Props.bank_find",
    "Verif.Props.bank_insert_existing",
    "Verif.Props.bank_instance",
    "Verif.Props.bank_replace",
    "Verif.Props.bank_gc",
    "Verif.Props.bank_links"
   ],
   "note": "Over all histories of insertions, lookups, instantiations, replacements, rewrite links and garbage collections, for any pointer order, hash function and allocator (which may reuse freed addresses). First-order cells; types and the remaining properties are not modelled."
  },
  {
   "property": "C05",
   "status": "proved",
   "theorems": [
    "Verif.Props.instantiate_exact",
    "Verif.Props.instantiateFO_exact",
    "Verif.Props.replPlain_exact",
    "Verif.Props.repl_exact",
    "Verif.Props.repl_bound",
    "Verif.Props.posReplace_exact"
   ],
   "note": "instantiation, replacement of all occurrences, replacement at a position"
  },
  {
   "property": "C06",
   "status": "proved",
   "theorems": [
    "Verif.Props.normalize_terminates",
    "Verif.Props.normalize_variant",
    "Verif.Props.normalize_canonical",
    "Verif.Props.normalize_idempotent"
   ],
   "note": "ClauseNormalizeVars on literal lists in EqnAlloc form"
  },
  {
   "property": "C07",
   "status": "proved",
   "theorems": [
    "Verif.Props.fresh_no_collision",
    "Verif.Props.disjoint_copy"
   ],
   "note": "all histories of VarBankGetFreshVar/VarBankResetVCounts; EqnListCopyDisjoint"
  },
  {
   "property": "C08",
   "status": "proved",
   "theorems": [
    "Verif.Props.kbo6Compare_correct",
    "Verif.Props.kbo6Greater_correct",
    "Verif.Props.kbo6Compare_history",
    "Verif.Props.kbo6cmp_agrees",
    "Verif.Props.kbo6Compare_partial_precedence"
   ],
   "note": "For total precedences and admissible weights; kbo6Compare_partial_precedence shows that with incomparable symbols the fast version reports different terms as equal."
  },
  {
   "property": "C09",
   "status": "proved",
   "theorems": [
    "Verif.Props.kgt_irrefl",
    "Verif.Props.kgt_trans",
    "Verif.Props.kgt_subst",
    "Verif.Props.kgt_mono",
    "Verif.Props.kgt_arg",
    "Verif.Props.kgt_total",
    "Verif.Props.kgt_wf",
    "Verif.Props.kgt_subst_fails_for_new_constants"
   ],
   "note": "For total precedences and admissible weights; kgt_subst_fails_for_new_constants shows that the default weight of symbols created after weight generation breaks admissibility."
  },
  {
   "property": "C10",
   "status": "proved",
   "theorems": [
    "Verif.Props.lpo4Greater_correct",
    "Verif.Props.lpo4Greater_sound",
    "Verif.Props.lpo4Compare_correct",
    "Verif.Props.lpo4Compare_sound",
    "Verif.Props.lpoCompare_agrees",
    "Verif.Props.lpoGreater_agrees",
    "Verif.Props.lpo4_limit_incomplete"
   ],
   "note": "Exact while the recursion limit is not reached; positive answers right at any limit; the old and the new version agree; with the limit reached the answer may be no (witness)."
  },
  {
   "property": "C11",
   "status": "proved",
   "theorems": [
    "Verif.Props.lpo4Greater_irrefl",
    "Verif.Props.lpo4Greater_trans",
    "Verif.Props.lpo4Greater_subst",
    "Verif.Props.lpo4Greater_mono",
    "Verif.Props.lpo4Greater_arg",
    "Verif.Props.lpo4Greater_total",
    "Verif.Props.lpo4Greater_wf"
   ],
   "note": "Stated for LPO4Greater itself; the closure properties need the last comparison to stay within the recursion limit."
  },
  {
   "property": "C12",
   "status": "proved",
   "theorems": [
    "Verif.Props.addTuple_correct",
    "Verif.Props.addTuple_refuses_exactly",
    "Verif.Props.init_precOrder",
    "Verif.Props.precedence_is_order",
    "Verif.Props.precBacktrack_restores",
    "Verif.Props.precedence_is_order_for_later_symbols",
    "Verif.Props.precWeights_total",
    "Verif.Props.precChain_total",
    "Verif.Props.addTuple_result_is_no_state",
    "Verif.Props.addTuple_redundant_reported_as_refused",
    "Verif.Props.precChain_partial_with_user_precedence",
    "Verif.Props.precChain_partial_with_distinct"
   ],
   "note": "The precedence stays a preorder after any history of accepted pairs and backtracking, a pair is refused exactly if it contradicts what is known, generated precedences are total in weight mode. The four witnesses record disagreements: the value returned by the add operation is no state to backtrack to, a redundant pair is reported like a refused one, and generated chains may be partial together with a user precedence or with distinct symbols."
  },
  {
   "property": "C13",
   "status": "proved",
   "theorems": [
    "Verif.Props.cmpCacheFind_correct",
    "Verif.Props.cmpCacheFind_hit",
    "Verif.Props.cmpCacheInsert_assertion_too_strict"
   ],
   "note": "For every history of true insertions and lookups; an inserted comparison is found again in both orientations. The assertion in the insertion is violated by a truthful history (witness)."
  },
  {
   "property": "C14",
   "status": "proved",
   "theorems": [
    "Verif.Props.eqnOrient_correct",
    "Verif.Props.eqnOrient_idempotent",
    "Verif.Props.copy_orientRight",
    "Verif.Props.bigger_iff",
    "Verif.Props.kbo_decides",
    "Verif.Props.lpo_decides",
    "Verif.Props.genDefLit_never_oriented"
   ],
   "note": "For any comparison that decides an ordering on the terms concerned (KBO6 and LPO4 do). genDefLit_never_oriented is a witness that literals made by GenDefLit are never oriented: the split flag 65636 overlaps the up-to-date flag."
  },
  {
   "property": "C15",
   "status": "proved",
   "theorems": [
    "Verif.Props.literalCompare_multiset",
    "Verif.Props.literalCompare_complete",
    "Verif.Props.literalCompare_inv",
    "Verif.Props.eqnGreater_correct",
    "Verif.Props.literalCompare_incomplete"
   ],
   "note": "Every answer is right for the multiset extension; complete if a positive unoriented literal is not compared with a negative one, where a witness shows a missed case."
  },
  {
   "property": "C16",
   "status": "proved",
   "theorems": [
    "Verif.Props.maximalLiterals_correct",
    "Verif.Props.maximalLiterals_nonempty",
    "Verif.Props.literalCompare_litOrder",
    "Verif.Props.markMaximalTerms_correct",
    "Verif.Props.eqnIsMaximal_correct",
    "Verif.Props.literalCompare_stable",
    "Verif.Props.instance_maximality_exact"
   ],
   "note": "Marks exact for every clause; the test of an instance against the marked literals only is exact too."
  },
  {
   "property": "C17",
   "status": "proved",
   "theorems": [
    "Verif.Props.eqRes_sound",
    "Verif.Props.erNormalize_equiv",
    "Verif.Props.erNormalize_terminates",
    "Verif.Props.eqRes_var_reverse"
   ],
   "note": "Equality resolution (build_resolvent, ComputeEqRes) and destructive equality resolution (ClauseERNormalizeVar, plain and strong mode) over many-sorted interpretations with equality; first-order case (single mgu)."
  },
  {
   "property": "C18",
   "status": "proved",
   "theorems": [
    "Verif.Props.orderedFactor_sound",
    "Verif.Props.equalityFactor_sound"
   ],
   "note": "Soundness of ordered and equality factoring for every ordering condition. That equality factoring is not most general is shown in equalityFactor_not_general (C41)."
  },
  {
   "property": "C19",
   "status": "partial",
   "theorems": [
    "Verif.Props.paramod_sound_partial",
    "Verif.Props.superSim_direct_unsound"
   ],
   "note": "Sound for plain, simultaneous and super-simultaneous paramodulation on the indexed path and plain/simultaneous on the unindexed path. The unindexed super-simultaneous function applies the unifier twice: proved unsound with a concrete counterexample."
  },
  {
   "property": "C20",
   "status": "proved",
   "theorems": [
    "Verif.Props.normalise_terminates",
    "Verif.Props.normalise_correct",
    "Verif.Props.replacement_decreases",
    "Verif.Props.links_decrease",
    "Verif.Props.recorded_demodulators_suffice",
    "Verif.Props.clause_normalise_equivalent",
    "Verif.Props.clause_normalise_irreducible",
    "Verif.Props.clause_normalise_typed",
    "Verif.Props.backward_search_complete",
    "Verif.Props.rewriting_with_kbo",
    "Verif.Props.rewriting_with_lpo",
    "Verif.Props.restricted_normalisation_incomplete"
   ],
   "note": "All reachable states of the rewrite links and normal-form dates (normalisations, insertions with backward search, removals, garbage collection). The demodulator index is assumed to enumerate all matching members; removing the assumption is C29. Terms protected by the restriction flag are exempt from the normal-form claim, with a witness that the exemption is needed."
  },
  {
   "property": "C21",
   "status": "proved",
   "theorems": [
    "Verif.Props.subsumes_mapsInto",
    "Verif.Props.subsumes_sound",
    "Verif.Props.setSubsumes_sound",
    "Verif.Props.unitSetSubsumes_sound"
   ],
   "note": "Subsumption of clauses with at least two literals, of units (congruence descent), and of a clause by a set; unit-set subsumption."
  },
  {
   "property": "C22",
   "status": "partial",
   "theorems": [
    "Verif.Props.subsumes_complete_partial",
    "Verif.Props.unitSubsumes_complete_partial",
    "Verif.Props.unitSubsumes_incomplete"
   ],
   "note": "Complete for at least two literals under the literal order the prover maintains and first-order inputs; for units, completeness is refuted (swapped side in eqn_topsubsumes_termpair), and proved for the direct cases."
  },
  {
   "property": "C23",
   "status": "proved",
   "theorems": [
    "Verif.Props.tautology_sound",
    "Verif.Props.trivial_sound"
   ],
   "note": "ClauseIsTautology (ground completion) and ClauseIsTrivial: whatever is reported is valid. Termination of the completion loop is not claimed."
  },
  {
   "property": "C24",
   "status": "partial",
   "theorems": [
    "Verif.Props.listIsTrivial_iff",
    "Verif.Props.longTrivial_sound_partial",
    "Verif.Props.longTrivial_incomplete"
   ],
   "note": "The simple test is exact. The test for more than 15 literals is sound and returns, but incomplete: proved with a 16-literal clause containing complementary literals that it does not recognise."
  },
  {
   "property": "C25",
   "status": "proved",
   "theorems": [
    "Verif.Props.cleanup_equiv",
    "Verif.Props.cleanup_exact",
    "Verif.Props.ac_resolved_exact",
    "Verif.Props.ac_resolved_equiv",
    "Verif.Props.ac_redundant_valid",
    "Verif.Props.ac_axioms_kept"
   ],
   "note": "Duplicate and trivially false literals: equivalence and exactness. AC-resolved literals: exactly the negative literals with sides equal modulo AC are removed, and the meaning is kept in all models of the clauses scanned for AC axioms."
  },
  {
   "property": "C26",
   "status": "proved",
   "theorems": [
    "Verif.Props.positiveSR_equiv",
    "Verif.Props.negativeSR_equiv",
    "Verif.Props.simplifyWithUnits_sound",
    "Verif.Props.strongSR_records_too_little"
   ],
   "note": "Unit simplify-reflect keeps equivalence modulo the units; the parents recorded in strong mode do not always suffice (witness)."
  },
  {
   "property": "C27",
   "status": "proved",
   "theorems": [
    "Verif.Props.condense_equiv",
    "Verif.Props.condense_terminates",
    "Verif.Props.contextSR_sound",
    "Verif.Props.contextSR_count",
    "Verif.Props.findContextSR_sound"
   ],
   "note": "Condensation keeps the models and ends; contextual simplify-reflect is justified by the recorded parents, one per removed literal."
  },
  {
   "property": "C28",
   "status": "partial",
   "theorems": [
    "Verif.Props.split_parts",
    "Verif.Props.split_entails",
    "Verif.Props.split_extends",
    "Verif.Props.split_wt",
    "Verif.Props.split_run_sound",
    "Verif.Props.split_run_equisat_partial",
    "Verif.Props.definition_literal_forgotten",
    "Verif.Props.definition_split_again",
    "Verif.Props.split_depends_on_order"
   ],
   "note": "All clauses, split modes, split variables, fresh or reused definitions, and whole histories of deduction, removal and splitting. Soundness holds without conditions; the converse needs that reused definitions still follow from the other clauses. Witness: definition clauses are split again because of the wrong constant EPIsSplitLit, and an unsatisfiable set becomes satisfiable."
  },
  {
   "property": "C29",
   "status": "proved",
   "theorems": [
    "Verif.Props.pdtree_search_exact",
    "Verif.Props.pdtree_search_matches",
    "Verif.Props.pdtree_search_twice",
    "Verif.Props.pdtree_search_keeps",
    "Verif.Props.pdtree_delete_count",
    "Verif.Props.pdtree_constraints",
    "Verif.Props.pdtree_realises_index"
   ],
   "note": "Any history of insertions, deletions and (also abandoned) searches; the tree, its lazily recomputed size and age constraints and the backtracking search are modelled step by step. Shown in addition: the search ends, restores the substitution, and hands out every matching entry twice. First-order terms; deletion only of terms that have a node in the tree; the order of variable alternatives is that of insertion. pdtree_realises_index discharges the assumption about the index made for C20."
  },
  {
   "property": "C30",
   "status": "proved",
   "theorems": [
    "Verif.Props.fp_find_unifiable",
    "Verif.Props.fp_find_matchable",
    "Verif.Props.fp_find_stored",
    "Verif.Props.fp_find_leaf"
   ],
   "note": "All sixteen fingerprint functions incl. discrimination tree keys and the static state of fp; any history of insertions, deletions and queries. First-order terms; for fp it is assumed that the predicate-position property depends on the head symbol."
  },
  {
   "property": "C31",
   "status": "proved",
   "theorems": [
    "Verif.Props.features_monotone",
    "Verif.Props.features_monotone_instance",
    "Verif.Props.features_order",
    "Verif.Props.features_inside",
    "Verif.Props.acFold_ok",
    "Verif.Props.acStagger_ok",
    "Verif.Props.classical_ok",
    "Verif.Props.bill_ok",
    "Verif.Props.permVector_ok",
    "Verif.Props.permCompute_ok",
    "Verif.Props.fv_static_clear",
    "Verif.Props.fv_insert_total",
    "Verif.Props.fv_delete_total",
    "Verif.Props.fv_forward_sound",
    "Verif.Props.fv_forward_visits",
    "Verif.Props.fv_forward_exact",
    "Verif.Props.fv_backward_exact",
    "Verif.Props.fv_first_subsumed",
    "Verif.Props.fv_variant_exact",
    "Verif.Props.features_trivial_literal",
    "Verif.Props.fv_delete_absent",
    "Verif.Props.def_store_perm_out_of_range"
   ],
   "note": "All kinds of feature vectors with their set-up, the static array, and any history of insertions, deletions and rearrangements of stored clauses. For subsumption as decided by the code, clauses with a positive literal with identical sides are excluded (witness); for subsumption in the sense of a mapping of literals there is no condition. Further witnesses: deleting an absent clause, and the permutation vector of the definition store."
  },
  {
   "property": "C32",
   "status": "proved",
   "theorems": [
    "Verif.Props.splay_refines_map",
    "Verif.Props.map_keys_distinct",
    "Verif.Props.extractRoot_correct",
    "Verif.Props.findSmallest_correct",
    "Verif.Props.merge_correct",
    "Verif.Props.traverse_correct"
   ],
   "note": "Every history of insert, find, extract and delete operations gives the answers of a finite map, for any transitive key comparison (key overflow of long subtraction not modelled)."
  },
  {
   "property": "C33",
   "status": "proved",
   "theorems": [
    "Verif.Props.heap_invariant",
    "Verif.Props.popMin_least",
    "Verif.Props.recorded_position",
    "Verif.Props.decrKey_wrong_direction"
   ],
   "note": "For every history of additions, removals and key updates reported to the heap; positions recorded by the setter are right. MinHeapDecrKey and MinHeapIncrKey repair in the wrong direction (witness; both unused)."
  },
  {
   "property": "C34",
   "status": "proved",
   "theorems": [
    "Verif.Props.intMap_get",
    "Verif.Props.intMap_del",
    "Verif.Props.intMap_assign_total",
    "Verif.Props.intMap_get_assign",
    "Verif.Props.intMap_iter",
    "Verif.Props.intMap_invariant",
    "Verif.Props.rangeArr_get",
    "Verif.Props.rangeArr_inside",
    "Verif.Props.second_key_array",
    "Verif.Props.second_key_tree",
    "Verif.Props.lookup_enlarges"
   ],
   "note": "For every history of lookups, references, assignments, deletions and iteration steps, in all four representations; conversions terminate. Witnesses: the density test for a second, greater key always chooses an array; lookups below an array enlarge it."
  },
  {
   "property": "C35",
   "status": "proved",
   "theorems": [
    "Verif.Props.hcb_turns",
    "Verif.Props.hcb_in_range",
    "Verif.Props.hcb_ratio",
    "Verif.Props.hcb_pick_best",
    "Verif.Props.hcb_fair"
   ],
   "note": "Any history of insertions, removals and selections, on the splay trees of C32; infinite runs for fairness. Which clauses are orphaned is arbitrary at each time; heuristic values are in a linear order (no NaN); a clause gets a new evaluation cell each time it enters the set."
  },
  {
   "property": "C36",
   "status": "proved",
   "theorems": [
    "Verif.Props.saturation_sound",
    "Verif.Props.saturation_refutes"
   ],
   "note": "All interleavings of the steps of the saturation loop with all parameters of the modelled rules (a superset of all strategies). Not in the transition system: splitting (C28), higher-order rules, ClauseLocalRW, super-simultaneous paramodulation without index (refuted in C19), preprocessing."
  },
  {
   "property": "C37",
   "status": "partial",
   "theorems": [
    "Verif.Props.simplification_equivalent_partial",
    "Verif.Props.simplification_equivalent_direct",
    "Verif.Props.simplification_step"
   ],
   "note": "Without deletions for resource reasons the clauses not subject to orphan deletion, together with the former demodulators and AC axioms that rewrite links may still refer to, are equivalent to the input at every reachable state; without these former clauses if simplification only refers to processed clauses. Missing: that the former demodulators remain redundant."
  },
  {
   "property": "C38",
   "status": "proved",
   "theorems": [
    "Verif.Props.status_satisfiable",
    "Verif.Props.status_satisfiable_complete",
    "Verif.Props.status_satisfiable_equivalent",
    "Verif.Props.status_refuted",
    "Verif.Props.status_refuted_sound",
    "Verif.Props.status_kind",
    "Verif.Props.status_answer",
    "Verif.Props.status_once",
    "Verif.Props.status_exit",
    "Verif.Props.conjecture_found",
    "Verif.Props.conjecture_terminates",
    "Verif.Props.assume_completeness_ineffective"
   ],
   "note": "All option settings and end states of the decision part of main, on top of the saturation runs of C36/C37 and the marking of proof steps. Signals, error exits and scheduling parents (C45) are outside. Exit code 0 is also used for status Unknown (parsing, pruning or clausification only)."
  },
  {
   "property": "C39",
   "status": "proved",
   "theorems": [
    "Verif.Props.sched_search_slices",
    "Verif.Props.sched_search_positive",
    "Verif.Props.sched_exceeded_undefined",
    "Verif.Props.sched_preproc_cores",
    "Verif.Props.sched_preproc_serial",
    "Verif.Props.sched_single_slices"
   ],
   "note": "Exact rational arithmetic for float/double. In addition: distribution of cores to preprocessing schedules, serialised ones (which exceed the limit by less than a second per strategy). If more than a second beyond the limit is used already, the conversion to an unsigned number is undefined."
  },
  {
   "property": "C40",
   "status": "proved",
   "theorems": [
    "Verif.Props.ac_equal_exact",
    "Verif.Props.ac_equal_complete",
    "Verif.Props.detect_comm_exact",
    "Verif.Props.detect_assoc_exact",
    "Verif.Props.scan_marks_exact",
    "Verif.Props.scanned_binary",
    "Verif.Props.ac_equal_valid"
   ],
   "note": "Well-typed first-order terms; arguments are sorted in the splay tree of C32, with arbitrary addresses of the cells. In addition: detection of the axioms is exact, and terms equal modulo AC have the same value in all models of the clauses scanned."
  },
  {
   "property": "C41",
   "status": "partial",
   "theorems": [
    "Verif.Props.eqRes_general",
    "Verif.Props.orderedFactor_general",
    "Verif.Props.plainParamod_general",
    "Verif.Props.equalityFactor_not_general"
   ],
   "note": "Most general conclusions for equality resolution, ordered factoring and plain paramodulation; refuted for equality factoring (variable capture). Simultaneous variants not covered."
  },
  {
   "property": "C42",
   "status": "partial",
   "theorems": [
    "Verif.Props.bw_search_exact_partial",
    "Verif.Props.bw_search_sound",
    "Verif.Props.bw_search_misses_deep_subterms"
   ],
   "note": "The search is characterised exactly after any history: it returns the stored clauses with a redex at a literal side or an immediate argument. Witness that the full claim is false: deeper subterms are never indexed, because the recursive call passes true for lambda_demod (ccl_subterm_index.c:81)."
  },
  {
   "property": "C43",
   "status": "proved",
   "theorems": [
    "Verif.Props.cpos_round_trip",
    "Verif.Props.overlap_complete",
    "Verif.Props.overlap_sound"
   ],
   "note": "The three indices for paramodulation (from, into, negated atoms), any history, all fingerprint functions. First-order clauses; a clause is removed with the literals it was inserted with."
  },
  {
   "property": "C44",
   "status": "partial",
   "theorems": [
    "Verif.Props.hcb_delete_keeps",
    "Verif.Props.hcb_delete_best_partial",
    "Verif.Props.hcb_delete_ignores_ratio",
    "Verif.Props.HCBEx.hcb_delete_witness"
   ],
   "note": "The number kept is exact, and each function has an equal share in the choice. The declared ratio is refuted: it is not used, because the bound of the inner loop is looked up with the wrong index (che_hcb.c:989)."
  },
  {
   "property": "C45",
   "status": "proved",
   "theorems": [
    "Verif.Props.sched_exec_cores",
    "Verif.Props.sched_exec_result",
    "Verif.Props.sched_exec_exhausted",
    "Verif.Props.sched_exec_found",
    "Verif.Props.sched_exec_progress",
    "Verif.Props.sched_exec_stuck",
    "Verif.Props.sched_preproc_all_start"
   ],
   "note": "Any order of terminations. Progress requires that no strategy needs more cores than there are (sched_exec_stuck refutes it otherwise); preprocessing schedules meet this (sched_preproc_all_start). Signals and time limits of the processes are not modelled."
  },
  {
   "property": "C46",
   "status": "partial",
   "theorems": [
    "Verif.Props.sched_filtered_names",
    "Verif.Props.sched_filtered_shares_partial",
    "Verif.Props.sched_filtered_last",
    "Verif.Props.sched_placeholder_sum"
   ],
   "note": "The strategies are exact, the shares are equal except for the last one, which keeps its old share; the shares may sum up to more than 1 (sched_filtered_last)."
  },
  {
   "property": "C47",
   "status": "proved",
   "theorems": [
    "Verif.Props.satcheck_encoding",
    "Verif.Props.satcheck_unsat",
    "Verif.Props.satcheck_pure",
    "Verif.Props.satcheck_ground_typed"
   ],
   "note": "The SAT solver itself is trusted: its answer is the premise. Grounding is any well-typed substitution under which no literal becomes an equation between encoded atoms (NoEqAtom)."
  },
  {
   "property": "C48",
   "status": "partial",
   "theorems": [
    "Verif.Props.satcheck_choice_mem",
    "Verif.Props.satcheck_choice_global",
    "Verif.Props.satcheck_choice_conj_partial",
    "Verif.Props.satcheck_choice_conj_wrong"
   ],
   "note": "Proved for the strategies by global frequency; the strategies by conjecture frequency compare with an assignment, so ties are decided wrongly (satcheck_choice_conj_wrong)."
  },
  {
   "property": "C49",
   "status": "proved",
   "theorems": [
    "Verif.Props.diseq_sound"
   ],
   "note": "First-order types."
  },
  {
   "property": "C50",
   "status": "partial",
   "theorems": [
    "Verif.Props.derivation_total",
    "Verif.Props.derivation_steps_partial",
    "Verif.Props.derivation_order_partial",
    "Verif.Props.derivation_axioms_partial",
    "Verif.Props.derivation_numbers",
    "Verif.Props.derivation_names",
    "Verif.Props.derivation_repeated_root"
   ],
   "note": "All recorded derivations and all lists of roots that stand for different clauses. Refuted for a root listed twice (derivation_repeated_root), which happens with --answers and --full-deriv. The printing of the inference expressions is not modelled."
  },
  {
   "property": "C51",
   "status": "proved",
   "theorems": [
    "Verif.Props.cnf_simplify",
    "Verif.Props.cnf_nnf",
    "Verif.Props.cnf_miniscope",
    "Verif.Props.cnf_rename",
    "Verif.Props.cnf_prenex",
    "Verif.Props.cnf_distribute",
    "Verif.Props.cnf_steps_terminate"
   ],
   "note": "All formulas and all interpretations, free variables included. Which formulas are miniscoped and which vacuous quantifiers are dropped (size limits) is left open. First-order formulas; formulas inside terms (FOOL, higher-order) are not modelled."
  },
  {
   "property": "C52",
   "status": "proved",
   "theorems": [
    "Verif.Props.skolem_preserves",
    "Verif.Props.skolem_codes"
   ],
   "note": "All formulas in negation normal form with distinct quantified variables, as established by C51. The new symbols must be declared with the types of their arguments, as TermAllocNewSkolem does."
  },
  {
   "property": "C53",
   "status": "proved",
   "theorems": [
    "Verif.Props.cnf_models",
    "Verif.Props.cnf_satisfiable",
    "Verif.Props.cnf_wellformed",
    "Verif.Props.cnf_terminates"
   ],
   "note": "All lists of well-typed formulas and clauses. Without introduction of definitions."
  },
  {
   "property": "C54",
   "status": "proved",
   "theorems": [
    "Verif.Props.defs_models",
    "Verif.Props.defs_satisfiable",
    "Verif.Props.defs_wellformed",
    "Verif.Props.defs_disabled"
   ],
   "note": "All lists of simplified formulas and clauses, all limits. One-sided definitions where a subformula occurs with one polarity only. The order of free variables in a new atom is that of occurrence instead of that of addresses."
  },
  {
   "property": "C55",
   "status": "proved",
   "theorems": [
    "Verif.Props.problem_answers",
    "Verif.Props.problem_plain",
    "Verif.Props.problem_wellformed",
    "Verif.Props.problem_terminates",
    "Verif.Props.problem_proof",
    "Verif.Props.problem_proof_plain",
    "Verif.Props.ProblemEx.problem_sign_ignored"
   ],
   "note": "All first-order problems as left by the parser. Clausal preprocessing is added in C56. The code also accepts negative answer literals as a proof; these occur only if the input contains $answer (problem_sign_ignored)."
  },
  {
   "property": "C56",
   "status": "proved",
   "theorems": [
    "Verif.Props.preproc_models",
    "Verif.Props.preproc_satisfiable",
    "Verif.Props.preproc_wellformed",
    "Verif.Props.unfold_removes",
    "Verif.Props.preproc_goal",
    "Verif.Props.preproc_proof"
   ],
   "note": "All clause sets and options of the first-order steps that are on by default, and the replacement of injectivity axioms. The tautology test is that of C23; sort orders and the test for duplicate inverse axioms are arbitrary. Watchlists are not modelled."
  },
  {
   "property": "C57",
   "status": "proved",
   "theorems": [
    "Verif.Props.bce_converts",
    "Verif.Props.bce_satisfiable",
    "Verif.Props.bce_refutation",
    "Verif.Props.bce_terminates",
    "Verif.Props.bce_complete",
    "Verif.Props.bce_complete_eq",
    "Verif.Props.bce_pure",
    "Verif.Props.bce_loses_answer"
   ],
   "note": "All sets of first-order clauses without the literals $true and ~$true, all limits, all orders of the tasks. With equality the result is stronger (models are changed on predicates only). bce_loses_answer shows that clauses with $answer are removed as well, so with this option answers are lost."
  },
  {
   "property": "C58",
   "status": "proved",
   "theorems": [
    "Verif.Props.goaldefs_conservative",
    "Verif.Props.goaldefs_consequences",
    "Verif.Props.goaldefs_wellformed",
    "Verif.Props.goaldefs_named",
    "Verif.Props.goaldefs_named_max",
    "Verif.Props.goaldefs_nothing",
    "Verif.Props.GoalDefsEx.goaldefs_double_name",
    "Verif.Props.GoalDefsEx.goaldefs_ground_atom"
   ],
   "note": "All clause sets, all orders in which the terms are visited, all settings of the options. The last two theorems record where the code does not do what its comments say: a name may be named again, and without subterms the maximal ground terms below a ground atom are not collected."
  },
  {
   "property": "C59",
   "status": "partial",
   "theorems": [
    "Verif.Props.pe_sound",
    "Verif.Props.pe_wellformed",
    "Verif.Props.pe_satisfiable",
    "Verif.Props.pe_converts",
    "Verif.Props.pe_bank",
    "Verif.Props.pe_gates_satisfiable_partial",
    "Verif.Props.pe_gates_wrong",
    "Verif.Props.pe_loses_answer"
   ],
   "note": "Without gates (the default) everything is proved, for all clause sets, settings, orders and both variants of the resolvents. With gates the claim is false: check_tautologies increments the wrong loop variable, and pe_gates_wrong is an unsatisfiable clause set from which all clauses are removed. pe_gates_satisfiable_partial holds for clause sets in which the clauses of possible gates do not contradict each other, or there is at most one per sign. pe_loses_answer: answer literals are eliminated as well."
  },
  {
   "property": "C60",
   "status": "partial",
   "theorems": [
    "Verif.Props.weights_admissible_partial",
    "Verif.Props.weights_order_partial",
    "Verif.Props.generated_precedence",
    "Verif.Props.arity_weights",
    "Verif.Props.precedence_weights",
    "Verif.Props.frequency_weights",
    "Verif.Props.conjecture_weights",
    "Verif.Props.maximal_constant",
    "Verif.Props.WeightEx.default_not_stable",
    "Verif.Props.WeightEx.unused_constant"
   ],
   "note": "All first-order methods, all signatures, total precedences and parameters. False in three cases, which the theorems exclude: a method that gives weight 0 to the maximal symbol does so for a constant (maximal_constant, default_not_stable; an assertion catches it in debug builds only); methods that rank by frequency give weight 0 to constants that do not occur, which with force_kbo_var_weight makes variables weigh 0 (unused_constant); constants created later weigh 1, less than variables under WModArity (kgt_subst_fails_for_new_constants, C09)."
  },
  {
   "property": "C61",
   "status": "partial",
   "theorems": [
    "Verif.Props.saturated_model_partial",
    "Verif.Props.horn_saturated_model",
    "Verif.Props.unsat_saturated_partial",
    "Verif.Props.unsat_horn_saturated",
    "Verif.Props.kbo_supOrd",
    "Verif.Props.weights_supOrd_partial",
    "Verif.Props.lpo_supOrd",
    "Verif.Props.red_mem",
    "Verif.Props.red_taut",
    "Verif.Props.red_subsumed",
    "Verif.Props.red_trans"
   ],
   "note": "Complete for Horn clauses (horn_saturated_model, unsat_horn_saturated), with equality, literal selection, all types of paramodulation, KBO6 and LPO. For other clauses saturated_model_partial assumes that every variable of a positive literal, not the only one, occurs in another literal: ComputeEqualityFactor does not normalise the variables of the second literal and so computes conclusions that are not most general (equalityFactor_not_general, C41)."
  },
  {
   "property": "C62",
   "status": "partial",
   "theorems": [
    "Verif.Props.loop_complete_partial",
    "Verif.Props.loop_complete_horn_partial",
    "Verif.Props.loop_refutes_partial",
    "Verif.Props.loop_keeps_input",
    "Verif.Props.kbo_redOrd",
    "Verif.Props.lpo_redOrd"
   ],
   "note": "Every run of the loop model that ends without the empty clause and without discarding clauses shows that the input is satisfiable; forward and backward simplification, subsumption, condensation, simplify-reflect, tautology deletion, variable normalisation, orphan deletion and resets are covered. Missing: destructive equality resolution, deletion by AC redundancy, rewriting a whole side of a positive literal with an equation that is greater than the clause (encompassment demodulation), links to demodulators that no longer follow from the processed clauses, and the clauses excluded in C61 (none for Horn problems)."
  },
  {
   "property": "C63",
   "status": "partial",
   "theorems": [
    "Verif.Props.shift_spec",
    "Verif.Props.replaceBound_spec",
    "Verif.Props.whnf_beta",
    "Verif.Props.whnf_progress",
    "Verif.Props.beta_flag_exact",
    "Verif.Props.betaNorm_correct",
    "Verif.Props.betaNorm_terminates",
    "Verif.Props.betaNorm_untyped_diverges",
    "Verif.Props.betaNorm_canonical",
    "Verif.Props.betaNormalize_spec",
    "Verif.Props.betaNormalize_terminates",
    "Verif.Props.betaNormalize_not_canonical",
    "Verif.Props.betaNormalize_canonical_partial"
   ],
   "note": "Normalisation ends on typed terms (strong normalisation and confluence of the calculus are proved), gives the beta normal form with the same type, and terms get the same normal form exactly if they are beta-equal. Partial because the exported function unwraps s = $true only if the term had a redex, so that beta-equal equations may get different results (witness proved)."
  },
  {
   "property": "C64",
   "status": "partial",
   "theorems": [
    "Verif.Props.etaReduce_sound",
    "Verif.Props.etaReduce_normal",
    "Verif.Props.etaExpand_correct",
    "Verif.Props.eta_flag_exact",
    "Verif.Props.eta_keeps_beta_normal",
    "Verif.Props.lambdaNormalize_nf",
    "Verif.Props.lambdaNormalize_canonical_partial",
    "Verif.Props.lambdaNormalize_terminates",
    "Verif.Props.etaExpand_typed",
    "Verif.Props.lambdaNormalize_long",
    "Verif.Props.lambdaNormalize_long_canonical",
    "Verif.Props.etaReduce_quantifier_not_canonical"
   ],
   "note": "Eta reduction gives the eta normal form, eta expansion the eta-long form; both keep types and beta normal forms. Typed terms without quantifiers and equations get the same normal form exactly if they are equal modulo beta and eta (uniqueness of beta-eta normal forms of typed terms is proved); with expansion the same holds for terms with quantifiers too (eta-long beta-normal terms of one type are determined by their eta reduct). Partial because with quantifiers eta reduction violates this: the argument of a quantifier is expanded only if the term contains an abstraction somewhere (witness proved)."
  },
  {
   "property": "C65",
   "status": "proved",
   "theorems": [
    "Verif.Props.toDB_value",
    "Verif.Props.toDB_restores",
    "Verif.Props.toDB_typed",
    "Verif.Props.toDB_alpha",
    "Verif.Props.namedToDB_spec",
    "Verif.Props.namedToDB_terminates",
    "Verif.Props.namedToDB_alpha",
    "Verif.Props.abstractVars_value",
    "Verif.Props.abstractVars_typed"
   ],
   "note": "Named terms and nameless terms are interpreted in arbitrary interpretations; conversion keeps all values, restores the bindings of the variables, and identifies exactly the terms that are equal in all interpretations (equality up to names of bound variables). Abstraction over variables gives the function of these variables. Type checks and quantifier cells with named variables are not modelled."
  },
  {
   "property": "C66",
   "status": "partial",
   "theorems": [
    "Verif.Props.symbol_codes_partial",
    "Verif.Props.symbol_quoted_arity_new_code",
    "Verif.Props.symbol_key_collision",
    "Verif.Props.symbol_quoted_true",
    "Verif.Props.symbol_escape_lost"
   ],
   "note": "Proved for all lists of names of the usual forms: lower case words, dollar words, quoted names with one arity, distinct objects. False in general, with witnesses: a quoted name used with a second arity gets a new code at every occurrence, a quoted name may collide with the key of a second arity, quoted dollar words are identified with the dollar words, and escape sequences lose characters."
  },
  {
   "property": "C67",
   "status": "partial",
   "theorems": [
    "Verif.Props.clause_read_back_partial",
    "Verif.Props.clause_read_back_models",
    "Verif.Props.clause_conjecture_rejected"
   ],
   "note": "Scanner and parser read every printed clause back up to names of variables and codes, for all clauses over symbols that C66 covers and all roles except conjecture, which is printed but not accepted. Literals t!=t are printed as $false; asRead says so, and the models are the same."
  },
  {
   "property": "C68",
   "status": "proved",
   "theorems": [
    "Verif.Props.form_read_back",
    "Verif.Props.form_read_back_valid"
   ],
   "note": "Scanner and parser read every printed first-order formula back: same connectives, quantifiers and literals, bound variables renamed injectively, symbols with the same name and arity; same truth value in all interpretations. Symbols as in C66; typed problems, $let, $ite, numbers and lambda terms are not modelled."
  },
  {
   "property": "C69",
   "status": "partial",
   "theorems": [
    "Verif.Props.verdict_refuted",
    "Verif.Props.verdict_answered",
    "Verif.Props.verdict_theorem",
    "Verif.Props.verdict_unsatisfiable",
    "Verif.Props.verdict_saturated_partial"
   ],
   "note": "Composition of clausification, preprocessing, saturation and report: Theorem, Unsatisfiable and ContradictoryAxioms are only reported if the axioms imply one of the goals; Satisfiable and CounterSatisfiable only if there is a model of the axioms in which no goal is true. Partial: the second part inherits what is missing in C61 and C62, and ContradictoryAxioms is shown to imply that the goal follows, not that the axioms alone are contradictory. Parsing is covered by C67/C68 separately."
  },
  {
   "property": "C70",
   "status": "partial",
   "theorems": [
    "Verif.Props.sine_total",
    "Verif.Props.generality_counts",
    "Verif.Props.filed_triggers",
    "Verif.Props.sine_sound",
    "Verif.Props.sine_complete",
    "Verif.Props.sine_exact",
    "Verif.Props.sine_seeds",
    "Verif.Props.sine_order",
    "Verif.Props.sine_size_partial",
    "Verif.Props.sine_pruned",
    "Verif.Props.verdict_refuted_pruned",
    "Verif.Props.verdict_saturated_pruned_partial",
    "Verif.Props.sine_limit_exceeded",
    "Verif.Props.sine_listed_twice",
    "Verif.Props.sine_last_internal_lost"
   ],
   "note": "Without a size limit the selected axioms are exactly those at trigger distance at most max_recursion_depth from the conjectures; with a limit a set closed under smaller distance. The number reported as pruned is the number of axioms gone; refutations of the pruned problem hold of the whole one, and Satisfiable is only reported if nothing was pruned. Partial because the code disagrees in three places, with witnesses: the limit is exceeded by one, a conjecture that no symbol triggers is listed twice, an axiom filed under the last internal symbol ($distinct) is never selected."
  },
  {
   "property": "C71",
   "status": "proved",
   "theorems": [
    "Verif.Props.relevancy_total",
    "Verif.Props.relevancy_kept",
    "Verif.Props.relevancy_pruned",
    "Verif.Props.pruned_subset"
   ],
   "note": "Relevance pruning keeps exactly the axioms at distance below the level in the graph of shared symbols, and everything if there is no axiom at distance level-1; the number reported is the number of axioms gone."
  },
  {
   "property": "C72",
   "status": "proved",
   "theorems": [
    "Verif.Props.pqueue_run",
    "Verif.Props.pqueue_observers"
   ],
   "note": "Refinement of the ring buffer with growth to a list for every sequence of operations, and the observers."
  },
  {
   "property": "C73",
   "status": "partial",
   "theorems": [
    "Verif.Props.selection_negative_partial",
    "Verif.Props.selection_one_negative",
    "Verif.Props.getLitSelFun_correct",
    "Verif.Props.selection_eligible_partial",
    "Verif.Props.selectLargest_picks",
    "Verif.Props.selectOptimal_picks",
    "Verif.Props.selectComplex_picks",
    "Verif.Props.selectMinInfpos_picks",
    "Verif.Props.generic_picks",
    "Verif.Props.simple_selects",
    "Verif.Props.selectOptimal_selects",
    "Verif.Props.selectComplex_selects",
    "Verif.Props.selectNewComplex_selects",
    "Verif.Props.selectMaxLComplex_selects",
    "Verif.Props.orientable_selects",
    "Verif.Props.unless_selects",
    "Verif.Props.exceptHorn_selects",
    "Verif.Props.unlessPDom_selects",
    "Verif.Props.selectVGNonCR_selects",
    "Verif.Props.pureVar_blocks",
    "Verif.Props.vgNonCR_marks",
    "Verif.Props.preferNEQ_misses",
    "Verif.Props.condOptimal_inverted"
   ],
   "note": "All 144 strategies of the table, for every ordering and all literal weights. Partial because the code disagrees, with witnesses: PSelectPureVarNegLiterals selects positive literals only, so a clause takes part in no inference; SelectVGNonCR leaves stale marks; SelectComplexPreferNEQ/EQ leave the loop too early; SelectCondOptimalLit has exchanged arguments."
  },
  {
   "property": "C74",
   "status": "proved",
   "theorems": [
    "Verif.Props.answers_hold",
    "Verif.Props.answers_correct",
    "Verif.Props.answers_printed"
   ],
   "note": "From the question to the printed tuple: annotation, clausification, every sequence of saturation steps, print. Answer clauses whose terms are those made for questions; other terms under $answer can arise by rewriting and are printed with whatever arguments they have (DESIGN.md)."
  },
  {
   "property": "C75",
   "status": "partial",
   "theorems": [
    "Verif.Props.expandDistinct_correct",
    "Verif.Props.distinct_models",
    "Verif.Props.distinct_follows_partial",
    "Verif.Props.distinct_wellformed",
    "Verif.Props.DistinctEx.distinct_conjecture_asserted"
   ],
   "note": "Proved for all inputs in which $distinct is used in axioms. The code drops the type of the formula, so that a conjecture $distinct(...) is asserted instead of negated (distinct_conjecture_asserted)."
  },
  {
   "property": "C76",
   "status": "proved",
   "theorems": [
    "Verif.Props.overlaps_exact",
    "Verif.Props.positions_exact",
    "Verif.Props.overlaps_both",
    "Verif.Props.OverlapIterEx.variable_top_lost"
   ],
   "note": "All pairs of clauses, first-order case. Overlaps of variables into tops of positive literals are tried in one direction only (variable_top_lost)."
  },
  {
   "property": "C77",
   "status": "partial",
   "theorems": [
    "Verif.Props.eground_dimacs_partial",
    "Verif.Props.eground_header",
    "Verif.Props.eground_refuses",
    "Verif.Props.GroundingEx.eground_file_wrong",
    "Verif.Props.GroundingEx.giveUp_ineffective"
   ],
   "note": "All near-propositional clause sets of atoms and all options, without splitting. Missing: output to a file, which the code gets wrong (eground_file_wrong); --give-up without --constraints has no effect (giveUp_ineffective)."
  },
  {
   "property": "C78",
   "status": "partial",
   "theorems": [
    "Verif.Props.csscpa_lossless",
    "Verif.Props.csscpa_accept_equiv",
    "Verif.Props.csscpa_contradiction",
    "Verif.Props.csscpa_counters",
    "Verif.Props.csscpa_decision",
    "Verif.Props.csscpa_reduced_partial",
    "Verif.Props.CsscpaEx.shared_variables",
    "Verif.Props.CsscpaEx.improvement_hides_contradiction",
    "Verif.Props.CsscpaEx.unsorted_subsumption_missed"
   ],
   "note": "All sequences of commands, all tests for improvement, all environments. Missing: the clauses kept may subsume each other, because the program does not sort literals (witness); contradicting units can go unreported (two witnesses)."
  },
  {
   "property": "C79",
   "status": "partial",
   "theorems": [
    "Verif.Props.extract_exact",
    "Verif.Props.extract_closed",
    "Verif.Props.extract_total",
    "Verif.Props.extract_error_iff",
    "Verif.Props.extract_fast_frame",
    "Verif.Props.extract_full_frame_partial",
    "Verif.Props.extract_fast_partial",
    "Verif.Props.PclEx.frame_without_refutation",
    "Verif.Props.PclEx.gap_loses_step"
   ],
   "note": "All protocols, including circular ones. Missing because the code violates it: the full extraction announces CNFRefutation if the protocol has an empty clause anywhere (witness), and the fast extraction loses steps at a gap in the numbering (witness)."
  },
  {
   "property": "C80",
   "status": "partial",
   "theorems": [
    "Verif.Props.checkproof_step_sound",
    "Verif.Props.checkproof_verified_partial",
    "Verif.Props.checkproof_partially_partial",
    "Verif.Props.checkproof_complete",
    "Verif.Props.PclEx.circular_verified",
    "Verif.Props.PclEx.formula_parent_verified"
   ],
   "note": "All protocols, all sound (or complete) external provers. Missing because the code violates it: circular protocols are verified (witness), steps that refer only to full formulas are counted as checked (witness). The text exchanged with the external prover is not modelled."
  },
  {
   "property": "C81",
   "status": "partial",
   "theorems": [
    "Verif.Props.fool_expand_sound",
    "Verif.Props.fool_unroll_total",
    "Verif.Props.fool_unroll_flat",
    "Verif.Props.fool_unroll_sound_partial",
    "Verif.Props.ite_lift_total",
    "Verif.Props.ite_lift_removes",
    "Verif.Props.ite_lift_sound_partial",
    "Verif.Props.FoolEx.lift_scope",
    "Verif.Props.FoolEx.unroll_scope"
   ],
   "note": "All well-typed formulas without lambda terms and $let, all interpretations. Missing because the code violates it: an $ite below a quantifier inside a literal is taken out of the scope of the quantifier, and so is the body of a quantified formula equated to a Boolean variable (witnesses)."
  },
  {
   "property": "C82",
   "status": "partial",
   "theorems": [
    "Verif.Props.command_line_total",
    "Verif.Props.command_line_exact",
    "Verif.Props.command_line_rejects",
    "Verif.Props.command_line_unique",
    "Verif.Props.command_line_insert",
    "Verif.Props.int_arg_exact_partial",
    "Verif.Props.int_arg_range_partial",
    "Verif.Props.help_lines_total",
    "Verif.Props.help_lines_complete",
    "Verif.Props.CmdLineEx.empty_number"
   ],
   "note": "All option tables and command lines. Missing because the code violates it: an empty numerical argument is accepted as 0 (witness). Floating point arguments are not modelled."
  },
  {
   "property": "C83",
   "status": "proved",
   "theorems": [
    "Verif.Props.let_lift_total",
    "Verif.Props.let_lift_removes",
    "Verif.Props.let_lift_sound",
    "Verif.Props.let_lift_conservative",
    "Verif.Props.let_lift_satisfiable",
    "Verif.Props.LetEx.dup_definition"
   ],
   "note": "All lists of well-formed closed formulas with nested and simultaneous local definitions, all interpretations; local symbols fully applied, no variable or local symbol redeclared in its scope. A symbol defined twice in one $let is not rejected by the code and makes the result unsound (witness)."
  },
  {
   "property": "C84",
   "status": "proved",
   "theorems": [
    "Verif.Props.watchlist_check_exact",
    "Verif.Props.watchlist_check_mark",
    "Verif.Props.watchlist_index_agrees",
    "Verif.Props.watchlist_sound",
    "Verif.Props.watchlist_empty",
    "Verif.Props.watchlist_marked",
    "Verif.Props.watchlist_static",
    "Verif.Props.WatchEx.watchlist_initially_empty"
   ],
   "note": "All runs of the modelled saturation loop with tests and simplification of the watch list at any time, for all inputs and lists of well-typed clauses. An initially empty list is reported as emptied (witness)."
  },
  {
   "property": "C85",
   "status": "partial",
   "theorems": [
    "Verif.Props.type_unique",
    "Verif.Props.type_arrow",
    "Verif.Props.type_application",
    "Verif.Props.type_drop",
    "Verif.Props.type_choice",
    "Verif.Props.type_parse",
    "Verif.Props.type_print_parse",
    "Verif.Props.type_print_parse_fo",
    "Verif.Props.type_read_arity",
    "Verif.Props.type_sharing",
    "Verif.Props.SimpleTypesEx.type_product_read",
    "Verif.Props.SimpleTypesEx.type_parens_left"
   ],
   "note": "All well-formed types, tables of names and type expressions. Partial because the code violates the claim: in first-order problems `a * b` is read as `a > b`, and the outer parenthesis of `((a > b))` is not read (witnesses)."
  },
  {
   "property": "C86",
   "status": "partial",
   "theorems": [
    "Verif.Props.include_library_dir",
    "Verif.Props.include_open",
    "Verif.Props.include_missing",
    "Verif.Props.include_exact",
    "Verif.Props.include_members",
    "Verif.Props.include_terminates",
    "Verif.Props.include_fails",
    "Verif.Props.problem_syntax",
    "Verif.Props.problem_exact",
    "Verif.Props.IncludeEx.included_rest_dropped",
    "Verif.Props.IncludeEx.include_cycle"
   ],
   "note": "All file systems, directories, selections and nestings of includes. Partial because the code violates the claim: the rest of an included file that is not well-formed is dropped without a message (witness); the exactness theorems assume that no file read contains such a token."
  },
  {
   "property": "C87",
   "status": "proved",
   "theorems": [
    "Verif.Props.sorts_sound",
    "Verif.Props.sorts_refused",
    "Verif.Props.sorts_default",
    "Verif.Props.sorts_complete",
    "Verif.Props.sorts_iff",
    "Verif.Props.sorts_order",
    "Verif.Props.SortsEx.late_declaration"
   ],
   "note": "All first-order problems of declarations and literals (names may be overloaded by arity), all default sorts. Formulas as arguments, $let, $ite, lists and polymorphic symbols are not modelled; declarations after the first use are covered by soundness, and late_declaration shows that they are refused."
  },
  {
   "property": "C88",
   "status": "proved",
   "theorems": [
    "Verif.Props.argument_congruence_sound",
    "Verif.Props.positive_extensionality_sound",
    "Verif.Props.flex_clause_sound",
    "Verif.Props.negative_extensionality_sound",
    "Verif.Props.argument_congruence_all",
    "Verif.Props.positive_extensionality_all",
    "Verif.Props.negative_extensionality_all"
   ],
   "note": "All typed clauses without abstractions and all extensional models (flex clauses: with constant functions; negative extensionality: with full function spaces). The lambda normalisation of the results is not part of the model (C63, C64)."
  },
  {
   "property": "C89",
   "status": "proved",
   "theorems": [
    "Verif.Props.disagreements_suffice",
    "Verif.Props.disagreements_found_iff",
    "Verif.Props.ext_equality_resolution_sound",
    "Verif.Props.ext_equality_factoring_sound",
    "Verif.Props.ext_superposition_sound",
    "Verif.Props.ExtInferEx.factoring_misses_right_sides"
   ],
   "note": "All typed clauses without abstractions and polymorphic symbols, all models. The renaming of variables before superposition, the removal of duplicate literals and the lambda normalisation of the results are not part of the model. factoring_misses_right_sides: a right side is not considered for factoring if the left side is not eligible (a lost inference, not an unsound one)."
  },
  {
   "property": "C90",
   "status": "proved",
   "theorems": [
    "Verif.Props.normalize_equations_equiv",
    "Verif.Props.normalize_equations_typed",
    "Verif.Props.normalize_equations_marks",
    "Verif.Props.normalize_equations_done",
    "Verif.Props.normalize_equations_smaller",
    "Verif.Props.NormEqsEx.one_step_not_enough"
   ],
   "note": "All well-typed literals; terms other than truth values, negations and equations are opaque. The removal of superfluous literals afterwards is not part of the model. One pass is not always enough (one_step_not_enough)."
  },
  {
   "property": "C91",
   "status": "partial",
   "theorems": [
    "Verif.Props.pcl_id_order_partial",
    "Verif.Props.pcl_id_parse_iff",
    "Verif.Props.pcl_id_names_unique",
    "Verif.Props.pcl_id_padded",
    "Verif.Props.PclIdEx.compare_cut",
    "Verif.Props.PclIdEx.not_order"
   ],
   "note": "All identifiers for reading and printing. Missing because the code violates it: the comparison is the lexicographic order only for numbers below 2^31-1, as the difference is cut to 32 bits (compare_cut, not_order). Numbers beyond 64 bits are not modelled."
  },
  {
   "property": "C92",
   "status": "partial",
   "theorems": [
    "Verif.Props.send_exact",
    "Verif.Props.recv_takes_message",
    "Verif.Props.recv_exact_partial",
    "Verif.Props.recv_empty_fails",
    "Verif.Props.NetMsgEx.short_read_adds_bytes",
    "Verif.Props.NetMsgEx.not_delivered",
    "Verif.Props.NetMsgEx.empty_string_lost"
   ],
   "note": "All strings, all ways the system cuts the stream into pieces, all contents of the uninitialised buffer. Missing because the code violates it: after a short read, bytes left in the buffer become part of the string (short_read_adds_bytes), and the empty string is reported as a closed connection (recv_empty_fails). Errors of system calls are not modelled."
  }
 ]
}