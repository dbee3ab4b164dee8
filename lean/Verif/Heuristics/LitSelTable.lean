import Verif.Heuristics.LitSelProof

/-!
# Literal selection: the table of strategies
-/

namespace Verif.LitSel

/-- The strategies treated separately. -/
def special : List String := ["PSelectPureVarNegLiterals", "SelectVGNonCR", "SelectNegativeLiterals", "PSelectNegativeLiterals"]

theorem strategies_good1 : ∀ e ∈ ([("NoSelection", selectNone),
   ("NoGeneration", selectNone),
   ("SelectNegativeLiterals", selectNegative false),
   ("PSelectNegativeLiterals", selectNegative true),
   ("SelectPureVarNegLiterals", selectFirstVar),
   ("PSelectPureVarNegLiterals", pSelectFirstVar),
   ("SelectLargestNegLit", selectLargest false),
   ("PSelectLargestNegLit", selectLargest true),
   ("SelectSmallestNegLit", selectSmallest false),
   ("PSelectSmallestNegLit", selectSmallest true),
   ("SelectLargestOrientable", selectLargestOri false),
   ("PSelectLargestOrientable", selectLargestOri true),
   ("MSelectLargestOrientable", mSelectLargestOri),
   ("SelectSmallestOrientable", selectSmallestOri false),
   ("PSelectSmallestOrientable", selectSmallestOri true),
   ("MSelectSmallestOrientable", mSelectSmallestOri),
   ("SelectDiffNegLit", selectDiff),
   ("PSelectDiffNegLit", pSelectDiff),
   ("SelectGroundNegLit", selectGround),
   ("PSelectGroundNegLit", pSelectGround),
   ("SelectOptimalLit", selectOptimal false),
   ("PSelectOptimalLit", selectOptimal true),
   ("SelectMinOptimalLit", selectMinOptimal false),
   ("PSelectMinOptimalLit", selectMinOptimal true),
   ("SelectMinOptimalNoTypePred", selectMinOptimalNo false SelCtx.typePred),
   ("PSelectMinOptimalNoTypePred", selectMinOptimalNo true SelCtx.typePred),
   ("SelectMinOptimalNoXTypePred", selectMinOptimalNo false SelCtx.xTypePred),
   ("PSelectMinOptimalNoXTypePred", selectMinOptimalNo true SelCtx.xTypePred),
   ("SelectMinOptimalNoRXTypePred", selectMinOptimalNo false SelCtx.rxTypePred),
   ("PSelectMinOptimalNoRXTypePred", selectMinOptimalNo true SelCtx.rxTypePred),
   ("SelectCondOptimalLit", selectCondOptimal false),
   ("PSelectCondOptimalLit", selectCondOptimal true),
   ("SelectAllCondOptimalLit", selectAllCondOptimal false),
   ("PSelectAllCondOptimalLit", selectAllCondOptimal true),
   ("SelectOptimalRestrDepth2", selectDepth2 false fun _ => true),
   ("PSelectOptimalRestrDepth2", selectDepth2 true fun _ => true),
   ("SelectOptimalRestrPDepth2", selectDepth2 false fun L => L.lit.pos),
   ("PSelectOptimalRestrPDepth2", selectDepth2 true fun L => L.lit.pos),
   ("SelectOptimalRestrNDepth2", selectDepth2 false neg),
   ("PSelectOptimalRestrNDepth2", selectDepth2 true neg),
   ("SelectNonRROptimalLit", selectOptimalIf false fun x l => !x.rr l),
   ("PSelectNonRROptimalLit", selectOptimalIf true fun x l => !x.rr l),
   ("SelectNonStrongRROptimalLit", selectOptimalIf false fun x l => !x.srr l),
   ("PSelectNonStrongRROptimalLit", selectOptimalIf true fun x l => !x.srr l),
   ("SelectAntiRROptimalLit", selectAntiRR),
   ("PSelectAntiRROptimalLit", selectOptimalIf true fun x l => x.arr l),
   ("SelectNonAntiRROptimalLit", selectOptimalIf false fun x l => !x.arr l),
   ("PSelectNonAntiRROptimalLit", selectOptimalIf true fun x l => !x.arr l),
   ("SelectStrongRRNonRROptimalLit", selectOptimalIf false fun x l => !x.rr l || x.srr l),
   ("PSelectStrongRRNonRROptimalLit", pSelectStrongRRNonRR),
   ("SelectUnlessUniqMax", unlessMax (fun C => decide (maxNo C > 1)) (selectOptimal false)),
   ("PSelectUnlessUniqMax", unlessMax (fun C => decide (maxNo C > 1)) (selectOptimal true)),
   ("SelectUnlessPosMax", unlessMax (fun C => decide (maxPosNo C = 0)) (selectOptimal false)),
   ("PSelectUnlessPosMax", unlessMax (fun C => decide (maxPosNo C = 0)) (selectOptimal true)),
   ("SelectUnlessUniqPosMax", unlessMax (fun C => decide (maxPosNo C ≠ 1)) (selectOptimal false)),
   ("PSelectUnlessUniqPosMax", unlessMax (fun C => decide (maxPosNo C ≠ 1)) (selectOptimal true)),
   ("SelectUnlessUniqMaxPos", unlessMax (fun C => breaks C.lits false) (selectOptimal false)),
   ("PSelectUnlessUniqMaxPos", unlessMax (fun C => breaks C.lits false) (selectOptimal true)),
   ("SelectComplex", selectComplex false),
   ("PSelectComplex", selectComplex true),
   ("SelectComplexExceptRRHorn", exceptRRHorn (selectComplex false)),
   ("PSelectComplexExceptRRHorn", exceptRRHorn (selectComplex true)),
   ("SelectLComplex", selectLComplex false),
   ("PSelectLComplex", selectLComplex true),
   ("SelectMaxLComplex", selectMaxLComplex false),
   ("PSelectMaxLComplex", selectMaxLComplex true),
   ("SelectMaxLComplexNoTypePred", selectMaxLComplexNo false SelCtx.typePred),
   ("PSelectMaxLComplexNoTypePred", selectMaxLComplexNo true SelCtx.typePred),
   ("SelectMaxLComplexNoXTypePred", selectMaxLComplexNo false SelCtx.xTypePred),
   ("PSelectMaxLComplexNoXTypePred", selectMaxLComplexNo true SelCtx.xTypePred),
   ("SelectComplexPreferNEQ", selectPrefer false fun L => !L.isEqu),
   ("PSelectComplexPreferNEQ", selectPrefer true fun L => !L.isEqu),
   ("SelectComplexPreferEQ", selectPrefer false fun L => L.isEqu),
   ("PSelectComplexPreferEQ", selectPrefer true fun L => L.isEqu),
   ("SelectComplexExceptUniqMaxHorn", exceptHorn true (fun C => decide (maxNo C = 1)) (selectComplex false)),
   ("PSelectComplexExceptUniqMaxHorn", exceptHorn true (fun C => decide (maxNo C = 1)) (selectComplex true)),
   ("MSelectComplexExceptUniqMaxHorn", mSelectComplexExcept),
   ("SelectNewComplex", selectNewComplex false),
   ("PSelectNewComplex", selectNewComplex true),
   ("SelectNewComplexExceptUniqMaxHorn", exceptHorn false (fun C => decide (maxNo C = 1)) (selectNewComplex false)),
   ("PSelectNewComplexExceptUniqMaxHorn", exceptHorn false (fun C => decide (maxNo C = 1)) (selectNewComplex true)),
   ("SelectMinInfpos", selectMinInfpos false 1 2),
   ("PSelectMinInfpos", selectMinInfpos true 1 2),
   ("HSelectMinInfpos", hSelectMinInfpos false),
   ("GSelectMinInfpos", hSelectMinInfpos true),
   ("SelectMinInfposNoTypePred", selectMinInfposNo false),
   ("PSelectMinInfposNoTypePred", selectMinInfposNo true),
   ("SelectMin2Infpos", selectMinInfpos false 2 1),
   ("PSelectMin2Infpos", selectMinInfpos true 2 1),
   ("SelectComplexExceptUniqMaxPosHorn", exceptHorn true (fun C => decide (maxNo C = 1) && decide (maxPosNo C = 1)) (selectComplex false)),
   ("PSelectComplexExceptUniqMaxPosHorn", exceptHorn true (fun C => decide (maxNo C = 1) && decide (maxPosNo C = 1)) (selectComplex true)),
   ("SelectUnlessUniqMaxSmallestOrientable", unlessMax (fun C => decide (maxNo C > 1)) (selectSmallestOri false)),
   ("PSelectUnlessUniqMaxSmallestOrientable", unlessMax (fun C => decide (maxNo C > 1)) (selectSmallestOri true)),
   ("SelectDivLits", generic false false "diversification_weight"),
   ("SelectDivPreferIntoLits", generic false false "diversification_prefer_into_weight"),
   ("SelectMaxLComplexG", ifManyMax (generic false true "maxlcomplex_weight")),
   ("SelectMaxLComplexAvoidPosPred", ifManyMax (generic false true "maxlcomplexavoidpred_weight")),
   ("SelectMaxLComplexAPPNTNp", ifManyMax (generic false true "maxlcomplexappNTNp_weight")),
   ("SelectMaxLComplexAPPNoType", ifManyMax (generic false true "maxlcomplexavoidprednotype_weight")),
   ("SelectMaxLComplexAvoidPosUPred", avoidPosUPred),
   ("SelectComplexG", generic false false "complex_weight"),
   ("SelectComplexAHP", generic false true "complex_weight_ahp"),
   ("PSelectComplexAHP", generic true true "complex_weight_ahp"),
   ("SelectNewComplexAHP", generic false true "new_complex_notp_ahp"),
   ("PSelectNewComplexAHP", generic true true "new_complex_notp_ahp"),
   ("SelectComplexAHPExceptRRHorn", exceptRRHorn (generic false true "complex_weight_ahp")),
   ("PSelectComplexAHPExceptRRHorn", exceptRRHorn (generic true true "complex_weight_ahp")),
   ("SelectNewComplexAHPExceptRRHorn", exceptRRHorn (generic false true "new_complex_notp_ahp")),
   ("PSelectNewComplexAHPExceptRRHorn", exceptRRHorn (generic true true "new_complex_notp_ahp")),
   ("SelectNewComplexAHPExceptUniqMaxHorn", exceptHorn false (fun C => decide (maxNo C = 1)) (generic false true "new_complex_notp_ahp")),
   ("PSelectNewComplexAHPExceptUniqMaxHorn", exceptHorn false (fun C => decide (maxNo C = 1)) (generic true true "new_complex_notp_ahp")),
   ("SelectNewComplexAHPNS", generic false true "new_complex_notp_ahp_ns"),
   ("SelectVGNonCR", selectVGNonCR)] : List (String × SelFun)), e.1 ∈ special ∨ Good e.1 e.2 := by
  refine List.forall_mem_cons.2 ⟨.inr ((Base.good (b := false) (f := selectNone) (s := "NoSelection") (base_none false) rfl)), ?_⟩
  refine List.forall_mem_cons.2 ⟨.inr ((Base.good (b := false) (f := selectNone) (s := "NoGeneration") (base_none false) rfl)), ?_⟩
  refine List.forall_mem_cons.2 ⟨.inl (by decide), ?_⟩
  refine List.forall_mem_cons.2 ⟨.inl (by decide), ?_⟩
  refine List.forall_mem_cons.2 ⟨.inr ((Base.good (b := false) (f := selectFirstVar) (s := "SelectPureVarNegLiterals") (base_firstVar false) rfl)), ?_⟩
  refine List.forall_mem_cons.2 ⟨.inl (by decide), ?_⟩
  refine List.forall_mem_cons.2 ⟨.inr ((Base.good (b := false) (f := selectLargest false) (s := "SelectLargestNegLit") (base_largest false) rfl)), ?_⟩
  refine List.forall_mem_cons.2 ⟨.inr ((Base.good (b := true) (f := selectLargest true) (s := "PSelectLargestNegLit") (base_largest true) rfl)), ?_⟩
  refine List.forall_mem_cons.2 ⟨.inr ((Base.good (b := false) (f := selectSmallest false) (s := "SelectSmallestNegLit") (base_smallest false) rfl)), ?_⟩
  refine List.forall_mem_cons.2 ⟨.inr ((Base.good (b := true) (f := selectSmallest true) (s := "PSelectSmallestNegLit") (base_smallest true) rfl)), ?_⟩
  refine List.forall_mem_cons.2 ⟨.inr ((Full.good (b := false) (f := selectLargestOri false) (s := "SelectLargestOrientable") (full_largestOri (b := false) id) rfl)), ?_⟩
  refine List.forall_mem_cons.2 ⟨.inr ((Full.good (b := true) (f := selectLargestOri true) (s := "PSelectLargestOrientable") (full_largestOri (b := true) id) rfl)), ?_⟩
  refine List.forall_mem_cons.2 ⟨.inr ((Full.good (b := true) (f := mSelectLargestOri) (s := "MSelectLargestOrientable") (full_mLargestOri) rfl)), ?_⟩
  refine List.forall_mem_cons.2 ⟨.inr ((Full.good (b := false) (f := selectSmallestOri false) (s := "SelectSmallestOrientable") (full_smallestOri (b := false) id) rfl)), ?_⟩
  refine List.forall_mem_cons.2 ⟨.inr ((Full.good (b := true) (f := selectSmallestOri true) (s := "PSelectSmallestOrientable") (full_smallestOri (b := true) id) rfl)), ?_⟩
  refine List.forall_mem_cons.2 ⟨.inr ((Full.good (b := true) (f := mSelectSmallestOri) (s := "MSelectSmallestOrientable") (full_mSmallestOri) rfl)), ?_⟩
  refine List.forall_mem_cons.2 ⟨.inr ((Base.good (b := false) (f := selectDiff) (s := "SelectDiffNegLit") (base_diff false) rfl)), ?_⟩
  refine List.forall_mem_cons.2 ⟨.inr ((Base.good (b := true) (f := pSelectDiff) (s := "PSelectDiffNegLit") (base_diff true) rfl)), ?_⟩
  refine List.forall_mem_cons.2 ⟨.inr ((Base.good (b := false) (f := selectGround) (s := "SelectGroundNegLit") (base_ground false) rfl)), ?_⟩
  refine List.forall_mem_cons.2 ⟨.inr ((Base.good (b := true) (f := pSelectGround) (s := "PSelectGroundNegLit") (base_pGround) rfl)), ?_⟩
  refine List.forall_mem_cons.2 ⟨.inr ((Base.good (b := false) (f := selectOptimal false) (s := "SelectOptimalLit") (base_optimal false) rfl)), ?_⟩
  refine List.forall_mem_cons.2 ⟨.inr ((Base.good (b := true) (f := selectOptimal true) (s := "PSelectOptimalLit") (base_optimal true) rfl)), ?_⟩
  refine List.forall_mem_cons.2 ⟨.inr ((Base.good (b := false) (f := selectMinOptimal false) (s := "SelectMinOptimalLit") (base_minOptimal false) rfl)), ?_⟩
  refine List.forall_mem_cons.2 ⟨.inr ((Base.good (b := true) (f := selectMinOptimal true) (s := "PSelectMinOptimalLit") (base_minOptimal true) rfl)), ?_⟩
  refine List.forall_mem_cons.2 ⟨.inr ((Full.good (b := false) (f := selectMinOptimalNo false SelCtx.typePred) (s := "SelectMinOptimalNoTypePred") (full_minOptimalNo false _) rfl)), ?_⟩
  refine List.forall_mem_cons.2 ⟨.inr ((Full.good (b := true) (f := selectMinOptimalNo true SelCtx.typePred) (s := "PSelectMinOptimalNoTypePred") (full_minOptimalNo true _) rfl)), ?_⟩
  refine List.forall_mem_cons.2 ⟨.inr ((Full.good (b := false) (f := selectMinOptimalNo false SelCtx.xTypePred) (s := "SelectMinOptimalNoXTypePred") (full_minOptimalNo false _) rfl)), ?_⟩
  refine List.forall_mem_cons.2 ⟨.inr ((Full.good (b := true) (f := selectMinOptimalNo true SelCtx.xTypePred) (s := "PSelectMinOptimalNoXTypePred") (full_minOptimalNo true _) rfl)), ?_⟩
  refine List.forall_mem_cons.2 ⟨.inr ((Full.good (b := false) (f := selectMinOptimalNo false SelCtx.rxTypePred) (s := "SelectMinOptimalNoRXTypePred") (full_minOptimalNo false _) rfl)), ?_⟩
  refine List.forall_mem_cons.2 ⟨.inr ((Full.good (b := true) (f := selectMinOptimalNo true SelCtx.rxTypePred) (s := "PSelectMinOptimalNoRXTypePred") (full_minOptimalNo true _) rfl)), ?_⟩
  refine List.forall_mem_cons.2 ⟨.inr ((Base.good (b := false) (f := selectCondOptimal false) (s := "SelectCondOptimalLit") (base_condOptimal false) rfl)), ?_⟩
  refine List.forall_mem_cons.2 ⟨.inr ((Base.good (b := true) (f := selectCondOptimal true) (s := "PSelectCondOptimalLit") (base_condOptimal true) rfl)), ?_⟩
  refine List.forall_mem_cons.2 ⟨.inr ((Base.good (b := false) (f := selectAllCondOptimal false) (s := "SelectAllCondOptimalLit") (base_allCondOptimal false) rfl)), ?_⟩
  refine List.forall_mem_cons.2 ⟨.inr ((Base.good (b := true) (f := selectAllCondOptimal true) (s := "PSelectAllCondOptimalLit") (base_allCondOptimal true) rfl)), ?_⟩
  refine List.forall_mem_cons.2 ⟨.inr ((Base.good (b := false) (f := selectDepth2 false fun _ => true) (s := "SelectOptimalRestrDepth2") (base_depth2 false _) rfl)), ?_⟩
  refine List.forall_mem_cons.2 ⟨.inr ((Base.good (b := true) (f := selectDepth2 true fun _ => true) (s := "PSelectOptimalRestrDepth2") (base_depth2 true _) rfl)), ?_⟩
  refine List.forall_mem_cons.2 ⟨.inr ((Base.good (b := false) (f := selectDepth2 false fun L => L.lit.pos) (s := "SelectOptimalRestrPDepth2") (base_depth2 false _) rfl)), ?_⟩
  refine List.forall_mem_cons.2 ⟨.inr ((Base.good (b := true) (f := selectDepth2 true fun L => L.lit.pos) (s := "PSelectOptimalRestrPDepth2") (base_depth2 true _) rfl)), ?_⟩
  refine List.forall_mem_cons.2 ⟨.inr ((Base.good (b := false) (f := selectDepth2 false neg) (s := "SelectOptimalRestrNDepth2") (base_depth2 false _) rfl)), ?_⟩
  refine List.forall_mem_cons.2 ⟨.inr ((Base.good (b := true) (f := selectDepth2 true neg) (s := "PSelectOptimalRestrNDepth2") (base_depth2 true _) rfl)), ?_⟩
  refine List.forall_mem_cons.2 ⟨.inr ((Base.good (b := false) (f := selectOptimalIf false fun x l => !x.rr l) (s := "SelectNonRROptimalLit") (base_optimalIf false _) rfl)), ?_⟩
  refine List.forall_mem_cons.2 ⟨.inr ((Base.good (b := true) (f := selectOptimalIf true fun x l => !x.rr l) (s := "PSelectNonRROptimalLit") (base_optimalIf true _) rfl)), ?_⟩
  refine List.forall_mem_cons.2 ⟨.inr ((Base.good (b := false) (f := selectOptimalIf false fun x l => !x.srr l) (s := "SelectNonStrongRROptimalLit") (base_optimalIf false _) rfl)), ?_⟩
  refine List.forall_mem_cons.2 ⟨.inr ((Base.good (b := true) (f := selectOptimalIf true fun x l => !x.srr l) (s := "PSelectNonStrongRROptimalLit") (base_optimalIf true _) rfl)), ?_⟩
  refine List.forall_mem_cons.2 ⟨.inr ((Base.good (b := false) (f := selectAntiRR) (s := "SelectAntiRROptimalLit") (base_antiRR) rfl)), ?_⟩
  refine List.forall_mem_cons.2 ⟨.inr ((Base.good (b := true) (f := selectOptimalIf true fun x l => x.arr l) (s := "PSelectAntiRROptimalLit") (base_optimalIf true _) rfl)), ?_⟩
  refine List.forall_mem_cons.2 ⟨.inr ((Base.good (b := false) (f := selectOptimalIf false fun x l => !x.arr l) (s := "SelectNonAntiRROptimalLit") (base_optimalIf false _) rfl)), ?_⟩
  refine List.forall_mem_cons.2 ⟨.inr ((Base.good (b := true) (f := selectOptimalIf true fun x l => !x.arr l) (s := "PSelectNonAntiRROptimalLit") (base_optimalIf true _) rfl)), ?_⟩
  refine List.forall_mem_cons.2 ⟨.inr ((Base.good (b := false) (f := selectOptimalIf false fun x l => !x.rr l || x.srr l) (s := "SelectStrongRRNonRROptimalLit") (base_optimalIf false _) rfl)), ?_⟩
  refine List.forall_mem_cons.2 ⟨.inr ((Base.good (b := true) (f := pSelectStrongRRNonRR) (s := "PSelectStrongRRNonRROptimalLit") (base_strongRRNonRR) rfl)), ?_⟩
  refine List.forall_mem_cons.2 ⟨.inr ((Full.good (b := false) (f := unlessMax (fun C => decide (maxNo C > 1)) (selectOptimal false)) (s := "SelectUnlessUniqMax") (full_unless (.inl (base_optimal false)) _) rfl)), ?_⟩
  refine List.forall_mem_cons.2 ⟨.inr ((Full.good (b := true) (f := unlessMax (fun C => decide (maxNo C > 1)) (selectOptimal true)) (s := "PSelectUnlessUniqMax") (full_unless (.inl (base_optimal true)) _) rfl)), ?_⟩
  refine List.forall_mem_cons.2 ⟨.inr ((Full.good (b := false) (f := unlessMax (fun C => decide (maxPosNo C = 0)) (selectOptimal false)) (s := "SelectUnlessPosMax") (full_unless (.inl (base_optimal false)) _) rfl)), ?_⟩
  refine List.forall_mem_cons.2 ⟨.inr ((Full.good (b := true) (f := unlessMax (fun C => decide (maxPosNo C = 0)) (selectOptimal true)) (s := "PSelectUnlessPosMax") (full_unless (.inl (base_optimal true)) _) rfl)), ?_⟩
  refine List.forall_mem_cons.2 ⟨.inr ((Full.good (b := false) (f := unlessMax (fun C => decide (maxPosNo C ≠ 1)) (selectOptimal false)) (s := "SelectUnlessUniqPosMax") (full_unless (.inl (base_optimal false)) _) rfl)), ?_⟩
  refine List.forall_mem_cons.2 ⟨.inr ((Full.good (b := true) (f := unlessMax (fun C => decide (maxPosNo C ≠ 1)) (selectOptimal true)) (s := "PSelectUnlessUniqPosMax") (full_unless (.inl (base_optimal true)) _) rfl)), ?_⟩
  refine List.forall_mem_cons.2 ⟨.inr ((Full.good (b := false) (f := unlessMax (fun C => breaks C.lits false) (selectOptimal false)) (s := "SelectUnlessUniqMaxPos") (full_unless (.inl (base_optimal false)) _) rfl)), ?_⟩
  refine List.forall_mem_cons.2 ⟨.inr ((Full.good (b := true) (f := unlessMax (fun C => breaks C.lits false) (selectOptimal true)) (s := "PSelectUnlessUniqMaxPos") (full_unless (.inl (base_optimal true)) _) rfl)), ?_⟩
  refine List.forall_mem_cons.2 ⟨.inr ((Base.good (b := false) (f := selectComplex false) (s := "SelectComplex") (base_complex false) rfl)), ?_⟩
  refine List.forall_mem_cons.2 ⟨.inr ((Base.good (b := true) (f := selectComplex true) (s := "PSelectComplex") (base_complex true) rfl)), ?_⟩
  refine List.forall_mem_cons.2 ⟨.inr ((Base.good (b := false) (f := exceptRRHorn (selectComplex false)) (s := "SelectComplexExceptRRHorn") (base_exceptRRHorn (base_complex false)) rfl)), ?_⟩
  refine List.forall_mem_cons.2 ⟨.inr ((Base.good (b := true) (f := exceptRRHorn (selectComplex true)) (s := "PSelectComplexExceptRRHorn") (base_exceptRRHorn (base_complex true)) rfl)), ?_⟩
  refine List.forall_mem_cons.2 ⟨.inr ((Base.good (b := false) (f := selectLComplex false) (s := "SelectLComplex") (base_lcomplex false) rfl)), ?_⟩
  refine List.forall_mem_cons.2 ⟨.inr ((Base.good (b := true) (f := selectLComplex true) (s := "PSelectLComplex") (base_lcomplex true) rfl)), ?_⟩
  refine List.forall_mem_cons.2 ⟨.inr ((Full.good (b := false) (f := selectMaxLComplex false) (s := "SelectMaxLComplex") (full_maxLComplex false) rfl)), ?_⟩
  refine List.forall_mem_cons.2 ⟨.inr ((Full.good (b := true) (f := selectMaxLComplex true) (s := "PSelectMaxLComplex") (full_maxLComplex true) rfl)), ?_⟩
  refine List.forall_mem_cons.2 ⟨.inr ((Full.good (b := false) (f := selectMaxLComplexNo false SelCtx.typePred) (s := "SelectMaxLComplexNoTypePred") (full_maxLComplexNo false _) rfl)), ?_⟩
  refine List.forall_mem_cons.2 ⟨.inr ((Full.good (b := true) (f := selectMaxLComplexNo true SelCtx.typePred) (s := "PSelectMaxLComplexNoTypePred") (full_maxLComplexNo true _) rfl)), ?_⟩
  refine List.forall_mem_cons.2 ⟨.inr ((Full.good (b := false) (f := selectMaxLComplexNo false SelCtx.xTypePred) (s := "SelectMaxLComplexNoXTypePred") (full_maxLComplexNo false _) rfl)), ?_⟩
  refine List.forall_mem_cons.2 ⟨.inr ((Full.good (b := true) (f := selectMaxLComplexNo true SelCtx.xTypePred) (s := "PSelectMaxLComplexNoXTypePred") (full_maxLComplexNo true _) rfl)), ?_⟩
  refine List.forall_mem_cons.2 ⟨.inr ((Base.good (b := false) (f := selectPrefer false fun L => !L.isEqu) (s := "SelectComplexPreferNEQ") (base_prefer false _) rfl)), ?_⟩
  refine List.forall_mem_cons.2 ⟨.inr ((Base.good (b := true) (f := selectPrefer true fun L => !L.isEqu) (s := "PSelectComplexPreferNEQ") (base_prefer true _) rfl)), ?_⟩
  refine List.forall_mem_cons.2 ⟨.inr ((Base.good (b := false) (f := selectPrefer false fun L => L.isEqu) (s := "SelectComplexPreferEQ") (base_prefer false _) rfl)), ?_⟩
  refine List.forall_mem_cons.2 ⟨.inr ((Base.good (b := true) (f := selectPrefer true fun L => L.isEqu) (s := "PSelectComplexPreferEQ") (base_prefer true _) rfl)), ?_⟩
  refine List.forall_mem_cons.2 ⟨.inr ((Full.good (b := false) (f := exceptHorn true (fun C => decide (maxNo C = 1)) (selectComplex false)) (s := "SelectComplexExceptUniqMaxHorn") (full_exceptHorn (.inr ⟨base_complex false, rfl⟩) _) rfl)), ?_⟩
  refine List.forall_mem_cons.2 ⟨.inr ((Full.good (b := true) (f := exceptHorn true (fun C => decide (maxNo C = 1)) (selectComplex true)) (s := "PSelectComplexExceptUniqMaxHorn") (full_exceptHorn (.inr ⟨base_complex true, rfl⟩) _) rfl)), ?_⟩
  refine List.forall_mem_cons.2 ⟨.inr ((Full.good (b := true) (f := mSelectComplexExcept) (s := "MSelectComplexExceptUniqMaxHorn") (full_mComplexExcept) rfl)), ?_⟩
  refine List.forall_mem_cons.2 ⟨.inr ((Full.good (b := false) (f := selectNewComplex false) (s := "SelectNewComplex") (full_newComplex false) rfl)), ?_⟩
  refine List.forall_mem_cons.2 ⟨.inr ((Full.good (b := true) (f := selectNewComplex true) (s := "PSelectNewComplex") (full_newComplex true) rfl)), ?_⟩
  refine List.forall_mem_cons.2 ⟨.inr ((Full.good (b := false) (f := exceptHorn false (fun C => decide (maxNo C = 1)) (selectNewComplex false)) (s := "SelectNewComplexExceptUniqMaxHorn") (full_exceptHorn (.inl (full_newComplex false)) _) rfl)), ?_⟩
  refine List.forall_mem_cons.2 ⟨.inr ((Full.good (b := true) (f := exceptHorn false (fun C => decide (maxNo C = 1)) (selectNewComplex true)) (s := "PSelectNewComplexExceptUniqMaxHorn") (full_exceptHorn (.inl (full_newComplex true)) _) rfl)), ?_⟩
  refine List.forall_mem_cons.2 ⟨.inr ((Full.good (b := false) (f := selectMinInfpos false 1 2) (s := "SelectMinInfpos") (full_minInfpos false (by omega) (by omega)) rfl)), ?_⟩
  refine List.forall_mem_cons.2 ⟨.inr ((Full.good (b := true) (f := selectMinInfpos true 1 2) (s := "PSelectMinInfpos") (full_minInfpos true (by omega) (by omega)) rfl)), ?_⟩
  refine List.forall_mem_cons.2 ⟨.inr ((Full.good (b := true) (f := hSelectMinInfpos false) (s := "HSelectMinInfpos") (full_hMinInfpos _) rfl)), ?_⟩
  refine List.forall_mem_cons.2 ⟨.inr ((Full.good (b := true) (f := hSelectMinInfpos true) (s := "GSelectMinInfpos") (full_hMinInfpos _) rfl)), ?_⟩
  refine List.forall_mem_cons.2 ⟨.inr ((Full.good (b := false) (f := selectMinInfposNo false) (s := "SelectMinInfposNoTypePred") (full_minInfposNo false) rfl)), ?_⟩
  refine List.forall_mem_cons.2 ⟨.inr ((Full.good (b := true) (f := selectMinInfposNo true) (s := "PSelectMinInfposNoTypePred") (full_minInfposNo true) rfl)), ?_⟩
  refine List.forall_mem_cons.2 ⟨.inr ((Full.good (b := false) (f := selectMinInfpos false 2 1) (s := "SelectMin2Infpos") (full_minInfpos false (by omega) (by omega)) rfl)), ?_⟩
  refine List.forall_mem_cons.2 ⟨.inr ((Full.good (b := true) (f := selectMinInfpos true 2 1) (s := "PSelectMin2Infpos") (full_minInfpos true (by omega) (by omega)) rfl)), ?_⟩
  refine List.forall_mem_cons.2 ⟨.inr ((Full.good (b := false) (f := exceptHorn true (fun C => decide (maxNo C = 1) && decide (maxPosNo C = 1)) (selectComplex false)) (s := "SelectComplexExceptUniqMaxPosHorn") (full_exceptHorn (.inr ⟨base_complex false, rfl⟩) _) rfl)), ?_⟩
  refine List.forall_mem_cons.2 ⟨.inr ((Full.good (b := true) (f := exceptHorn true (fun C => decide (maxNo C = 1) && decide (maxPosNo C = 1)) (selectComplex true)) (s := "PSelectComplexExceptUniqMaxPosHorn") (full_exceptHorn (.inr ⟨base_complex true, rfl⟩) _) rfl)), ?_⟩
  refine List.forall_mem_cons.2 ⟨.inr ((Full.good (b := false) (f := unlessMax (fun C => decide (maxNo C > 1)) (selectSmallestOri false)) (s := "SelectUnlessUniqMaxSmallestOrientable") (full_unless (.inr (full_smallestOri (b := false) id)) _) rfl)), ?_⟩
  refine List.forall_mem_cons.2 ⟨.inr ((Full.good (b := true) (f := unlessMax (fun C => decide (maxNo C > 1)) (selectSmallestOri true)) (s := "PSelectUnlessUniqMaxSmallestOrientable") (full_unless (.inr (full_smallestOri (b := true) id)) _) rfl)), ?_⟩
  refine List.forall_mem_cons.2 ⟨.inr ((Full.good (b := false) (f := generic false false "diversification_weight") (s := "SelectDivLits") (full_generic false false _) rfl)), ?_⟩
  refine List.forall_mem_cons.2 ⟨.inr ((Full.good (b := false) (f := generic false false "diversification_prefer_into_weight") (s := "SelectDivPreferIntoLits") (full_generic false false _) rfl)), ?_⟩
  refine List.forall_mem_cons.2 ⟨.inr ((Full.good (b := false) (f := ifManyMax (generic false true "maxlcomplex_weight")) (s := "SelectMaxLComplexG") (full_ifManyMax (full_generic false true _)) rfl)), ?_⟩
  refine List.forall_mem_cons.2 ⟨.inr ((Full.good (b := false) (f := ifManyMax (generic false true "maxlcomplexavoidpred_weight")) (s := "SelectMaxLComplexAvoidPosPred") (full_ifManyMax (full_generic false true _)) rfl)), ?_⟩
  refine List.forall_mem_cons.2 ⟨.inr ((Full.good (b := false) (f := ifManyMax (generic false true "maxlcomplexappNTNp_weight")) (s := "SelectMaxLComplexAPPNTNp") (full_ifManyMax (full_generic false true _)) rfl)), ?_⟩
  refine List.forall_mem_cons.2 ⟨.inr ((Full.good (b := false) (f := ifManyMax (generic false true "maxlcomplexavoidprednotype_weight")) (s := "SelectMaxLComplexAPPNoType") (full_ifManyMax (full_generic false true _)) rfl)), ?_⟩
  refine List.forall_mem_cons.2 ⟨.inr ((Full.good (b := false) (f := avoidPosUPred) (s := "SelectMaxLComplexAvoidPosUPred") (full_avoidPosUPred) rfl)), ?_⟩
  refine List.forall_mem_cons.2 ⟨.inr ((Full.good (b := false) (f := generic false false "complex_weight") (s := "SelectComplexG") (full_generic false false _) rfl)), ?_⟩
  refine List.forall_mem_cons.2 ⟨.inr ((Full.good (b := false) (f := generic false true "complex_weight_ahp") (s := "SelectComplexAHP") (full_generic false true _) rfl)), ?_⟩
  refine List.forall_mem_cons.2 ⟨.inr ((Full.good (b := true) (f := generic true true "complex_weight_ahp") (s := "PSelectComplexAHP") (full_generic true true _) rfl)), ?_⟩
  refine List.forall_mem_cons.2 ⟨.inr ((Full.good (b := false) (f := generic false true "new_complex_notp_ahp") (s := "SelectNewComplexAHP") (full_generic false true _) rfl)), ?_⟩
  refine List.forall_mem_cons.2 ⟨.inr ((Full.good (b := true) (f := generic true true "new_complex_notp_ahp") (s := "PSelectNewComplexAHP") (full_generic true true _) rfl)), ?_⟩
  refine List.forall_mem_cons.2 ⟨.inr ((Full.good (b := false) (f := exceptRRHorn (generic false true "complex_weight_ahp")) (s := "SelectComplexAHPExceptRRHorn") (full_exceptRRHorn (full_generic false true _)) rfl)), ?_⟩
  refine List.forall_mem_cons.2 ⟨.inr ((Full.good (b := true) (f := exceptRRHorn (generic true true "complex_weight_ahp")) (s := "PSelectComplexAHPExceptRRHorn") (full_exceptRRHorn (full_generic true true _)) rfl)), ?_⟩
  refine List.forall_mem_cons.2 ⟨.inr ((Full.good (b := false) (f := exceptRRHorn (generic false true "new_complex_notp_ahp")) (s := "SelectNewComplexAHPExceptRRHorn") (full_exceptRRHorn (full_generic false true _)) rfl)), ?_⟩
  refine List.forall_mem_cons.2 ⟨.inr ((Full.good (b := true) (f := exceptRRHorn (generic true true "new_complex_notp_ahp")) (s := "PSelectNewComplexAHPExceptRRHorn") (full_exceptRRHorn (full_generic true true _)) rfl)), ?_⟩
  refine List.forall_mem_cons.2 ⟨.inr ((Full.good (b := false) (f := exceptHorn false (fun C => decide (maxNo C = 1)) (generic false true "new_complex_notp_ahp")) (s := "SelectNewComplexAHPExceptUniqMaxHorn") (full_exceptHorn (.inl (full_generic false true _)) _) rfl)), ?_⟩
  refine List.forall_mem_cons.2 ⟨.inr ((Full.good (b := true) (f := exceptHorn false (fun C => decide (maxNo C = 1)) (generic true true "new_complex_notp_ahp")) (s := "PSelectNewComplexAHPExceptUniqMaxHorn") (full_exceptHorn (.inl (full_generic true true _)) _) rfl)), ?_⟩
  refine List.forall_mem_cons.2 ⟨.inr ((Full.good (b := false) (f := generic false true "new_complex_notp_ahp_ns") (s := "SelectNewComplexAHPNS") (full_generic false true _) rfl)), ?_⟩
  refine List.forall_mem_cons.2 ⟨.inl (by decide), ?_⟩
  intro e he
  cases he

theorem strategies_good2 : ∀ e ∈ (["SelectCQArEqLast", "SelectCQArEqFirst", "SelectCQIArEqLast", "SelectCQIArEqFirst", "SelectCQAr", "SelectCQIAr", "SelectCQArNpEqFirst",
    "SelectCQIArNpEqFirst", "SelectGrCQArEqFirst", "SelectCQGrArEqFirst", "SelectCQArNTEqFirst", "SelectCQIArNTEqFirst",
    "SelectCQArNTNpEqFirst", "SelectCQIArNTNpEqFirst", "SelectCQArNXTEqFirst", "SelectCQIArNXTEqFirst", "SelectCQArNTNp", "SelectCQIArNTNp",
    "SelectCQArNT", "SelectCQIArNT", "SelectCQArNp", "SelectCQIArNp"].map fun s => (s, generic false true s)), e.1 ∈ special ∨ Good e.1 e.2 := by
  refine List.forall_mem_map.2 fun s hs => .inr ?_
  have hm : mayPos s = false := by
    revert s
    decide
  exact (full_generic false true s).good hm

theorem strategies_good3 : ∀ e ∈ ([("SelectCQArNpEqFirstUnlessPDom", unlessPDom (generic false true "SelectCQArNpEqFirst")),
   ("SelectCQArNTEqFirstUnlessPDom", unlessPDom (generic false true "SelectCQArNTEqFirst")),
   ("SelectCQPrecW", generic false true "SelectCQPrecW"),
   ("SelectCQIPrecW", generic false true "SelectCQIPrecW"),
   ("SelectCQPrecWNTNp", generic false true "SelectCQPrecWNTNp"),
   ("SelectCQIPrecWNTNp", generic false true "SelectCQIPrecWNTNp"),
   ("SelectMaxLComplexAvoidAppVar", ifManyMax (generic false true "maxlcomplexavoidappvar_weight")),
   ("SelectMaxLComplexStronglyAvoidAppVar", ifManyMax (generic false true "maxlcomplexstronglyavoidappvar_weight")),
   ("SelectMaxLComplexPreferAppVar", ifManyMax (generic false true "maxlcomplexstronglypreferappvar_weight"))] : List (String × SelFun)), e.1 ∈ special ∨ Good e.1 e.2 := by
  refine List.forall_mem_cons.2 ⟨.inr ((Full.good (b := false) (f := unlessPDom (generic false true "SelectCQArNpEqFirst")) (s := "SelectCQArNpEqFirstUnlessPDom") (full_unlessPDom (full_generic false true _)) rfl)), ?_⟩
  refine List.forall_mem_cons.2 ⟨.inr ((Full.good (b := false) (f := unlessPDom (generic false true "SelectCQArNTEqFirst")) (s := "SelectCQArNTEqFirstUnlessPDom") (full_unlessPDom (full_generic false true _)) rfl)), ?_⟩
  refine List.forall_mem_cons.2 ⟨.inr ((Full.good (b := false) (f := generic false true "SelectCQPrecW") (s := "SelectCQPrecW") (full_generic false true _) rfl)), ?_⟩
  refine List.forall_mem_cons.2 ⟨.inr ((Full.good (b := false) (f := generic false true "SelectCQIPrecW") (s := "SelectCQIPrecW") (full_generic false true _) rfl)), ?_⟩
  refine List.forall_mem_cons.2 ⟨.inr ((Full.good (b := false) (f := generic false true "SelectCQPrecWNTNp") (s := "SelectCQPrecWNTNp") (full_generic false true _) rfl)), ?_⟩
  refine List.forall_mem_cons.2 ⟨.inr ((Full.good (b := false) (f := generic false true "SelectCQIPrecWNTNp") (s := "SelectCQIPrecWNTNp") (full_generic false true _) rfl)), ?_⟩
  refine List.forall_mem_cons.2 ⟨.inr ((Full.good (b := false) (f := ifManyMax (generic false true "maxlcomplexavoidappvar_weight")) (s := "SelectMaxLComplexAvoidAppVar") (full_ifManyMax (full_generic false true _)) rfl)), ?_⟩
  refine List.forall_mem_cons.2 ⟨.inr ((Full.good (b := false) (f := ifManyMax (generic false true "maxlcomplexstronglyavoidappvar_weight")) (s := "SelectMaxLComplexStronglyAvoidAppVar") (full_ifManyMax (full_generic false true _)) rfl)), ?_⟩
  refine List.forall_mem_cons.2 ⟨.inr ((Full.good (b := false) (f := ifManyMax (generic false true "maxlcomplexstronglypreferappvar_weight")) (s := "SelectMaxLComplexPreferAppVar") (full_ifManyMax (full_generic false true _)) rfl)), ?_⟩
  intro e he
  cases he

theorem strategies_good : ∀ e ∈ strategies, e.1 ∈ special ∨ Good e.1 e.2 := by
  unfold strategies
  refine List.forall_mem_append.2 ⟨List.forall_mem_append.2 ⟨?_, ?_⟩, ?_⟩
  · exact strategies_good1
  · exact strategies_good2
  · exact strategies_good3

end Verif.LitSel
