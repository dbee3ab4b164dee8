import Verif.Basics.IntMap
import Verif.Basics.IntMapProof
import Verif.Basics.MinHeap
import Verif.Basics.PQueue
import Verif.Basics.PQueueProof
import Verif.Basics.Splay
import Verif.Basics.SplayProof
import Verif.Clauses.ACClause
import Verif.Clauses.Bce
import Verif.Clauses.BceCheck
import Verif.Clauses.BceFix
import Verif.Clauses.BceLoop
import Verif.Clauses.BceProof
import Verif.Clauses.BceTotal
import Verif.Clauses.ClauseIndex
import Verif.Clauses.ClauseIndexProof
import Verif.Clauses.ClauseIndexSpec
import Verif.Clauses.Condense
import Verif.Clauses.Derivation
import Verif.Clauses.DerivationProof
import Verif.Clauses.FVIndex
import Verif.Clauses.FVIndexProof
import Verif.Clauses.FVIndexSpec
import Verif.Clauses.FVIndexTree
import Verif.Clauses.FVIndexVec
import Verif.Clauses.GoalDefs
import Verif.Clauses.GoalDefsProof
import Verif.Clauses.Grounding
import Verif.Clauses.GroundingProof
import Verif.Clauses.GroundingSem
import Verif.Clauses.GroundingSpec
import Verif.Clauses.Infer
import Verif.Clauses.InferProof
import Verif.Clauses.Lit
import Verif.Clauses.LitCmp
import Verif.Clauses.LitCmpProof
import Verif.Clauses.OrdSpec
import Verif.Clauses.OverlapIter
import Verif.Clauses.OverlapIterProof
import Verif.Clauses.PDTree
import Verif.Clauses.PDTreeConstr
import Verif.Clauses.PDTreeEnum
import Verif.Clauses.PDTreeProof
import Verif.Clauses.PDTreeReach
import Verif.Clauses.PDTreeSearch
import Verif.Clauses.PDTreeSpec
import Verif.Clauses.PredElim
import Verif.Clauses.PredElimBack
import Verif.Clauses.PredElimElim
import Verif.Clauses.PredElimGate
import Verif.Clauses.PredElimLoop
import Verif.Clauses.PredElimReg
import Verif.Clauses.PredElimSem
import Verif.Clauses.PredElimStep
import Verif.Clauses.Preproc
import Verif.Clauses.PreprocProof
import Verif.Clauses.Rewrite
import Verif.Clauses.RewriteBack
import Verif.Clauses.RewriteClause
import Verif.Clauses.RewriteOrd
import Verif.Clauses.RewriteProof
import Verif.Clauses.RewriteSpec
import Verif.Clauses.RewriteStep
import Verif.Clauses.SatCheck
import Verif.Clauses.Sem
import Verif.Clauses.Split
import Verif.Clauses.SplitProof
import Verif.Clauses.SplitSem
import Verif.Clauses.SplitSpec
import Verif.Clauses.Subsume
import Verif.Clauses.SubsumeProof
import Verif.Clauses.SupCases
import Verif.Clauses.SupComplete
import Verif.Clauses.SupGround
import Verif.Clauses.SupInterp
import Verif.Clauses.SupLift
import Verif.Clauses.SupModel
import Verif.Clauses.SupOrd
import Verif.Clauses.SupRed
import Verif.Clauses.SupRewrite
import Verif.Clauses.SupSimp
import Verif.Clauses.SupSpec
import Verif.Clauses.Taut
import Verif.Control.Answers
import Verif.Control.AnswersProof
import Verif.Control.Complete
import Verif.Control.CompleteProof
import Verif.Control.Relevance
import Verif.Control.RelevanceProof
import Verif.Control.Saturate
import Verif.Control.SaturateProof
import Verif.Control.Schedule
import Verif.Control.ScheduleExec
import Verif.Control.ScheduleProof
import Verif.Control.Sine
import Verif.Control.SineProof
import Verif.Control.Status
import Verif.Control.Watchlist
import Verif.External.Csscpa
import Verif.Formulas.CNF
import Verif.Formulas.CNFClauses
import Verif.Formulas.CNFEquiv
import Verif.Formulas.CNFRename
import Verif.Formulas.CNFSet
import Verif.Formulas.CNFShape
import Verif.Formulas.CNFSkolem
import Verif.Formulas.CNFTotal
import Verif.Formulas.Defs
import Verif.Formulas.DefsProof
import Verif.Formulas.Distinct
import Verif.Formulas.Fool
import Verif.Formulas.FoolLoop
import Verif.Formulas.FoolProof
import Verif.Formulas.FoolSem
import Verif.Formulas.Form
import Verif.Formulas.LetLift
import Verif.Formulas.LetMain
import Verif.Formulas.LetProof
import Verif.Formulas.LetSem
import Verif.Formulas.Problem
import Verif.Formulas.ProblemProof
import Verif.HO.BetaEta
import Verif.HO.EtaLong
import Verif.HO.EtaNormal
import Verif.HO.EtaProof
import Verif.HO.ExtInfer
import Verif.HO.ExtInferProof
import Verif.HO.ExtInferSpec
import Verif.HO.HoInfer
import Verif.HO.HoInferComplete
import Verif.HO.HoInferFlex
import Verif.HO.HoInferProof
import Verif.HO.HoInferSpec
import Verif.HO.Lam
import Verif.HO.LamEval
import Verif.HO.LamSpec
import Verif.HO.Lambda
import Verif.HO.LambdaProof
import Verif.HO.Named
import Verif.HO.NamedProof
import Verif.HO.NegExt
import Verif.HO.NegExtProof
import Verif.HO.NegExtSpec
import Verif.HO.NormEqs
import Verif.HO.NormEqsProof
import Verif.HO.NormEqsSpec
import Verif.HO.SN
import Verif.Heuristics.HCB
import Verif.Heuristics.HCBDel
import Verif.Heuristics.HCBProof
import Verif.Heuristics.HCBSpec
import Verif.Heuristics.LitSel
import Verif.Heuristics.LitSelProof
import Verif.Heuristics.LitSelTable
import Verif.Inout.CmdLineProof
import Verif.Inout.CmdLineSpec
import Verif.Inout.CommandLine
import Verif.Inout.Include
import Verif.Inout.IncludeProof
import Verif.Inout.IncludeSpec
import Verif.Inout.NetMsg
import Verif.Inout.NetMsgProof
import Verif.Orderings.CmpCache
import Verif.Orderings.Kbo
import Verif.Orderings.KboOrder
import Verif.Orderings.KboProof
import Verif.Orderings.Lpo
import Verif.Orderings.LpoOrder
import Verif.Orderings.LpoProof
import Verif.Orderings.Prec
import Verif.Orderings.PrecProof
import Verif.Orderings.SimplOrder
import Verif.Orderings.Spec
import Verif.Orderings.WeightGen
import Verif.Orderings.WeightGenProof
import Verif.Pcl.MarkProof
import Verif.Pcl.Protocol
import Verif.Props.AC
import Verif.Props.Answers
import Verif.Props.Backtrack
import Verif.Props.Bce
import Verif.Props.CNF
import Verif.Props.ClauseIndex
import Verif.Props.CmpCache
import Verif.Props.CommandLine
import Verif.Props.Complete
import Verif.Props.Condense
import Verif.Props.Csscpa
import Verif.Props.Defs
import Verif.Props.Derivation
import Verif.Props.Distinct
import Verif.Props.ExtInfer
import Verif.Props.FPIndex
import Verif.Props.FVIndex
import Verif.Props.Fool
import Verif.Props.GoalDefs
import Verif.Props.Grounding
import Verif.Props.HCB
import Verif.Props.HoInfer
import Verif.Props.Include
import Verif.Props.Infer
import Verif.Props.InferGen
import Verif.Props.Inst
import Verif.Props.IntMap
import Verif.Props.Kbo
import Verif.Props.Lambda
import Verif.Props.LambdaEta
import Verif.Props.LambdaNamed
import Verif.Props.LetLift
import Verif.Props.LitCmp
import Verif.Props.LitSel
import Verif.Props.LitSelChoice
import Verif.Props.LoopComplete
import Verif.Props.Lpo
import Verif.Props.Match
import Verif.Props.MaxLits
import Verif.Props.Mgu
import Verif.Props.MinHeap
import Verif.Props.NetMsg
import Verif.Props.Norm
import Verif.Props.NormEqs
import Verif.Props.OverlapIter
import Verif.Props.PDTree
import Verif.Props.PQueue
import Verif.Props.Pcl
import Verif.Props.PclId
import Verif.Props.Prec
import Verif.Props.PredElim
import Verif.Props.Preproc
import Verif.Props.PrintParse
import Verif.Props.Problem
import Verif.Props.Rewrite
import Verif.Props.SatCheck
import Verif.Props.Saturate
import Verif.Props.Schedule
import Verif.Props.SimpleTypes
import Verif.Props.Sine
import Verif.Props.Sorts
import Verif.Props.Splay
import Verif.Props.Split
import Verif.Props.Status
import Verif.Props.Subsume
import Verif.Props.Symbols
import Verif.Props.Taut
import Verif.Props.TermBank
import Verif.Props.UnitSimp
import Verif.Props.Verdict
import Verif.Props.Watchlist
import Verif.Props.WeightGen
import Verif.Terms.ACProof
import Verif.Terms.ACSpec
import Verif.Terms.ACTerms
import Verif.Terms.FPIndex
import Verif.Terms.FPIndexInv
import Verif.Terms.FPIndexKeys
import Verif.Terms.FPIndexProof
import Verif.Terms.FPIndexSpec
import Verif.Terms.Inst
import Verif.Terms.Match
import Verif.Terms.Mgu
import Verif.Terms.Norm
import Verif.Terms.SimpleTypes
import Verif.Terms.SimpleTypesArity
import Verif.Terms.SimpleTypesParse
import Verif.Terms.SimpleTypesPrint
import Verif.Terms.SimpleTypesProof
import Verif.Terms.SimpleTypesSpec
import Verif.Terms.Sorts
import Verif.Terms.SortsComplete
import Verif.Terms.SortsDefault
import Verif.Terms.SortsProof
import Verif.Terms.SortsSpec
import Verif.Terms.Spec
import Verif.Terms.Subst
import Verif.Terms.Term
import Verif.Terms.TermBank
import Verif.Terms.TermBankGC
import Verif.Terms.TermBankProof
import Verif.Terms.TermBankSpec
import Verif.Terms.VarBank
import Verif.Text.ClauseProof
import Verif.Text.FormProof
import Verif.Text.NameProof
import Verif.Text.Parse
import Verif.Text.ParseProof
import Verif.Text.PclId
import Verif.Text.Print
import Verif.Text.RoundSem
import Verif.Text.RoundSpec
import Verif.Text.ScanProof
import Verif.Text.Scanner
import Verif.Text.SigProof
import Verif.Text.SigSpec
import Verif.Text.Signature
