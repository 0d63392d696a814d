import Verif.Props.Validator
import Verif.Props.Normalizer
import Verif.Props.Simple
import Verif.Props.Adjacency
import Verif.Props.Unreachable
import Verif.Props.ValidatorComplete
import Verif.Props.NormalForms
import Verif.Props.LinArith
import Verif.Props.TrivialQE
import Verif.Props.Entailment
import Verif.Props.Reverse
import Verif.Props.KTo1
import Verif.Props.KTo1Modes
import Verif.Props.Bmc
import Verif.Props.Kind
import Verif.Props.Imc
import Verif.Props.Dfs
import Verif.Props.LinearGraph
import Verif.Props.ErrorPath
import Verif.Props.QE
import Verif.Props.ToTS
import Verif.Props.EnginesTS
import Verif.Props.NodeElim
import Verif.Props.Derivations
import Verif.Props.ChainSummarizer
import Verif.Props.Names
import Verif.Props.SExpr
import Verif.Props.LetPrint
import Verif.Props.LinearBmc
import Verif.Props.Bse
import Verif.Props.Pipeline
import Verif.Props.Hyper
import Verif.Props.SingleLoopEngines
import Verif.Props.EdgeInliner
import Verif.Props.MBP
import Verif.Props.Spacer
import Verif.Props.SpacerEx
import Verif.Props.Dar
import Verif.Model.Engines.PDKind
import Verif.Lemmas.PDKind
import Verif.Props.PDKind
import Verif.Model.Engines.SymbolicExecution
import Verif.Props.SymbolicExecution
import Verif.Spec.Termination
import Verif.Model.Termination.Common
import Verif.Model.Termination.Lasso
import Verif.Model.Termination.StepCounter
import Verif.Model.Termination.Nonterm
import Verif.Lemmas.Termination
import Verif.Props.InitialGraph
import Verif.Props.Lasso
import Verif.Props.SpacerClauses
import Verif.Props.StepCounter
import Verif.Props.Nonterm
import Verif.Props.TerminationEx
import Verif.Model.Portfolio
import Verif.Props.Portfolio
import Verif.Model.Transformers.Default
import Verif.Model.CheckSat
import Verif.Props.ConstraintSimplifier
import Verif.Props.DefaultPipeline
import Verif.Props.CheckSat
import Verif.Props.CheckSatEx
import Verif.Model.Engines.TPA
import Verif.Lemmas.TPA
import Verif.Lemmas.TPAQuery
import Verif.Lemmas.TPAFix
import Verif.Lemmas.TPASolve
import Verif.Lemmas.TPASafe
import Verif.Props.TPA
import Verif.Props.TPAEx
import Verif.Model.Engines.TPANetwork
import Verif.Lemmas.TPANetwork
import Verif.Lemmas.TPANetLoop
import Verif.Lemmas.TPANetSearch
import Verif.Props.TPANetwork
import Verif.Props.DetectLoop
import Verif.Props.TPAGraph
import Verif.Props.TPAGraphEx
import Verif.Lemmas.PlainNames
import Verif.Lemmas.LinearReady
import Verif.Model.Engines.TSCheck
import Verif.Lemmas.SingleLoopAux
import Verif.Props.TSCheck
import Verif.Props.TSCheckEx
import Verif.Model.Engines.TRL
import Verif.Lemmas.TRL
import Verif.Lemmas.TRLStep
import Verif.Lemmas.TRLSearch
import Verif.Lemmas.TRLWitness
import Verif.Props.TRL
import Verif.Props.TRLEx
import Verif.Model.Engines.TRLCheck
import Verif.Props.TRLCheck
import Verif.Model.Engines.ArgBased
import Verif.Lemmas.ArgTuples
import Verif.Lemmas.ArgTree
import Verif.Lemmas.ArgLabel
import Verif.Lemmas.ArgDeriv
import Verif.Lemmas.ArgItp
import Verif.Lemmas.ArgMake
import Verif.Lemmas.ArgState
import Verif.Lemmas.ArgInv
import Verif.Lemmas.ArgSafe
import Verif.Lemmas.ArgFinal
import Verif.Props.ArgBased
import Verif.Props.ArgBasedEx
import Verif.Props.Lawi
import Verif.Props.LawiEx
import Verif.Props.FrontParse
import Verif.Props.FrontClause
import Verif.Lemmas.Frontend
import Verif.Props.Script
import Verif.Props.ScriptEx
import Verif.Props.NestedLoop
import Verif.Props.NestedLoopEx
import Verif.Props.Vmt
import Verif.Props.VmtEx
import Verif.Props.VmtLive
import Verif.Props.VmtLiveEx
import Verif.Spec.Chains
import Verif.Model.Termination.Pipeline
import Verif.Model.Termination.Graph
import Verif.Model.Termination.Solve
import Verif.Lemmas.InfChain
import Verif.Lemmas.TermStages
import Verif.Lemmas.TermTS
import Verif.Lemmas.TermSys
import Verif.Props.TermRun
import Verif.Props.TermRunEx
import Verif.Model.Termination.Its
import Verif.Spec.Its
import Verif.Lemmas.Its
import Verif.Lemmas.ItsTerms
import Verif.Lemmas.ItsFile
import Verif.Props.Its
import Verif.Props.ItsEx
import Verif.Spec.Alethe
import Verif.Model.Proofs.Simplify
import Verif.Lemmas.Alethe
import Verif.Lemmas.AletheTotal
import Verif.Props.Alethe
import Verif.Spec.AletheProof
import Verif.Model.Proofs.Build
import Verif.Lemmas.AletheBuild
import Verif.Lemmas.AletheInst
import Verif.Lemmas.AletheNames
import Verif.Props.AletheProof
import Verif.Props.AletheEx
import Verif.Model.Proofs.InstPairs
import Verif.Lemmas.InstPairs
import Verif.Props.InstPairs
import Verif.Props.InstPairsEx
import Verif.Spec.Cli
import Verif.Model.Cli.Main
import Verif.Props.Cli
import Verif.Model.WitnessPrint
import Verif.Props.WitnessPrint
import Verif.Spec.Intermediate
import Verif.Model.Proofs.Intermediate
import Verif.Props.Intermediate
import Verif.Model.Proofs.ProofText
import Verif.Props.ProofText
import Verif.Props.ProofTextBuilt
import Verif.Model.Proofs.IntermediateText
import Verif.Props.IntermediateText
