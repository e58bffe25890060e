import Verif.Basic
import Verif.Spec
import Verif.Model.Types
import Verif.Model.Enc
import Verif.Model.Monad
import Verif.Model.Kernel
import Verif.Model.PMin
import Verif.Model.LB
import Verif.Model.BOS
import Verif.Proof.Basic
import Verif.Proof.WP
import Verif.Proof.EncLaws
import Verif.Proof.Inv
import Verif.Proof.Steps
import Verif.Proof.EncSteps
import Verif.Proof.Tighten
import Verif.Proof.Guard
import Verif.Proof.Yield
import Verif.Proof.PMinProof
import Verif.Proof.Harvest
import Verif.Proof.LBProof
import Verif.Proof.BOSProof
import Verif.Props.Objective
import Verif.Props.Front
import Verif.Props.FrontCheck
import Verif.Props.VarManager
import Verif.Props.Combine
import Verif.Props.Blocking
import Verif.SpecInst
import Verif.SpecRun
import Verif.Model.Alg
import Verif.Proof.Init
import Verif.Proof.Solve
import Verif.Proof.RefEnc
import Verif.Proof.RefTot
import Verif.Proof.ResEnc
import Verif.Example
import Verif.Props.Solve
import Verif.Proof.Resume
import Verif.Props.Resume
import Verif.SpecIo
import Verif.Proof.IoLogic
import Verif.Proof.Io
import Verif.Proof.IoStats
import Verif.Proof.IoLog
import Verif.Props.Io
import Verif.Model.TotDb
import Verif.Model.CoreGuided
import Verif.Model.CoreBoost
import Verif.Proof.TotLaws
import Verif.Proof.Reform
import Verif.Proof.CoreGuided
import Verif.Proof.Oll
import Verif.Proof.OllLoop
import Verif.Proof.Merge
import Verif.Proof.CoreBoost
import Verif.Proof.IoCalls
import Verif.Proof.LogPred
import Verif.Proof.FenceLog
import Verif.Props.CoreBoost
import Verif.SpecCore
import Verif.Proof.CoreProc
import Verif.Props.CoreGuided
import Verif.Props.Linsu
import Verif.Props.Tighten
import Verif.Model.Prepro
import Verif.SpecPrepro
import Verif.Proof.Prepro
import Verif.Proof.RefPb
import Verif.Props.Prepro
import Verif.Proof.Reindex
import Verif.Props.Reindex
import Verif.Model.Cli
import Verif.SpecCli
import Verif.Proof.CbFrame
import Verif.Props.Cli
import Verif.Props.Driver
import Verif.Model.Pb
import Verif.SpecProof
import Verif.Proof.Pb
import Verif.Model.Tracer
import Verif.SpecTracer
import Verif.Proof.ProofRules
import Verif.Proof.Tracer
import Verif.Props.Tracer
import Verif.Model.ProofLog
import Verif.SpecProofLog
import Verif.Proof.ProofLog
import Verif.Props.ProofOrder
import Verif.Props.ProofBounds
import Verif.Proof.ProofCut
import Verif.Props.ProofCut
import Verif.Proof.ProofReif
import Verif.Props.ProofReif
import Verif.Model.OllLog
import Verif.SpecOll
import Verif.Proof.OllLog
import Verif.Props.OllLog
import Verif.Proof.Report
import Verif.Props.Log
import Verif.Props.Fence
import Verif.Model.BlockLog
import Verif.SpecBlock
import Verif.Proof.BlockLog
import Verif.Props.BlockLog
import Verif.Model.LinsuLog
import Verif.SpecLinsu
import Verif.Proof.Extend
import Verif.Proof.LinsuLog
import Verif.Props.LinsuLog
import Verif.Model.BosLog
import Verif.SpecBos
import Verif.Proof.Lines
import Verif.Proof.BosLog
import Verif.Props.BosLog
import Verif.Model.Inprocess
import Verif.Proof.InproLaws
import Verif.Proof.Collect
import Verif.SpecInpro
import Verif.Proof.Inprocess
import Verif.Proof.InproEnc
import Verif.Proof.InproRun
import Verif.Props.Inprocess
import Verif.Model.CliPre
import Verif.SpecPre
import Verif.Props.Preprocess
import Verif.Model.CertPre
import Verif.SpecCertPre
import Verif.Props.CertPre
import Verif.Model.CbCert
import Verif.Props.CbCert
import Verif.SpecRunLog
import Verif.Proof.RunLog
import Verif.Props.RunLog
import Verif.SpecCut
import Verif.Proof.CutShort
import Verif.Props.CutShort
import Verif.SpecLogTrue
import Verif.Proof.LogTrue
import Verif.Props.LogTrue
import Verif.Proof.CandLog
import Verif.Props.CandLog
import Verif.SpecCoreLog
import Verif.Proof.CoreLog
import Verif.Props.CoreLog
import Verif.Props.OllBase
import Verif.Props.CutBoost
import Verif.Props.Print
import Verif.Props.Boosts
import Verif.Props.CutLog
import Verif.Proof.Loud
import Verif.Props.LogError
import Verif.SpecDistinct
import Verif.Proof.DistinctLog
import Verif.Props.DistinctLog
import Verif.SpecAccount
import Verif.SpecBosOrder
import Verif.SpecAnswers
import Verif.Proof.Account
import Verif.Props.Account
import Verif.Props.BosOrder
import Verif.Props.BosSame
import Verif.Props.BosPrinted
import Verif.Props.Answers
