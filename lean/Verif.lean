import Verif.Props.Gkp
import Verif.Props.CvOps
import Verif.Props.Linalg
import Verif.Props.EGraph
import Verif.Props.Macronize
import Verif.Props.Rhg
import Verif.Props.SurfaceCode
import Verif.Props.StabGraph
import Verif.Props.Mwpm
import Verif.Props.UnionFind
import Verif.Props.Weights
import Verif.Props.Noise
import Verif.Props.Macro
import Verif.Props.MacroCode
import Verif.Props.GraphStates
import Verif.Props.Simulations
import Verif.Props.Verdict
import Verif.Model.Correct
import Verif.Proofs.Trial
import Verif.Props.Trial
import Verif.Props.EndToEnd
import Verif.Props.UfDistance
import Verif.Props.ErrorRate
import Verif.Props.GkpLaw
import Verif.Props.ZErr
import Verif.Props.CvLaw
import Verif.Props.CvTrials
import Verif.Model.Lemon
import Verif.Props.Lemon
import Verif.Proofs.SwapLaw
import Verif.Proofs.SwapExists
import Verif.Props.SwapLaw
import Verif.Props.SwapTrials
import Verif.Proofs.BitLaw
import Verif.Proofs.MacroNoise
import Verif.Proofs.MacroExact
import Verif.Proofs.MacroLaw
import Verif.Props.GkpLawHom
import Verif.Props.MacroLaw
import Verif.Model.Rx
import Verif.Proofs.Rx
import Verif.Proofs.RxStab
import Verif.Proofs.RxPaths
import Verif.Proofs.RxMatch
import Verif.Props.Rx
import Verif.Model.Readouts
import Verif.Props.Readouts
import Verif.Model.Concurrent
import Verif.Props.Concurrent
import Verif.Proofs.MacroFlip
import Verif.Props.MacroTrials
import Verif.Model.Seeds
import Verif.Props.Seeds
import Verif.Props.Threshold
import Verif.Props.CvThreshold
import Verif.Proofs.MacroTail
import Verif.Props.MacroThreshold
import Verif.Props.SwapThreshold
import Verif.Model.Viz
import Verif.Props.Viz
import Verif.Proofs.Drawing
import Verif.Props.Drawing
import Verif.Props.DrawGraphs
import Verif.Props.Titles
import Verif.Proofs.Sparse
import Verif.Proofs.SparseGrow
import Verif.Proofs.UfSparse
import Verif.Proofs.UfLocal
import Verif.Proofs.UfCount
import Verif.Props.UfThreshold
import Verif.Props.UfCvThreshold
import Verif.Model.GkpArray
import Verif.Props.GkpArray
import Verif.Props.MacroPolar
import Verif.Model.RhgArgs
import Verif.Props.RhgArgs
import Verif.Model.CvDirect
import Verif.Props.CvDirect
import Verif.Model.DrawRecovery
import Verif.Spec.DrawRecovery
import Verif.Proofs.DrawRecovery
import Verif.Props.DrawRecovery
import Verif.Props.CvBinomial
import Verif.Model.LinalgInt
import Verif.Props.LinalgInt
import Verif.Model.Recursion
import Verif.Props.Recursion
import Verif.Model.Copies
import Verif.Props.Copies
import Verif.Model.MacroAttrs
import Verif.Props.MacroAttrs
import Verif.Props.HalfNoise
import Verif.Props.UfErasure
import Verif.Props.UfErasureOpen
import Verif.Props.UfErasureRate
import Verif.Proofs.GaussEdge
import Verif.Props.SwapErasure
import Verif.Props.SwapMwpm
import Verif.Proofs.AnalogWeight
import Verif.Props.Analog
import Verif.Props.GkpSym
import Verif.Model.WeightHist
import Verif.Props.WeightHist
import Verif.Props.GkpShift
import Verif.Props.GkpLattice
import Verif.Props.WeightDecode
