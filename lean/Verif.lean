import Verif.Props.Linear
import Verif.Props.RCSketch
import Verif.Props.RCSketch2
import Verif.Props.KeyedSumTree
import Verif.Props.TDigest
import Verif.Props.TDigestQuery
import Verif.Props.TDCluster
import Verif.Props.ParTDigest
import Verif.Props.BufferedDigest
import Verif.Props.MultiDigest
import Verif.Props.SymDigest
import Verif.Props.ParallelDigest
import Verif.Props.ScaleFns
import Verif.Props.ScaleSize
import Verif.Props.Util
import Verif.Props.TDAccuracy
import Verif.Props.TDRelative
import Verif.Props.TDRound
import Verif.Props.TDRule
import Verif.Props.TDAdversary
import Verif.Props.TDOutward
import Verif.Props.ParallelRound
import Verif.Props.MultiRound
import Verif.Props.RCRelative
import Verif.Props.OwnedSize
import Verif.Props.RCValue
import Verif.Props.SymRC
import Verif.Props.ParTRound
import Verif.Props.SymRound
import Verif.Model.RC2Sections
import Verif.Proofs.RC2Rank
import Verif.Proofs.RC2Sections
import Verif.Props.RC2Accuracy
import Verif.Proofs.RC2Relative
import Verif.Props.RC2Relative
import Verif.Spec.Share
import Verif.Proofs.ParallelExp
import Verif.Props.ParallelRC
import Verif.Proofs.TDRoundCluster
import Verif.Props.TDRoundCluster
import Verif.Spec.Symmetric
import Verif.Proofs.KSTRound
import Verif.Props.KSTRound
import Verif.Spec.Calls
import Verif.Props.ParTFlush
import Verif.Props.BufferedRC
import Verif.Proofs.TDDrift
import Verif.Props.TDDrift
import Verif.Props.ParTDrift
import Verif.Props.BufferedT
import Verif.Spec.Cost
import Verif.Proofs.TDTreePanic
import Verif.Props.TDTreePanic
import Verif.Proofs.Rescale
import Verif.Props.Rescale
import Verif.Spec.Affine
import Verif.Proofs.Affine
import Verif.Proofs.AffineCluster
import Verif.Props.Affine
import Verif.Proofs.TDInfinite
import Verif.Props.TDInfinite
import Verif.Model.Gen
import Verif.Props.Gen
import Verif.Spec.Outcomes
import Verif.Proofs.BatchOrder
import Verif.Props.BatchOrder
import Verif.Proofs.TDRoundSize
import Verif.Props.TDRoundSize
import Verif.Proofs.TDRoundRuns
import Verif.Proofs.TDRoundRank
import Verif.Props.TDRoundRank
import Verif.Proofs.TDTrip
import Verif.Props.TDTrip
import Verif.Proofs.TDRoundValue
import Verif.Props.TDRoundValue
import Verif.Model.RCBuffer
import Verif.Proofs.RCSized
import Verif.Props.RCBuffer
import Verif.Proofs.RCLevels
import Verif.Proofs.RCCapacity
import Verif.Props.RCCapacity
import Verif.Props.BufferedRound
import Verif.Model.ParallelChunk
import Verif.Props.ParallelChunk
import Verif.Proofs.ParTRoundRank
import Verif.Props.ParTRoundRank
import Verif.Props.ParTSize
import Verif.Proofs.TDPlain
import Verif.Props.TDPlain
import Verif.Props.SymRC2
import Verif.Props.BufferedPlain
import Verif.Model.RCWeighted
import Verif.Proofs.RCWeighted
import Verif.Proofs.RCWeightedHist
import Verif.Proofs.RCWeightedInv
import Verif.Props.RCWeighted
import Verif.Props.RCMerge
import Verif.Props.RCBeyond
import Verif.Spec.RCTree
import Verif.Model.RCTree
import Verif.Proofs.RCTree
import Verif.Props.RCTree
import Verif.Model.RC2Calls
import Verif.Spec.RC2Calls
import Verif.Proofs.RC2Calls
import Verif.Props.RC2Calls
import Verif.Model.TDShards
import Verif.Spec.TDShards
import Verif.Proofs.TDShards
import Verif.Props.TDShards
import Verif.Proofs.TDShardsRound
import Verif.Props.TDShardsRound
import Verif.Proofs.TDRelDrift
import Verif.Proofs.TDBeside
import Verif.Props.TDRelDrift
import Verif.Props.RCTreeValue
import Verif.Spec.TDFrac
import Verif.Proofs.TDFrac
import Verif.Props.TDFrac
import Verif.Proofs.TDRoot
import Verif.Proofs.TDRootDrift
import Verif.Props.TDRoot
import Verif.Base.Fl
import Verif.Base.Prog
import Verif.Model.BufferedDigest
import Verif.Model.Centroid
import Verif.Model.Compaction
import Verif.Model.KeyedSumTree
import Verif.Model.Linear
import Verif.Model.MultiDigest
import Verif.Model.Nondet
import Verif.Model.OwnedSize
import Verif.Model.ParTDigest
import Verif.Model.ParallelDigest
import Verif.Model.RCSketch
import Verif.Model.RCSketch2
import Verif.Model.ScaleFns
import Verif.Model.ScaleK0
import Verif.Model.SymDigest
import Verif.Model.TDigest
import Verif.Model.Traits
import Verif.Model.Util
import Verif.Proofs.BufferedDigest
import Verif.Proofs.Cascade
import Verif.Proofs.F64
import Verif.Proofs.F64Error
import Verif.Proofs.F64Roomy
import Verif.Proofs.KeyedSumTree
import Verif.Proofs.Linear
import Verif.Proofs.MultiDigest
import Verif.Proofs.Nondet
import Verif.Proofs.ParTDigest
import Verif.Proofs.ParTRound
import Verif.Proofs.ParallelDigest
import Verif.Proofs.ParallelRound
import Verif.Proofs.RC2
import Verif.Proofs.RC2Exp
import Verif.Proofs.RC2Hist
import Verif.Proofs.RC2Levels
import Verif.Proofs.RCBuf
import Verif.Proofs.RCExp
import Verif.Proofs.RCFlow
import Verif.Proofs.RCHist
import Verif.Proofs.RCInv
import Verif.Proofs.RCQuery
import Verif.Proofs.RCRange
import Verif.Proofs.RCRelative
import Verif.Proofs.RCValue
import Verif.Proofs.RCWeight
import Verif.Proofs.ScaleFns
import Verif.Proofs.ScaleSize
import Verif.Proofs.Sort
import Verif.Proofs.TDAccuracy
import Verif.Proofs.TDAccuracy2
import Verif.Proofs.TDAdversary
import Verif.Proofs.TDCluster
import Verif.Proofs.TDExact
import Verif.Proofs.TDHist
import Verif.Proofs.TDMerge
import Verif.Proofs.TDOutward
import Verif.Proofs.TDQuery
import Verif.Proofs.TDQuery2
import Verif.Proofs.TDRelative
import Verif.Proofs.TDRound
import Verif.Proofs.TDRoundQuery
import Verif.Proofs.TDTree
import Verif.Proofs.TDValue
import Verif.Proofs.TDValue2
import Verif.Proofs.TraitIns
import Verif.Spec.Basic
import Verif.Spec.Centroid
import Verif.Spec.F64
import Verif.Spec.History
import Verif.Spec.Memory
import Verif.Spec.RCSketch
import Verif.Spec.Rounding
import Verif.Spec.TDigest
import Verif.Proofs.ParTLayers
import Verif.Proofs.ParTScale
import Verif.Props.ParTScale
import Verif.Proofs.TDLow
import Verif.Props.TDLow
import Verif.Props.SymTD
import Verif.Props.ParallelTD
import Verif.Proofs.BufferedLayers
import Verif.Props.BufferedScale
import Verif.Props.MultiTD
import Verif.Spec.TDCost
import Verif.Proofs.TDCost
import Verif.Props.TDCost
import Verif.Model.KSTCost
import Verif.Spec.Orders
import Verif.Proofs.Orders
import Verif.Props.KSTCost
import Verif.Proofs.Tail
import Verif.Proofs.RCTail
import Verif.Props.RCTail
import Verif.Proofs.RC2Tail
import Verif.Props.RC2Tail
import Verif.Spec.Concentrates
import Verif.Proofs.CombineTail
import Verif.Props.CombineTail
import Verif.Proofs.RCRelTail
import Verif.Props.RCRelTail
import Verif.Proofs.RC2RelTail
import Verif.Props.RC2RelTail
import Verif.Props.SymTail
import Verif.Props.CombineRel
import Verif.Props.NestRel
import Verif.Props.BufferedRel
import Verif.Props.ParTAffine
import Verif.Props.AffineNest
import Verif.Props.AffineValue
import Verif.Proofs.TDAgain
import Verif.Props.Repeat
import Verif.Props.Steady
import Verif.Props.SteadyBuffered
