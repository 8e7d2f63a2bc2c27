import Verif.Model.ArmInstruction
import Verif.Model.Basic
import Verif.Model.BitQueue
import Verif.Model.Bits
import Verif.Model.Blaum
import Verif.Model.Cfg
import Verif.Model.CompareScript
import Verif.Model.Compressor
import Verif.Model.Constraint
import Verif.Model.Corruption
import Verif.Model.Corruptors
import Verif.Model.DarmInstruction
import Verif.Model.DecodedProgram
import Verif.Model.Dominators
import Verif.Model.Dot
import Verif.Model.ForwardBuilder
import Verif.Model.FreqChange
import Verif.Model.Frontier
import Verif.Model.Huffman
import Verif.Model.HuffmanScripts
import Verif.Model.Instruction
import Verif.Model.Interleave
import Verif.Model.Json
import Verif.Model.Metadata
import Verif.Model.MetricsScript
import Verif.Model.Modifier
import Verif.Model.Neighbours
import Verif.Model.PacketCorruptor
import Verif.Model.Packing
import Verif.Model.Pipeline
import Verif.Model.Predict
import Verif.Model.Probability
import Verif.Model.QualityReport
import Verif.Model.Random
import Verif.Model.Readers
import Verif.Model.Recovery
import Verif.Model.Recuperator
import Verif.Model.Report
import Verif.Model.Rules
import Verif.Model.RunRecovery
import Verif.Model.SolutionIO
import Verif.Model.SolutionQuality
import Verif.Model.Ssa
import Verif.Model.StorePackets
import Verif.Model.StoreScript
import Verif.Proof.Basic
import Verif.Proof.BitQueue
import Verif.Proof.Bits
import Verif.Proof.Cfg
import Verif.Proof.CfgBuild
import Verif.Proof.CfgEdges
import Verif.Proof.CfgEdgesLoop
import Verif.Proof.CfgExact
import Verif.Proof.CfgExactLine
import Verif.Proof.CfgExactLoop
import Verif.Proof.CfgRemove
import Verif.Proof.Compressor
import Verif.Proof.Constraint
import Verif.Proof.CorruptEnds
import Verif.Proof.CorruptProgram
import Verif.Proof.Corruption
import Verif.Proof.Dfs
import Verif.Proof.DfsTree
import Verif.Proof.Distance
import Verif.Proof.DomLine
import Verif.Proof.DomOrder
import Verif.Proof.DomTree
import Verif.Proof.Dominators
import Verif.Proof.Dot
import Verif.Proof.DotHyper
import Verif.Proof.DotRead
import Verif.Proof.DotRound
import Verif.Proof.DotWrite
import Verif.Proof.Entropy
import Verif.Proof.ErrsIn
import Verif.Proof.Evidence
import Verif.Proof.ForwardBuilder
import Verif.Proof.FreqChange
import Verif.Proof.Frontier
import Verif.Proof.Huffman
import Verif.Proof.Interleave
import Verif.Proof.MainProgram
import Verif.Proof.Metadata
import Verif.Proof.Modifier
import Verif.Proof.OnData
import Verif.Proof.PacketCorruptor
import Verif.Proof.Packing
import Verif.Proof.PhiPlace
import Verif.Proof.Pipeline
import Verif.Proof.Predict
import Verif.Proof.ReaderErrors
import Verif.Proof.ReaderFunctions
import Verif.Proof.Readers
import Verif.Proof.Recovery
import Verif.Proof.RecoveryFrame
import Verif.Proof.Recuperator
import Verif.Proof.Rules
import Verif.Proof.Run
import Verif.Proof.RunRecovery
import Verif.Proof.RunSafe
import Verif.Proof.SolutionIO
import Verif.Proof.SolutionQuality
import Verif.Proof.SpecBits
import Verif.Proof.Ssa
import Verif.Proof.SsaGraph
import Verif.Proof.SsaLeft
import Verif.Proof.SsaParams
import Verif.Proof.SsaReads
import Verif.Proof.SsaTrace
import Verif.Proof.SsaVisit
import Verif.Proof.StorePackets
import Verif.Proof.StoreScript
import Verif.Proof.StraightLine
import Verif.Proof.Tape
import Verif.Props.ArmInstruction
import Verif.Props.Bits
import Verif.Props.Blaum
import Verif.Props.Burst
import Verif.Props.BurstRecovery
import Verif.Props.CandidateCount
import Verif.Props.Cfg
import Verif.Props.CfgEdges
import Verif.Props.CfgExact
import Verif.Props.CompareScript
import Verif.Props.CompressRelated
import Verif.Props.Compressor
import Verif.Props.Constraint
import Verif.Props.ConstraintExact
import Verif.Props.CorruptCompose
import Verif.Props.CorruptEnds
import Verif.Props.CorruptInstruction
import Verif.Props.Corruption
import Verif.Props.Corruptors
import Verif.Props.CountRelated
import Verif.Props.DarmInstruction
import Verif.Props.DecodedMoved
import Verif.Props.DecodedProgram
import Verif.Props.Distance
import Verif.Props.DomRelated
import Verif.Props.DomRename
import Verif.Props.Dominators
import Verif.Props.Dot
import Verif.Props.DotColors
import Verif.Props.Entropy
import Verif.Props.EntropyExact
import Verif.Props.Evidence
import Verif.Props.ForwardBuilder
import Verif.Props.ForwardExact
import Verif.Props.FreqChange
import Verif.Props.Frontier
import Verif.Props.Huffman
import Verif.Props.HuffmanBounds
import Verif.Props.HuffmanRelated
import Verif.Props.HuffmanScripts
import Verif.Props.Instruction
import Verif.Props.Interleave
import Verif.Props.Json
import Verif.Props.LossCompose
import Verif.Props.LossPlaces
import Verif.Props.MainProgram
import Verif.Props.MainStages
import Verif.Props.Metadata
import Verif.Props.MetricsScript
import Verif.Props.MoreCandidates
import Verif.Props.Neighbours
import Verif.Props.OldRecuperator
import Verif.Props.PacketBits
import Verif.Props.PacketCorruptor
import Verif.Props.PacketNames
import Verif.Props.Packing
import Verif.Props.PassExact
import Verif.Props.Pipeline
import Verif.Props.Predict
import Verif.Props.Probability
import Verif.Props.ProblemExact
import Verif.Props.QualityReport
import Verif.Props.QueueExact
import Verif.Props.ReadCandidate
import Verif.Props.ReadLocal
import Verif.Props.ReadableFiles
import Verif.Props.ReaderErrors
import Verif.Props.Readers
import Verif.Props.ReceivedCandidates
import Verif.Props.Recovery
import Verif.Props.RecoveryFrame
import Verif.Props.Recuperator
import Verif.Props.Relocate
import Verif.Props.Rename
import Verif.Props.Report
import Verif.Props.Resave
import Verif.Props.Rewrite
import Verif.Props.RuleValues
import Verif.Props.Rules
import Verif.Props.RunAgain
import Verif.Props.RunExact
import Verif.Props.RunFiles
import Verif.Props.RunRecovery
import Verif.Props.RunStages
import Verif.Props.ScoreOrder
import Verif.Props.ShiftExact
import Verif.Props.SolutionIO
import Verif.Props.SolutionQuality
import Verif.Props.SpaceOrder
import Verif.Props.Ssa
import Verif.Props.SsaExact
import Verif.Props.SsaMerge
import Verif.Props.SsaTrace
import Verif.Props.StorePackets
import Verif.Props.StoreScript
import Verif.Props.Straddle
import Verif.Props.Tight
import Verif.Props.Tight2
import Verif.Props.Tight3
import Verif.Props.Tight4
import Verif.Props.Tight5
import Verif.Props.Tight6
import Verif.Props.Tight7
import Verif.Props.TwoLosses
import Verif.Props.TwoReceptions
import Verif.Props.Uniform
import Verif.Props.UnionStages
import Verif.Props.UsageExact
import Verif.Spec.BitQueue
import Verif.Spec.Bits
import Verif.Spec.Cfg
import Verif.Spec.CfgEdges
import Verif.Spec.CfgExact
import Verif.Spec.Compressor
import Verif.Spec.Constraint
import Verif.Spec.CorruptEnds
import Verif.Spec.Corruption
import Verif.Spec.Distance
import Verif.Spec.Dot
import Verif.Spec.Entropy
import Verif.Spec.Evidence
import Verif.Spec.Fields
import Verif.Spec.Graph
import Verif.Spec.Huffman
import Verif.Spec.Instruction
import Verif.Spec.Interleave
import Verif.Spec.Metadata
import Verif.Spec.PassRule
import Verif.Spec.Predict
import Verif.Spec.ReaderErrors
import Verif.Spec.ReaderFunctions
import Verif.Spec.Readers
import Verif.Spec.Round
import Verif.Spec.Rules
import Verif.Spec.Scripts
import Verif.Spec.SolutionIO
import Verif.Spec.SolutionQuality
import Verif.Spec.Ssa
import Verif.Spec.SsaTrace
import Verif.Spec.Tape
