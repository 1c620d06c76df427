import Verif.Lemmas.Aggregate
import Verif.Lemmas.Aggregate2
import Verif.Lemmas.Aggregate3
import Verif.Lemmas.Aggregate4
import Verif.Lemmas.BPComplete
import Verif.Lemmas.BPProve
import Verif.Lemmas.BPTag
import Verif.Lemmas.BPVerify
import Verif.Lemmas.Batch
import Verif.Lemmas.Bounds
import Verif.Lemmas.Chebyshev
import Verif.Lemmas.Compress
import Verif.Lemmas.Constraints
import Verif.Lemmas.Constraints2
import Verif.Lemmas.Convince
import Verif.Lemmas.ConvinceHonest
import Verif.Lemmas.ConvinceQuad
import Verif.Lemmas.Count
import Verif.Lemmas.Decode
import Verif.Lemmas.Doubles
import Verif.Lemmas.Doubles2
import Verif.Lemmas.Elt
import Verif.Lemmas.Exp2
import Verif.Lemmas.FiatShamir
import Verif.Lemmas.FiatShamirTree
import Verif.Lemmas.Final
import Verif.Lemmas.FinalCoins
import Verif.Lemmas.Forgery
import Verif.Lemmas.FourSquares
import Verif.Lemmas.FourSquares2
import Verif.Lemmas.Handover
import Verif.Lemmas.Honest
import Verif.Lemmas.Hybrid
import Verif.Lemmas.InPlace
import Verif.Lemmas.Keccak
import Verif.Lemmas.KeccakPerm
import Verif.Lemmas.KeyHash
import Verif.Lemmas.Main
import Verif.Lemmas.Masking
import Verif.Lemmas.Merlin
import Verif.Lemmas.NextRound
import Verif.Lemmas.PointBytes
import Verif.Lemmas.Pow2
import Verif.Lemmas.Pratt
import Verif.Lemmas.ProofBytes
import Verif.Lemmas.ProofIO
import Verif.Lemmas.QuadSound
import Verif.Lemmas.QuadTreeExists
import Verif.Lemmas.RegevCore
import Verif.Lemmas.RegevDec
import Verif.Lemmas.RegevEnc
import Verif.Lemmas.RegevEncRun
import Verif.Lemmas.RegevFits
import Verif.Lemmas.RegevHonest
import Verif.Lemmas.RegevKeyRun
import Verif.Lemmas.RegevReShare
import Verif.Lemmas.RegevSmallRun
import Verif.Lemmas.RegevSteps
import Verif.Lemmas.RegevSteps2
import Verif.Lemmas.RegevSteps3
import Verif.Lemmas.RegevSteps4
import Verif.Lemmas.RegevTotal
import Verif.Lemmas.RegevUtils
import Verif.Lemmas.Round
import Verif.Lemmas.RoundHiding
import Verif.Lemmas.RoundRecord
import Verif.Lemmas.RoundSound
import Verif.Lemmas.Scalar
import Verif.Lemmas.Shamir
import Verif.Lemmas.Slot
import Verif.Lemmas.SmallVector
import Verif.Lemmas.Smallness
import Verif.Lemmas.Soundness
import Verif.Lemmas.Tail
import Verif.Lemmas.TailBytes
import Verif.Lemmas.Ternary
import Verif.Lemmas.TernaryAlias
import Verif.Lemmas.TernaryCount
import Verif.Lemmas.TopBit
import Verif.Lemmas.TreeExists
import Verif.Lemmas.Unbound
import Verif.Lemmas.Vec
import Verif.Lemmas.WitnessInd
import Verif.Lemmas.WitnessPerm
import Verif.Model.Aggregate
import Verif.Model.AlgebraUtils
import Verif.Model.Arguments
import Verif.Model.Basic
import Verif.Model.Bounds
import Verif.Model.Bulletproof
import Verif.Model.CheckCommit
import Verif.Model.ConstraintTypes
import Verif.Model.Constraints
import Verif.Model.Count
import Verif.Model.Doubles
import Verif.Model.Driver
import Verif.Model.Elt
import Verif.Model.FourSquares
import Verif.Model.InPlace
import Verif.Model.KeyHash
import Verif.Model.Library
import Verif.Model.Main
import Verif.Model.Merlin
import Verif.Model.Pedersen
import Verif.Model.Point25519
import Verif.Model.PointBytes
import Verif.Model.PointInit
import Verif.Model.Print
import Verif.Model.ProofBytes
import Verif.Model.ProofIO
import Verif.Model.Protocol
import Verif.Model.RegevEnc
import Verif.Model.RegevProofs
import Verif.Model.RegevUtils
import Verif.Model.RngWipe
import Verif.Model.Samplers
import Verif.Model.Scalar25519
import Verif.Model.ScalarOps
import Verif.Model.Shamir
import Verif.Model.TagBytes
import Verif.Model.Ternary
import Verif.Model.TernaryAlias
import Verif.Model.Transcript
import Verif.Model.VerifierSide
import Verif.Props.Aggregate
import Verif.Props.AlgebraUtils
import Verif.Props.Ambiguous
import Verif.Props.Arguments
import Verif.Props.Batch
import Verif.Props.Blinding
import Verif.Props.Bounds
import Verif.Props.Bulletproof
import Verif.Props.CheckCommit
import Verif.Props.Compress
import Verif.Props.Constraints
import Verif.Props.Convince
import Verif.Props.Count
import Verif.Props.Doubles
import Verif.Props.FiatShamir
import Verif.Props.FiatShamirAdaptive
import Verif.Props.FiatShamirLibrary
import Verif.Props.Flatten
import Verif.Props.FourSquares
import Verif.Props.GiveUp
import Verif.Props.Handover
import Verif.Props.HandoverPrivacy
import Verif.Props.HandoverSealed
import Verif.Props.InPlace
import Verif.Props.Keccak
import Verif.Props.KeyHash
import Verif.Props.Labels
import Verif.Props.Library
import Verif.Props.LinearPart
import Verif.Props.Main
import Verif.Props.Masking
import Verif.Props.Merlin
import Verif.Props.Norm
import Verif.Props.NormCount
import Verif.Props.NormProof
import Verif.Props.Pedersen
import Verif.Props.PointBytes
import Verif.Props.Print
import Verif.Props.Program
import Verif.Props.ProofBytes
import Verif.Props.ProofIO
import Verif.Props.QuadSound
import Verif.Props.QuadTreeExists
import Verif.Props.Receiver
import Verif.Props.ReceiverEx
import Verif.Props.RegevEnc
import Verif.Props.RegevParams
import Verif.Props.RegevProofs
import Verif.Props.RegevUtils
import Verif.Props.Round
import Verif.Props.RoundForgery
import Verif.Props.RoundHiding
import Verif.Props.RoundSound
import Verif.Props.RoundSoundEx
import Verif.Props.RoundTranscript
import Verif.Props.RoundTranscriptEx
import Verif.Props.RunExists
import Verif.Props.Samplers
import Verif.Props.Scalar
import Verif.Props.ScalarField
import Verif.Props.Shamir
import Verif.Props.ShamirRank
import Verif.Props.SmallGiveUp
import Verif.Props.Smallness
import Verif.Props.Soundness
import Verif.Props.Tail
import Verif.Props.TailRound
import Verif.Props.Ternary
import Verif.Props.TernaryAlias
import Verif.Props.TopBit
import Verif.Props.TreeExists
import Verif.Props.Unbound
import Verif.Props.WitnessInd
import Verif.Props.WrongDec
import Verif.Spec.Aggregate
import Verif.Spec.AlgebraUtils
import Verif.Spec.Arguments
import Verif.Spec.Batch
import Verif.Spec.Blinding
import Verif.Spec.Bounds
import Verif.Spec.Bulletproof
import Verif.Spec.Compress
import Verif.Spec.Constraints
import Verif.Spec.Convince
import Verif.Spec.Count
import Verif.Spec.Demo
import Verif.Spec.Doubles
import Verif.Spec.Elt
import Verif.Spec.Enforced
import Verif.Spec.FiatShamir
import Verif.Spec.FiatShamirLibrary
import Verif.Spec.FinalChallenges
import Verif.Spec.Forgery
import Verif.Spec.FourSquares
import Verif.Spec.GiveUp
import Verif.Spec.Handover
import Verif.Spec.HandoverView
import Verif.Spec.Hiding
import Verif.Spec.Honest
import Verif.Spec.InPlace
import Verif.Spec.Keccak
import Verif.Spec.KeyHash
import Verif.Spec.Library
import Verif.Spec.Main
import Verif.Spec.Masking
import Verif.Spec.Merlin
import Verif.Spec.NormProof
import Verif.Spec.Opened
import Verif.Spec.Point
import Verif.Spec.PointBytes
import Verif.Spec.ProofBytes
import Verif.Spec.ProofIO
import Verif.Spec.Regev
import Verif.Spec.RegevDemo
import Verif.Spec.RegevProofs
import Verif.Spec.RegevSetup
import Verif.Spec.Round
import Verif.Spec.RoundForgery
import Verif.Spec.RoundMsgs
import Verif.Spec.RoundSound
import Verif.Spec.Samplers
import Verif.Spec.Scalar
import Verif.Spec.Shamir
import Verif.Spec.SmallGiveUp
import Verif.Spec.Smallness
import Verif.Spec.Soundness
import Verif.Spec.Tail
import Verif.Spec.TailRound
import Verif.Spec.Ternary
import Verif.Spec.TernaryAlias
import Verif.Spec.TopBit
import Verif.Spec.Toy
import Verif.Spec.Vec
import Verif.Spec.WitnessInd
import Verif.Spec.WrongDec
