import Verif.Lemmas.Avg
import Verif.Lemmas.Batch
import Verif.Lemmas.BeforeMove
import Verif.Lemmas.BiasTail
import Verif.Lemmas.Birthday
import Verif.Lemmas.BitRev
import Verif.Lemmas.Bits
import Verif.Lemmas.Blind
import Verif.Lemmas.Bootstrap
import Verif.Lemmas.Buffers
import Verif.Lemmas.Chain
import Verif.Lemmas.Chernoff
import Verif.Lemmas.CoinCount
import Verif.Lemmas.Concurrent
import Verif.Lemmas.Coupling
import Verif.Lemmas.Decomp
import Verif.Lemmas.DriftCount
import Verif.Lemmas.DriftFar
import Verif.Lemmas.DriftLower
import Verif.Lemmas.Encoder
import Verif.Lemmas.EvCalls
import Verif.Lemmas.Evaluator
import Verif.Lemmas.EvenRows
import Verif.Lemmas.ExtProd
import Verif.Lemmas.Fft
import Verif.Lemmas.FftAcc
import Verif.Lemmas.FftConv
import Verif.Lemmas.FftConvert
import Verif.Lemmas.FftErr
import Verif.Lemmas.FftExact
import Verif.Lemmas.FftFloat
import Verif.Lemmas.FftLaws
import Verif.Lemmas.FftNorm
import Verif.Lemmas.FftRange
import Verif.Lemmas.FftReal
import Verif.Lemmas.FftRun
import Verif.Lemmas.FftTw
import Verif.Lemmas.FinTorus
import Verif.Lemmas.FirstMove
import Verif.Lemmas.Float
import Verif.Lemmas.FreshProb
import Verif.Lemmas.FreshStep
import Verif.Lemmas.GadgetIdeal
import Verif.Lemmas.GateProb
import Verif.Lemmas.Gates
import Verif.Lemmas.JointTail
import Verif.Lemmas.KeyNoise
import Verif.Lemmas.KeyRecovery
import Verif.Lemmas.KeySwitch
import Verif.Lemmas.LeftoverHash
import Verif.Lemmas.Lost
import Verif.Lemmas.LostBias
import Verif.Lemmas.LostChain
import Verif.Lemmas.LowBits
import Verif.Lemmas.Lut
import Verif.Lemmas.LutBias
import Verif.Lemmas.LutProb
import Verif.Lemmas.LutTail
import Verif.Lemmas.LweMessage
import Verif.Lemmas.MaskDigits
import Verif.Lemmas.NegHalf
import Verif.Lemmas.NegRing
import Verif.Lemmas.NegUnit
import Verif.Lemmas.Negacyclic
import Verif.Lemmas.NormalNoise
import Verif.Lemmas.Panic
import Verif.Lemmas.PoolEval
import Verif.Lemmas.Prelude
import Verif.Lemmas.ProdProb
import Verif.Lemmas.ProxyReenc
import Verif.Lemmas.Rade
import Verif.Lemmas.Rotate
import Verif.Lemmas.Sched
import Verif.Lemmas.SessionProb
import Verif.Lemmas.SubGauss
import Verif.Lemmas.TailLower
import Verif.Lemmas.Tlwe
import Verif.Lemmas.Torus
import Verif.Lemmas.Trgsw
import Verif.Lemmas.Trlwe
import Verif.Lemmas.Walk
import Verif.Lemmas.Wave
import Verif.Model.AddTwo
import Verif.Model.Alias
import Verif.Model.Batch
import Verif.Model.Bits
import Verif.Model.Buffers
import Verif.Model.Circuit
import Verif.Model.CloudKey
import Verif.Model.Concurrent
import Verif.Model.Decomp
import Verif.Model.EvCalls
import Verif.Model.Evaluator
import Verif.Model.Fft
import Verif.Model.FftArith
import Verif.Model.Float
import Verif.Model.Fourier
import Verif.Model.FourierProg
import Verif.Model.Gates
import Verif.Model.Helpers
import Verif.Model.Key
import Verif.Model.KeySwitch
import Verif.Model.Linear
import Verif.Model.Lut
import Verif.Model.LweMessage
import Verif.Model.Mono
import Verif.Model.MsgProgram
import Verif.Model.Params
import Verif.Model.PbsMain
import Verif.Model.Poly
import Verif.Model.PoolEval
import Verif.Model.Prelude
import Verif.Model.ProxyExample
import Verif.Model.ProxyReenc
import Verif.Model.Rand
import Verif.Model.Rotate
import Verif.Model.RotatePrivate
import Verif.Model.Sched
import Verif.Model.SimpleGates
import Verif.Model.Tenants
import Verif.Model.Tlwe
import Verif.Model.Trgsw
import Verif.Model.Trlwe
import Verif.Model.Utils
import Verif.Props.AddTwo
import Verif.Props.Aligned
import Verif.Props.Batch
import Verif.Props.BufferTables
import Verif.Props.Buffers
import Verif.Props.Cancel
import Verif.Props.Circuits
import Verif.Props.CloudKey
import Verif.Props.Concurrent
import Verif.Props.Decomp
import Verif.Props.Delegation
import Verif.Props.Drift
import Verif.Props.Encoding
import Verif.Props.Evaluator
import Verif.Props.Examples
import Verif.Props.Fft
import Verif.Props.FftFloat
import Verif.Props.FloatGates
import Verif.Props.FloatPbs
import Verif.Props.FloatRange
import Verif.Props.FourierProg
import Verif.Props.FreshProgram
import Verif.Props.FreshProgramLevels
import Verif.Props.GateFailure
import Verif.Props.GateFailureLevels
import Verif.Props.Gates
import Verif.Props.Helpers
import Verif.Props.Hiding
import Verif.Props.KeyNoise
import Verif.Props.KeyNoiseLevels
import Verif.Props.KeyRecovery
import Verif.Props.KeySwitch
import Verif.Props.Levels
import Verif.Props.LevelsUint2
import Verif.Props.Linear
import Verif.Props.LookupFailure
import Verif.Props.LookupFailureLevels
import Verif.Props.LookupSession
import Verif.Props.LostBits
import Verif.Props.Lut
import Verif.Props.LweMessage
import Verif.Props.Mono
import Verif.Props.MsgProgram
import Verif.Props.NoKsk
import Verif.Props.NoiseProb
import Verif.Props.Params
import Verif.Props.Pbs
import Verif.Props.PbsOverflow
import Verif.Props.ProxyReenc
import Verif.Props.Rand
import Verif.Props.RandRepeat
import Verif.Props.RandTape
import Verif.Props.ReencChain
import Verif.Props.ReencChainLevels
import Verif.Props.ReencExample
import Verif.Props.ReencJoint
import Verif.Props.ReencLevels
import Verif.Props.ReencProb
import Verif.Props.ReencRandom
import Verif.Props.Rewrite
import Verif.Props.Rotate
import Verif.Props.RotatePool
import Verif.Props.RotatePrivate
import Verif.Props.Session
import Verif.Props.Tenants
import Verif.Props.Tlwe
import Verif.Props.Trgsw
import Verif.Props.Trlwe
import Verif.Props.UintFail
import Verif.Props.WrongDirection
import Verif.Props.WrongKey
import Verif.Props.WrongKeyJoint
import Verif.Props.WrongKeyRing
import Verif.Spec.Basic
import Verif.Spec.Bits
import Verif.Spec.Bootstrap
import Verif.Spec.Buffers
import Verif.Spec.Circuit
import Verif.Spec.Coins
import Verif.Spec.ExactBackend
import Verif.Spec.Fourier
import Verif.Spec.FourierProg
import Verif.Spec.FreshProgram
import Verif.Spec.Game
import Verif.Spec.GateRun
import Verif.Spec.KeyMasks
import Verif.Spec.KeyRecovery
import Verif.Spec.Keys
import Verif.Spec.Linear
import Verif.Spec.LookupSession
import Verif.Spec.Lut
import Verif.Spec.Mask
import Verif.Spec.MsgProgram
import Verif.Spec.Negacyclic
import Verif.Spec.Noise
import Verif.Spec.PbsOverflow
import Verif.Spec.Rand
import Verif.Spec.Rewrite
import Verif.Spec.Session
import Verif.Spec.Tenants
import Verif.Spec.Trgsw
