import Verif.Model.Net
import Verif.Model.Ring
import Verif.Proof.Net
import Verif.Proof.Ring
import Verif.Props.Codec
import Verif.Props.Schedule
import Verif.Model.Proto
import Verif.Model.Binary
import Verif.Model.Plain
import Verif.Proof.Proto
import Verif.Proof.Adder
import Verif.Proof.Binary
import Verif.Model.Fam
import Verif.Proof.Fam
import Verif.Proof.MsbAdder
import Verif.Props.Plain
import Verif.Spec.Joint
import Verif.Spec.Iris
import Verif.Spec.Sharing
import Verif.Model.AShare
import Verif.Model.Aby3
import Verif.Proof.AShare
import Verif.Proof.Aby3
import Verif.Props.Aby3
import Verif.Model.Iris
import Verif.Model.PlainMpc
import Verif.Proof.Fail
import Verif.Proof.Distance
import Verif.Proof.Iris
import Verif.Proof.IrisInst
import Verif.Props.Iris
import Verif.Model.Hash
import Verif.Model.Jmp
import Verif.Model.MalAby3
import Verif.Proof.Run3
import Verif.Proof.Jmp
import Verif.Proof.MalAby3
import Verif.Proof.MalAby3Iris
import Verif.Spec.Adversary
import Verif.Proof.Local
import Verif.Spec.Jmp
import Verif.Props.MalAby3
import Verif.Proof.JmpMal
import Verif.Proof.InputMal
import Verif.Props.Malicious
import Verif.Model.Triples
import Verif.Model.Spdz
import Verif.Spec.Triples
import Verif.Spec.Spdz
import Verif.Proof.Triples
import Verif.Proof.Permute
import Verif.Proof.Spdz
import Verif.Proof.SpdzIris
import Verif.Proof.SpdzMal
import Verif.Props.Spdz
import Verif.Props.SpdzIris
import Verif.Model.Dzkp
import Verif.Model.Swift3
import Verif.Spec.Swift3
import Verif.Proof.Swift3
import Verif.Proof.Swift3Gates
import Verif.Proof.Swift3Net
import Verif.Proof.Swift3Post
import Verif.Proof.Swift3Many
import Verif.Proof.Swift3Ops
import Verif.Proof.Swift3Iris
import Verif.Props.Swift3
import Verif.Props.Privacy
import Verif.Model.Gf2p64
import Verif.Model.Poly
import Verif.Proof.Poly
import Verif.Proof.PolyDiv
import Verif.Proof.Gf2
import Verif.Proof.Gf2p64
import Verif.Proof.Lagrange
import Verif.Props.Poly
import Verif.Model.ZkProof
import Verif.Spec.Dzkp
import Verif.Proof.ZkProof
import Verif.Proof.ZkComplete
import Verif.Proof.ZkCount
import Verif.Proof.ZkAnd
import Verif.Props.Dzkp
import Verif.Model.MpcNet
import Verif.Model.Channel
import Verif.Model.TestNet
import Verif.Spec.MpcNet
import Verif.Proof.MpcNet
import Verif.Proof.Channel
import Verif.Props.MpcNet
import Verif.Props.Channel
import Verif.Spec.TestNet
import Verif.Props.TestNet
import Verif.Proof.Euclid
import Verif.Proof.LagrangeMod
import Verif.Proof.ZkMul
import Verif.Props.DzkpMul
import Verif.Model.Bincode
import Verif.Model.Swift3Verify
import Verif.Proof.Bincode
import Verif.Proof.ZkSize
import Verif.Spec.Swift3Verify
import Verif.Proof.Swift3Coin
import Verif.Proof.Swift3Verify
import Verif.Proof.Stall
import Verif.Proof.Swift3Full
import Verif.Props.Swift3Verify
import Verif.Spec.Rushing
import Verif.Proof.Rushing
import Verif.Proof.RushingIris
import Verif.Props.Rushing
import Verif.Spec.Tamper
import Verif.Props.Tamper
import Verif.Spec.Pair
import Verif.Proof.Pair
import Verif.Proof.PairMal
import Verif.Props.MalRuns
import Verif.Spec.Shuffle
import Verif.Proof.PairSpdz
import Verif.Proof.Shuffle
import Verif.Props.SpdzRuns
import Verif.Model.App
import Verif.Spec.App
import Verif.Proof.App
import Verif.Props.App
import Verif.Spec.RushingSpdz
import Verif.Proof.RushingSpdz
import Verif.Props.RushingSpdz
import Verif.Proof.PairQueue
import Verif.Proof.PairWorld
import Verif.Proof.PairSpdzBin
import Verif.Proof.PairRuns
import Verif.Props.SpdzQueue
import Verif.Spec.PairMac
import Verif.Proof.PairMac
import Verif.Props.SpdzMac
import Verif.Spec.PairIris
import Verif.Proof.PairIris
import Verif.Props.SpdzQuery
import Verif.Spec.Privacy
import Verif.Proof.Uni
import Verif.Proof.UniAby3
import Verif.Proof.UniCount
import Verif.Proof.UniOpen
import Verif.Props.QueryPrivacy
import Verif.Props.Capacity
import Verif.Model.Fault
import Verif.Proof.Fault
import Verif.Props.Fault
import Verif.Model.Examples
import Verif.Proof.Examples
import Verif.Props.Examples
import Verif.Model.Sharable
import Verif.Props.Sharable
import Verif.Model.VecShare
import Verif.Props.VecShare
import Verif.Spec.PairCalls
import Verif.Proof.PairCalls
import Verif.Proof.PairCallsQuery
import Verif.Proof.PairErase
import Verif.Props.MalQuery
import Verif.Proof.GaloisRing
import Verif.Proof.ZkMulSound
import Verif.Props.DzkpSound
import Verif.Proof.Swift3Frame
import Verif.Spec.Swift3Cheat
import Verif.Proof.Swift3Cheat
import Verif.Props.Swift3Cheat
import Verif.Proof.PairExec
import Verif.Proof.Swift3PairOpen
import Verif.Spec.Swift3Pair
import Verif.Proof.Swift3PairGates
import Verif.Proof.Swift3PairPost
import Verif.Proof.Swift3PairInput
import Verif.Props.Swift3Pair
import Verif.Proof.Swift3PairReg
import Verif.Proof.Swift3PairOps
import Verif.Proof.Swift3PairMany
import Verif.Proof.Swift3PairHonest
import Verif.Props.Swift3PairGates
import Verif.Proof.Swift3PairQuery
import Verif.Spec.Swift3PairVerify
import Verif.Proof.Swift3PairVerify
import Verif.Proof.Swift3PairCheck
import Verif.Spec.DzkpTwo
import Verif.Proof.ZkTwoCoins
import Verif.Props.DzkpTwo
import Verif.Proof.Swift3PairSound
import Verif.Spec.Swift3Coins
import Verif.Proof.Swift3Coins
import Verif.Props.Swift3PairVerify
import Verif.Proof.Swift3Finish
import Verif.Props.Swift3PairQuery
import Verif.Spec.Swift3Setup
import Verif.Proof.Swift3Setup
import Verif.Props.Swift3PairSetup
import Verif.Proof.PairSetup
import Verif.Props.PairMains
import Verif.Spec.PrivacyMal
import Verif.Proof.Lock
import Verif.Proof.LockMal
import Verif.Proof.LockTriple
import Verif.Proof.LockAnd
import Verif.Proof.LockDot
import Verif.Proof.LockQuery
import Verif.Proof.LockIris
import Verif.Proof.LockCount
import Verif.Props.QueryPrivacyMal
import Verif.Spec.Session
import Verif.Props.Session
import Verif.Proof.Swift3Session
import Verif.Props.SessionMore
import Verif.Spec.PrivacySpdz
import Verif.Proof.SpdzLock
import Verif.Proof.SpdzLockGate
import Verif.Proof.SpdzLockCircuit
import Verif.Proof.SpdzLockMac
import Verif.Proof.SpdzLockIris
import Verif.Proof.SpdzLockTriple
import Verif.Proof.SpdzLockGen
import Verif.Proof.SpdzLockRun
import Verif.Proof.SpdzLockTwist
import Verif.Proof.SpdzLockQuery
import Verif.Proof.SpdzLockCount
import Verif.Props.QueryPrivacySpdz
import Verif.Spec.ZkPrivacy
import Verif.Proof.ZkHide
import Verif.Proof.ZkTape
import Verif.Proof.ZkHideInst
import Verif.Proof.ZkMask
import Verif.Proof.ZkReveal
import Verif.Props.ZkPrivacy
import Verif.Spec.PrivacyS3
import Verif.Proof.S3Lock
import Verif.Proof.S3LockGate
import Verif.Proof.S3LockPost
import Verif.Proof.S3LockMany
import Verif.Proof.S3LockAnd
import Verif.Proof.S3LockCircuit
import Verif.Proof.S3LockIris
import Verif.Proof.S3LockOpen
import Verif.Props.QueryPrivacyS3
import Verif.Model.Swift3InputAll
import Verif.Proof.InputAby3
import Verif.Proof.S3Input
import Verif.Proof.Swift3InputAll
import Verif.Proof.InputMalLock
import Verif.Proof.InputSpdz
import Verif.Props.InputPrivacy
import Verif.Proof.S3LockMul
import Verif.Proof.S3OpenAll
import Verif.Proof.OpenLock
import Verif.Props.OpenPrivacy
import Verif.Proof.UniSession
import Verif.Props.SessionAby3
import Verif.Proof.UniGates
import Verif.Proof.SpdzGates
import Verif.Proof.MalGates
import Verif.Props.GatePrivacy
import Verif.Spec.SetupPrivacy
import Verif.Proof.SetupPrivacy
import Verif.Props.SetupPrivacy
import Verif.Spec.Traffic
import Verif.Proof.Alike
import Verif.Proof.AlikeGen
import Verif.Proof.AlikeInst
import Verif.Proof.AlikeSpdz
import Verif.Props.Traffic
import Verif.Proof.AlikeSwift3
import Verif.Spec.Traffic3
import Verif.Proof.AlikeAndVerify
import Verif.Proof.VerifyLength
import Verif.Proof.AlikePattern
import Verif.Props.TrafficSwift3
import Verif.Spec.Cost
import Verif.Spec.Exact
import Verif.Spec.ExactMal
import Verif.Proof.Cost
import Verif.Proof.CostMal
import Verif.Proof.Exact
import Verif.Proof.ExactMal
import Verif.Proof.ExactOps
import Verif.Props.Cost
import Verif.Props.Exact
