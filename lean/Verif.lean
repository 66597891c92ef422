import Verif.Common.Err
import Verif.Common.FMap
import Verif.Jmt.NodeType
import Verif.Jmt.Tree
import Verif.Proofs.Key
import Verif.Spec.Smt
import Verif.Proofs.NodeHash
import Verif.Proofs.VTree
import Verif.Proofs.TreeHash
import Verif.Proofs.VPut
import Verif.Proofs.Cache
import Verif.Proofs.Refine
import Verif.Proofs.InsertAt
import Verif.Proofs.Root
import Verif.Proofs.Freeze
import Verif.Spec.History
import Verif.Proofs.Inv
import Verif.Proofs.OMap
import Verif.Jmt.History
import Verif.Proofs.Counting
import Verif.Proofs.Sets
import Verif.Proofs.Contents
import Verif.Proofs.StoreWrite
import Verif.Proofs.Run
import Verif.Jmt.Proof
import Verif.Jmt.Read
import Verif.Proofs.SmtPath
import Verif.Proofs.Walk
import Verif.Proofs.Reads
import Verif.Props.Examples
import Verif.Props.JmtMap
import Verif.Props.JmtSound
import Verif.Props.JmtUnique
import Verif.Jmt.Bytes
import Verif.Spec.KeyNum
import Verif.Proofs.KeyNum
import Verif.Props.JmtKeys
import Verif.Jmt.Batch
import Verif.Proofs.BatchTree
import Verif.Proofs.Groups
import Verif.Proofs.BatchRefine
import Verif.Proofs.BatchSet
import Verif.Props.JmtBatch
import Verif.Spec.Reach
import Verif.Proofs.Reach
import Verif.Proofs.Sub
import Verif.Proofs.Leaves
import Verif.Jmt.Db
import Verif.Jmt.Iterator
import Verif.Proofs.Values
import Verif.Props.JmtStore
import Verif.Props.JmtValues
import Verif.Proofs.LeafVersion
import Verif.Proofs.Iterator
import Verif.Props.JmtIter
import Verif.Jmt.NibblePath
import Verif.Proofs.NibblePath
import Verif.Props.JmtPath
import Verif.Spec.Range
import Verif.Proofs.Range
import Verif.Props.JmtRange
import Verif.Jmt.Restore
import Verif.Proofs.Restore
import Verif.Proofs.RestoreAdd
import Verif.Spec.Restore
import Verif.Proofs.RestoreRun
import Verif.Proofs.RestoreSibling
import Verif.Proofs.RestoreVerify
import Verif.Proofs.RestoreSound
import Verif.Proofs.RestoreChunks
import Verif.Proofs.RestoreFinish
import Verif.Proofs.RestoreHonest
import Verif.Props.JmtRestore
import Verif.Proofs.RestoreResume
import Verif.Props.JmtResume
import Verif.Pmt.Nibbles
import Verif.Pmt.Rlp
import Verif.Pmt.Node
import Verif.Pmt.Trie
import Verif.Pmt.System
import Verif.Spec.PmtMap
import Verif.Proofs.Patricia
import Verif.Proofs.PmtNibbles
import Verif.Proofs.PmtRlp
import Verif.Proofs.PmtCodec
import Verif.Proofs.PmtRep
import Verif.Proofs.PmtDelete
import Verif.Proofs.PmtCommit
import Verif.Proofs.PmtPath
import Verif.Proofs.PmtRun
import Verif.Proofs.PmtProof
import Verif.Props.PmtExamples
import Verif.Props.PmtMap
import Verif.Spec.PmtNode
import Verif.Proofs.PmtNode
import Verif.Pmt.Iter
import Verif.Proofs.PmtTotal
import Verif.Proofs.PmtIter
import Verif.Props.PmtProofs
import Verif.Props.PmtCodec
import Verif.Props.PmtIter
import Verif.Proofs.PmtFault
import Verif.Proofs.PmtPrune
import Verif.Proofs.PmtTwin
import Verif.Proofs.PmtLeak
import Verif.Proofs.PmtLight
import Verif.Props.PmtFault
import Verif.Spec.Exclusion
import Verif.Jmt.Exclusion
import Verif.Proofs.Exclusion
import Verif.Props.JmtExclusion
import Verif.Spec.Ics23
import Verif.Jmt.Ics23
import Verif.Proofs.Ics23
import Verif.Props.JmtIcs23
import Verif.Spec.Ics23Inputs
import Verif.Proofs.Ics23Sound
import Verif.Props.JmtIcs23Sound
import Verif.Spec.YellowPaper
import Verif.Spec.PmtReach
import Verif.Proofs.YellowPaper
import Verif.Props.PmtThreads
import Verif.Props.PmtSweep
import Verif.Props.PmtYellow
import Verif.Props.PmtLeak
import Verif.Props.JmtBorsh
import Verif.Props.JmtVersioned
import Verif.Props.JmtVersionBytes
import Verif.Spec.Steady
import Verif.Proofs.Fork
import Verif.Props.JmtFork
import Verif.Props.JmtBase
import Verif.Proofs.PmtIterHoles
import Verif.Props.PmtIterHoles
import Verif.Proofs.PmtProofMin
import Verif.Props.PmtProofMin
import Verif.Jmt.Escape
import Verif.Spec.Literal
import Verif.Props.JmtEscape
import Verif.Spec.Damage
import Verif.Props.JmtDamage
import Verif.Spec.Locality
import Verif.Proofs.Touch
import Verif.Proofs.TouchSets
import Verif.Props.JmtLocal
import Verif.Proofs.PmtReopen
import Verif.Props.PmtReopen
import Verif.Proofs.ProofShape
import Verif.Props.JmtProofShape
import Verif.Proofs.RangeUnique
import Verif.Props.JmtRangeUnique
import Verif.Jmt.BorshBatch
import Verif.Proofs.BorshBatch
import Verif.Spec.BatchFits
import Verif.Props.JmtBorshBatch
import Verif.Pmt.Faulty
import Verif.Pmt.Size
import Verif.Proofs.PmtFaulty
import Verif.Proofs.PmtFaultyLight
import Verif.Proofs.PmtCount
import Verif.Props.PmtLen
import Verif.Props.PmtFailedCommit
import Verif.Jmt.Interrupt
import Verif.Spec.Snapshot
import Verif.Proofs.Interrupt
import Verif.Proofs.Snapshot
import Verif.Proofs.Redo
import Verif.Props.JmtSnapshot
import Verif.Props.JmtRedo
import Verif.Spec.PmtCost
import Verif.Proofs.PmtLoad
import Verif.Proofs.PmtCost
import Verif.Proofs.PmtCostRun
import Verif.Props.PmtCost
import Verif.Common.Serde
import Verif.Pmt.Serde
import Verif.Spec.PmtSerde
import Verif.Proofs.PmtSerde
import Verif.Props.PmtSerde
import Verif.Proofs.RestoreContinue
import Verif.Props.JmtRestoreContinue
import Verif.Proofs.RestoreBeside
import Verif.Props.JmtRestoreBeside
import Verif.Pmt.Order
import Verif.Jmt.Order
import Verif.Proofs.PmtOrder
import Verif.Proofs.JmtCacheOrder
import Verif.Proofs.JmtOrder
import Verif.Props.HashOrder
import Verif.Proofs.Frame
import Verif.Props.JmtLayers
import Verif.Proofs.Refused
import Verif.Props.JmtRefused
import Verif.Jmt.Serde
import Verif.Proofs.JmtSerde
import Verif.Spec.JmtDoc
import Verif.Proofs.JmtDoc
import Verif.Props.JmtSerde
import Verif.Jmt.Merge
import Verif.Jmt.Text
import Verif.Proofs.Merge
import Verif.Proofs.HashCache
import Verif.Props.JmtMerge
import Verif.Props.JmtText
import Verif.Spec.PmtFormat
import Verif.Proofs.PmtDecode
import Verif.Proofs.PmtFormat
import Verif.Props.PmtDecode
import Verif.Jmt.Failing
import Verif.Spec.Failing
import Verif.Proofs.Failing
import Verif.Proofs.FailingUpdate
import Verif.Proofs.FailingIter
import Verif.Props.JmtFailing
import Verif.Pmt.Failing
import Verif.Proofs.PmtFailing
import Verif.Proofs.PmtAgain
import Verif.Props.PmtFailing
import Verif.Proofs.PatriciaThin
import Verif.Spec.PmtMarks
import Verif.Proofs.PmtMarks
import Verif.Props.PmtMarks
import Verif.Jmt.Calls
import Verif.Proofs.Rename
import Verif.Proofs.RenameBatch
import Verif.Proofs.UpdateCall
import Verif.Proofs.Genesis
import Verif.Proofs.GenesisCalls
import Verif.Proofs.GenesisStore
import Verif.Proofs.GenesisLost
import Verif.Props.JmtGenesis
import Verif.Jmt.Overflow
import Verif.Proofs.Overflow
import Verif.Props.JmtOverflow
import Verif.Jmt.RestoreFailing
import Verif.Spec.RestoreFailing
import Verif.Proofs.RestoreFailing
import Verif.Props.JmtRestoreFailing
import Verif.Jmt.RestoreTorn
import Verif.Proofs.RestoreTorn
import Verif.Props.JmtRestoreTorn
import Verif.Props.JmtRestoreRefused
import Verif.Spec.PmtDoc
import Verif.Proofs.PmtDoc
import Verif.Spec.PmtBytes
import Verif.Proofs.PmtBytes
import Verif.Proofs.PmtCircle
import Verif.Spec.PmtWalk
import Verif.Proofs.PmtWalk
import Verif.Props.PmtWalk
import Verif.Props.PmtIterMarks
import Verif.Spec.PmtShape
import Verif.Proofs.PmtPuts
import Verif.Props.PmtPuts
import Verif.Proofs.PmtTakes
import Verif.Props.PmtTakes
import Verif.Spec.PmtHonest
import Verif.Proofs.PmtProofAny
import Verif.Props.PmtProofAny
import Verif.Proofs.PmtCommitAny
import Verif.Proofs.PmtCommitHonest
import Verif.Props.PmtCommitAny
import Verif.Spec.PmtHeld
import Verif.Proofs.PmtIterAny
import Verif.Proofs.PmtIterEnds
import Verif.Props.PmtIterAny
import Verif.Props.PmtIterCalls
import Verif.Props.PmtProofCalls
