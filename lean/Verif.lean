import Verif.Base.Ascii
import Verif.Base.GoMap
import Verif.Base.Basic
import Verif.Model.TxCache
import Verif.Spec.TxCache
import Verif.Proof.TxCache
import Verif.Props.TxCache
import Verif.Model.ForkWatchdog
import Verif.Spec.ForkWatchdog
import Verif.Proof.ForkWatchdog
import Verif.Props.ForkWatchdog
import Verif.Model.ErrorHandler
import Verif.Spec.ErrorHandler
import Verif.Proof.ErrorHandler
import Verif.Props.ErrorHandler
import Verif.Model.GossipToggle
import Verif.Props.GossipToggle
import Verif.Model.ConnManager
import Verif.Model.Redial
import Verif.Spec.ConnManager
import Verif.Proof.ConnManager
import Verif.Props.ConnManager
import Verif.Spec.Redial
import Verif.Props.Redial
import Verif.Model.Applicator
import Verif.Spec.Applicator
import Verif.Proof.ApplicatorBasic
import Verif.Proof.Applicator
import Verif.Proof.ApplicatorProv
import Verif.Proof.ApplicatorSched
import Verif.Props.Applicator
import Verif.Props.ApplicatorSched
import Verif.Model.TxApply
import Verif.Spec.TxApply
import Verif.Proof.TxApply
import Verif.Props.TxApply
import Verif.Model.PeerConn
import Verif.Spec.PeerConn
import Verif.Proof.PeerConn
import Verif.Props.PeerConn
import Verif.Props.ProtoVersion
import Verif.Model.Session
import Verif.Spec.Session
import Verif.Proof.Session
import Verif.Props.Session
import Verif.Model.PeerRPC
import Verif.Props.PeerRPC
import Verif.Model.KoinosRPC
import Verif.Props.KoinosRPC
import Verif.Model.GossipValidate
import Verif.Props.GossipValidate
import Verif.Model.GossipManager
import Verif.Model.GossipRun
import Verif.Props.GossipManager
import Verif.Props.GossipRun
import Verif.Model.Node
import Verif.Spec.Base64
import Verif.Props.Node
import Verif.Model.Config
import Verif.Props.Config
import Verif.Props.Defaults
import Verif.Props.ApplicatorMore
import Verif.Props.Limits
import Verif.Model.Peering
import Verif.Props.Peering
import Verif.Spec.Decay
import Verif.Proof.ErrorSum
import Verif.Props.ErrorSum
import Verif.Model.Pacing
import Verif.Props.Pacing
import Verif.Model.Workers
import Verif.Props.Workers
import Verif.Model.Wiring
import Verif.Props.Wiring
import Verif.Spec.ApplicatorFair
import Verif.Proof.ApplicatorLive
import Verif.Props.ApplicatorLive
import Verif.Model.ChainLink
import Verif.Spec.ChainLink
import Verif.Proof.ChainLink
import Verif.Props.ChainLink
import Verif.Props.Records
import Verif.Model.StartUp
import Verif.Props.StartUp
import Verif.Proof.Fair
import Verif.Spec.WorkersFair
import Verif.Props.WorkersFair
import Verif.Spec.TxApplyFair
import Verif.Props.TxApplyFair
import Verif.Model.Enforce
import Verif.Proof.Enforce
import Verif.Spec.Enforce
import Verif.Props.Enforce
import Verif.Props.EnforceTable
import Verif.Props.EnforceSettle
import Verif.Props.EnforceCount
import Verif.Props.Tightened
import Verif.Model.Mailbox
import Verif.Spec.Mailbox
import Verif.Props.Mailbox
import Verif.Spec.Peering
import Verif.Props.Honest
import Verif.Model.SessionEnd
import Verif.Spec.SessionEnd
import Verif.Props.SessionEnd
import Verif.Spec.GossipEnd
import Verif.Props.GossipEnd
import Verif.Model.GossipServ
import Verif.Spec.GossipServ
import Verif.Proof.GossipServ
import Verif.Props.GossipServ
import Verif.Props.GossipStats
import Verif.Model.NodeClose
import Verif.Spec.NodeClose
import Verif.Props.NodeClose
import Verif.Model.Life
import Verif.Spec.Life
import Verif.Props.Life
import Verif.Model.Multiaddr
import Verif.Spec.Multiaddr
import Verif.Props.Multiaddr
import Verif.Model.ConnLog
import Verif.Props.ConnLog
import Verif.Props.Again
import Verif.Spec.Framing
import Verif.Props.Framing
import Verif.Props.ForgedTx
import Verif.Spec.Junk
import Verif.Props.Junk
import Verif.Spec.AllAccepted
import Verif.Proof.AllAccepted
import Verif.Props.AllAccepted
import Verif.Props.GossipFlow
import Verif.Model.VersionWait
import Verif.Props.VersionWait
import Verif.Model.Deadlines
import Verif.Spec.Deadlines
import Verif.Props.Deadlines
import Verif.Props.Early
import Verif.Model.Races
import Verif.Spec.Races
import Verif.Proof.Races
import Verif.Proof.RacesLocal
import Verif.Proof.RacesLocks
import Verif.Props.Races
import Verif.Model.Listen
import Verif.Props.Listen
import Verif.Spec.CatchUp
import Verif.Proof.CatchUp
import Verif.Props.CatchUp
import Verif.Model.SyncRun
import Verif.Spec.SyncRun
import Verif.Proof.SyncRun
import Verif.Props.SyncRun
import Verif.Model.Joint
import Verif.Spec.Joint
import Verif.Proof.Joint
import Verif.Props.Joint
import Verif.Props.JointSessions
import Verif.Props.JointGossip
import Verif.Props.JointExpel
import Verif.Model.Flood
import Verif.Spec.Flood
import Verif.Proof.Flood
import Verif.Props.Flood
import Verif.Model.Whole
import Verif.Spec.Whole
import Verif.Props.Whole
import Verif.Props.WholeRuns
import Verif.Props.WholeSafe
import Verif.Model.NetSync
import Verif.Spec.NetSync
import Verif.Props.NetSync
import Verif.Model.TxFlood
import Verif.Spec.TxFlood
import Verif.Proof.TxFlood
import Verif.Props.TxFlood
import Verif.Props.TxFloodSafe
import Verif.Props.Crowd
import Verif.Model.SubmitWindow
import Verif.Proof.SubmitWindow
import Verif.Props.SubmitWindow
