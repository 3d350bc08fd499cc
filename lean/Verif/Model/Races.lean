import Mathlib.Data.List.Basic
/-!
# Model of the goroutines and the memory they share

What the goroutines of the node do is reduced to the accesses to memory that more than one goroutine can reach, and to what
orders them: mutexes, `go` statements, channels and atomic operations. An execution is any interleaving of any number of
goroutines, each running a program of its kind. What is written and read does not matter here; branches are choices.

Simplifications: the goroutines that libp2p, pubsub and the AMQP client start are started here by the function of the node
that hands them their callback (these libraries pass callbacks on over locks or channels of their own); goroutines without
access to shared memory (`readMessages`, the reporters of errors) and the channels that carry no pointers are left out.
`open_` and `freeze` are no statements of the program: they mark where the code takes memory to be shared from then on,
under a lock or for reading only; no theorem's statement depends on them.
-/

namespace KP2P
namespace Races

abbrev Tid := Nat

/-- Shared memory, by what the code treats as one unit. -/
inductive Field where
  /-- KoinosP2PNode.PeerErrorHandler and its channels, node.go:82-89 -/
  | nodeHandler
  /-- the other fields of KoinosP2PNode, node.go:134-216 -/
  | nodeParts
  /-- KoinosP2PNode.libValue, atomic -/
  | libValue
  /-- PeerErrorHandler: scores, options and channels, address provider -/
  | errorScores | handlerConst | addrProvider
  /-- TransactionCache: map and slice -/
  | cache
  /-- ForkWatchdog.forkTracker -/
  | tracker
  /-- Applicator: highestBlock and the maps; lib; channels and options -/
  | tables | lib | appConst
  /-- GossipManager of blocks (`false`) or transactions (`true`): Enabled, sub, cancel; the other fields -/
  | topicState (b : Bool) | topicConst (b : Bool)
  /-- KoinosGossip: gossipCancel; recentBlocks and recentTrxs; the other fields -/
  | gossipCancel | recent (b : Bool) | gossipConst
  /-- ConnectionManager: connectedPeers; peerAddressChan; the other fields -/
  | connectedPeers | mgrAddrChan | mgrConst
  /-- GossipToggle: enabled; headTime; the other fields -/
  | toggleEnabled | headTime | toggleConst
  /-- PeerConnection number `s`: version; isSynced; the other fields -/
  | version (s : Nat) | isSynced (s : Nat) | sessConst (s : Nat)
  /-- blockEntry number `e`: errChans -/
  | entry (e : Nat)
  /-- a block, transaction or broadcast number `n`, as unmarshalled -/
  | blob (n : Nat)
  deriving DecidableEq, Repr

/-- The mutexes: fork_watchdog.go:18, transaction_cache.go:25, gossip_toggle.go:21 and 23, gossip.go:43. -/
inductive Lock where
  | watchdog | cache | enabled | head | topic (b : Bool)
  deriving DecidableEq, Repr

/-- Plain reads and writes, atomic loads, atomic stores and exchanges. -/
inductive Mode where
  | rd | wr | ald | ast
  deriving DecidableEq, Repr

/-- The channels that carry pointers (applicator.go:59-65). -/
inductive Chan where
  | newBlock | forkHeads | blockBroadcast | blockStatus | tryBlock | applyBlock | applyTransaction
  deriving DecidableEq, Repr

/-- The `i`-th message about object `n` on a channel. -/
structure Msg where
  chan : Chan
  i : Nat
  n : Nat
  deriving DecidableEq, Repr

/-- The kinds of goroutines. -/
inductive Kind where
  /-- main.go, and in it NewKoinosP2PNode, Start and Close -/
  | main
  /-- goroutines of libp2p and pubsub that ask the gater and for scores (node.go:110, 154-157) -/
  | gater
  /-- a job of the AMQP request handler (node.go:138-141) -/
  | amqp
  /-- node.go:232-236, for broadcast `n` -/
  | headTimer (n : Nat)
  /-- node.go:238-240 and 276-278: hands broadcast `n` to the applicator -/
  | caster (c : Chan) (n : Nat)
  /-- node.go:384-403 and 423-433 -/
  | nodeLoop
  /-- error_handler.go:241-255 -/
  | handler
  /-- gossip_toggle.go:45-102 -/
  | toggle
  /-- gossip.go:287-307 and 380-400 -/
  | starter (b : Bool)
  /-- pubsub calling the registered validator -/
  | validators (b : Bool)
  /-- one call of validateBlock or validateTransaction (gossip.go:310-377, 403-447) -/
  | validator (b : Bool) (n : Nat)
  /-- gossip.go:220-234 -/
  | stats
  /-- connection_manager.go:350-360 -/
  | mgrStart
  /-- connection_manager.go:298-321 -/
  | redial
  /-- connection_manager.go:323-346 -/
  | manager
  /-- libp2p calling Connected and Disconnected -/
  | notifier
  /-- peer_connection.go:223-245, for connection `s` -/
  | session (s : Nat)
  /-- peer_connection.go:193-219 -/
  | rounds (s : Nat)
  /-- applicator.go:393-411 -/
  | appLoop
  /-- applicator.go:414-430 -/
  | worker
  /-- applicator.go:211-219, 226-232, 240-280, for block `n` -/
  | tryer (n : Nat)
  deriving DecidableEq, Repr

/-- What goroutines do. `new`: allocation and initialisation; `fork`: the `go` statement. -/
inductive Op where
  | new (f : Field)
  | acc (m : Mode) (f : Field)
  | acq (l : Lock)
  | rel (l : Lock)
  | fork (t : Tid) (k : Kind)
  | send (m : Msg)
  | recv (m : Msg)
  | open_ (l : Lock)
  | freeze (f : Field)
  deriving DecidableEq, Repr

open Mode Field

/-! ### Methods -/

/-- fork_watchdog.go:28-52, `Add` of object `n`. -/
def watchdogAdd (n : Nat) : List Op :=
  [.acq .watchdog, .acc rd (blob n), .acc rd tracker, .acc wr tracker, .rel .watchdog]

/-- fork_watchdog.go:55-76, `Purge`. -/
def watchdogPurge : List Op := [.acq .watchdog, .acc rd tracker, .acc wr tracker, .rel .watchdog]

/-- transaction_cache.go:56-88, `CheckTransactions` and `CheckBlock` of object `n`. -/
def cacheCheck (n : Nat) : List Op :=
  [.acc rd (blob n), .acq .cache, .acc rd cache, .acc wr cache, .acc rd (blob n), .rel .cache]

/-- applicator.go:99-116, `ApplyBlock` of object `n`. -/
def applyBlock (n i : Nat) : List Op :=
  [.acc rd appConst] ++ watchdogAdd n ++ [.new (entry n), .send ⟨.newBlock, i, n⟩]

/-- applicator.go:118-130, `ApplyTransaction`. -/
def applyTransaction (n i : Nat) : List Op := [.acc rd appConst, .send ⟨.applyTransaction, i, n⟩]

/-- gossip_toggle.go:30-34, `IsEnabled`. -/
def isEnabled : List Op := [.acq .enabled, .acc rd toggleEnabled, .rel .enabled]

/-- gossip_toggle.go:37-41, `UpdateHeadTime`. -/
def updateHeadTime : List Op := [.acq .head, .acc wr headTime, .rel .head]

/-- gossip.go:72-96, `GossipManager.Start`; `on`: it was enabled already. -/
def topicStart (b on : Bool) : List Op :=
  [.acq (.topic b), .acc rd (topicState b)] ++ (if on then [] else [.acc rd (topicConst b), .acc wr (topicState b)]) ++ [.rel (.topic b)]

/-- gossip.go:99-110, `GossipManager.Stop`. -/
def topicStop (b on : Bool) : List Op :=
  [.acq (.topic b), .acc rd (topicState b)] ++ (if on then [.acc wr (topicState b)] else []) ++ [.rel (.topic b)]

/-- gossip.go:249-284 with 113-122, `PublishTransaction` and `PublishBlock`. -/
def publish (b on : Bool) (n : Nat) : List Op :=
  [.acc rd gossipConst, .acq (.topic b), .acc rd (topicState b)] ++
  (if on then [.acc rd (blob n), .acc ast (recent b), .acc rd (topicState b), .acc rd (topicConst b)] else []) ++ [.rel (.topic b)]

/-- gossip.go:213-235, `StartGossip`. -/
def startGossip (t₁ t₂ t₃ : Tid) : List Op :=
  [.acc rd gossipConst, .acc wr gossipCancel, .fork t₁ (.starter false), .fork t₂ (.starter true), .fork t₃ .stats]

/-- gossip.go:238-246, `StopGossip`; `c`: there was something to cancel. -/
def stopGossip (b₁ b₂ c : Bool) : List Op :=
  [.acc rd gossipConst] ++ topicStop false b₁ ++ topicStop true b₂ ++ [.acc rd gossipCancel] ++ (if c then [.acc wr gossipCancel] else [])

/-- gossip_toggle.go:49-51 etc.: the field under its mutex. -/
def setEnabled : List Op := [.acq .enabled, .acc wr toggleEnabled, .rel .enabled]

/-! ### Programs -/

/-- node.go:74-221, `NewKoinosP2PNode`, and main.go:224-231 with node.go:406-434, `Start`. `t` numbers the goroutines started,
`ws` are the workers. -/
def construct (t : Nat → Tid) (ws : List Tid) : List Op :=
  -- node.go:80-89, error_handler.go:259-272
  [.new nodeHandler, .new nodeParts, .new libValue, .new errorScores, .new handlerConst, .new addrProvider,
    .freeze nodeHandler, .freeze handlerConst,
  -- node.go:129: libp2p starts to listen; node.go:134-135, 151-175
    .fork (t 0) .gater, .acc wr nodeParts,
  -- node.go:180-191, transaction_cache.go:29-37, applicator.go:70-96
    .new cache, .acc wr nodeParts, .new tracker, .new tables, .new lib, .new appConst, .acc wr nodeParts,
  -- node.go:193-201, gossip.go:48-64, 170-195
    .new (topicState false), .new (topicConst false), .new (topicState true), .new (topicConst true),
    .new gossipConst, .new gossipCancel, .new (recent false), .new (recent true), .acc wr nodeParts,
  -- node.go:203-211, connection_manager.go:73-115
    .new mgrConst, .new mgrAddrChan, .new connectedPeers, .acc wr nodeParts,
  -- node.go:213-218, gossip_toggle.go:106-114, error_handler.go:278-280
    .new toggleConst, .new toggleEnabled, .new headTime, .acc wr nodeParts, .acc rd nodeParts, .acc wr addrProvider,
    .open_ .watchdog, .open_ .cache, .open_ .enabled, .open_ .head, .open_ (.topic false), .open_ (.topic true),
    .freeze nodeParts, .freeze libValue, .freeze lib, .freeze appConst, .freeze (topicConst false), .freeze (topicConst true),
    .freeze gossipConst, .freeze (recent false), .freeze (recent true), .freeze mgrConst, .freeze toggleConst,
  -- main.go:229
    .fork (t 1) .amqp,
  -- node.go:407-415
    .acc rd nodeParts, .fork (t 2) .notifier, .acc ast libValue,
  -- node.go:418-422, error_handler.go:236-239
    .fork (t 3) .nodeLoop, .acc rd addrProvider, .fork (t 4) .handler, .fork (t 5) .toggle, .fork (t 6) .mgrStart,
    .fork (t 7) .appLoop] ++ ws.map (fun w => .fork w .worker) ++
  -- node.go:424
  [.fork (t 8) .nodeLoop]

/-- A kind of goroutine, having done `h`, may go on with `c`. -/
inductive Call : Kind → List Op → List Op → Prop where
  | construct (t ws) : Call .main [] (construct t ws)
  /-- node.go:374-382, `Close` -/
  | close {h} (h0 : h ≠ []) (b₁ b₂ c) : Call .main h ([.acc rd nodeParts] ++ stopGossip b₁ b₂ c ++ [.acc rd nodeParts])
  | gaterMore {h} (t) : Call .gater h [.fork t .gater]
  /-- error_handler.go:211-228 with 67-80 -/
  | gaterAddr {h} : Call .gater h [.acc rd handlerConst]
  /-- error_handler.go:58-64, 83-96 with connection_manager.go:143-154; node.go:154-157 -/
  | gaterPeer {h} : Call .gater h [.acc rd nodeHandler, .acc rd addrProvider, .acc rd mgrAddrChan, .acc rd handlerConst]
  | amqpMore {h} (t) : Call .amqp h [.fork t .amqp]
  /-- node.go:223-248 -/
  | amqpBlock {h} (n t₁ t₂ on) : Call .amqp h ([.new (blob n), .freeze (blob n), .fork t₁ (.headTimer n), .fork t₂ (.caster .blockBroadcast n),
      .acc rd nodeParts, .acc rd (blob n)] ++ publish false on n)
  /-- node.go:250-265 -/
  | amqpTx {h} (n on) : Call .amqp h ([.new (blob n), .freeze (blob n), .acc rd nodeParts, .acc rd (blob n)] ++ publish true on n)
  /-- node.go:267-281 -/
  | amqpForks {h} (n t) : Call .amqp h [.new (blob n), .freeze (blob n), .fork t (.caster .forkHeads n), .acc rd (blob n), .acc ast libValue]
  /-- node.go:283-330 -/
  | amqpRPC {h} : Call .amqp h ([.acc rd nodeParts] ++ isEnabled)
  | headTimer {h} (n) : Call (.headTimer n) h ([.acc rd (blob n), .acc rd nodeParts] ++ updateHeadTime)
  /-- applicator.go:133-140 -/
  | caster {h} (c n i) (hc : c = .blockBroadcast ∨ c = .forkHeads) : Call (.caster c n) h [.acc rd nodeParts, .acc rd appConst, .send ⟨c, i, n⟩]
  | nodeLoop {h} : Call .nodeLoop h [.acc rd nodeParts]
  /-- error_handler.go:120-146 with connection_manager.go:143-154 -/
  | handlerError {h} : Call .handler h [.acc rd addrProvider, .acc rd mgrAddrChan, .acc rd errorScores, .acc rd handlerConst,
      .acc wr errorScores, .acc rd errorScores]
  /-- error_handler.go:102-118 -/
  | handlerQuery {h} : Call .handler h [.acc rd errorScores, .acc rd handlerConst, .acc wr errorScores]
  /-- gossip_toggle.go:46-60 -/
  | toggleFixed {h} : Call .toggle h ([.acc rd toggleConst] ++ setEnabled)
  /-- gossip_toggle.go:72 with connection_manager.go:156-167 -/
  | toggleAsk {h} : Call .toggle h [.acc rd toggleConst, .acc rd mgrConst, .acc rd toggleEnabled]
  /-- gossip_toggle.go:80-82 -/
  | toggleHead {h} : Call .toggle h [.acq .head, .acc rd headTime, .rel .head, .acc rd toggleEnabled]
  /-- gossip_toggle.go:48-51, 87-90 -/
  | toggleOn {h} (t₁ t₂ t₃) : Call .toggle h ([.acc rd toggleEnabled] ++ startGossip t₁ t₂ t₃ ++ setEnabled)
  /-- gossip_toggle.go:74-77, 94-97 -/
  | toggleOff {h} (b₁ b₂ c) : Call .toggle h ([.acc rd toggleEnabled] ++ stopGossip b₁ b₂ c ++ setEnabled)
  | starter {h} (b t on) : Call (.starter b) h ([.acc rd gossipConst, .acc rd (topicConst b), .fork t (.validators b)] ++ topicStart b on)
  | validators {h} (b t n) : Call (.validators b) h [.fork t (.validator b n)]
  | validateBlock {h} (n i) : Call (.validator false n) h ([.new (blob n), .acc rd gossipConst, .freeze (blob n), .acc rd (blob n), .acc ald libValue] ++
      applyBlock n i ++ [.acc rd (blob n), .acc rd gossipConst])
  | validateTx {h} (n i) : Call (.validator true n) h ([.new (blob n), .acc rd gossipConst, .freeze (blob n), .acc rd (blob n)] ++
      applyTransaction n i ++ [.acc rd (blob n), .acc rd gossipConst])
  | stats {h} : Call .stats h [.acc ast (recent false), .acc ast (recent true)]
  | mgrStart {h} : Call .mgrStart h [.acc rd mgrConst]
  | mgrFork {h} (hn : ∀ t k, Op.fork t k ∉ h) (t₁ t₂) : Call .mgrStart h [.fork t₁ .redial, .fork t₂ .manager]
  | redial {h} : Call .redial h [.acc rd mgrConst]
  /-- connection_manager.go:228-254 -/
  | mgrConnected {h} (s t) : Call .manager h [.acc rd mgrConst, .acc rd connectedPeers, .new (version s), .new (isSynced s), .new (sessConst s),
      .freeze (sessConst s), .fork t (.session s), .acc wr connectedPeers]
  /-- connection_manager.go:256-296, 338-343 -/
  | mgrOther {h} (w : Bool) : Call .manager h ([.acc rd mgrConst, .acc rd mgrAddrChan, .acc rd connectedPeers] ++ (if w then [.acc wr connectedPeers] else []))
  /-- connection_manager.go:126-133 -/
  | notifier {h} : Call .notifier h [.acc rd mgrConst]
  | notifierMore {h} (t) : Call .notifier h [.fork t .notifier]
  /-- peer_connection.go:34-90 with connection_manager.go:182-227 -/
  | handshake {h} (s) (hn : ∀ t k, Op.fork t k ∉ h) (w : Bool) : Call (.session s) h
      ([.acc rd (sessConst s), .acc rd mgrConst] ++ (if w then [.acc wr (version s)] else []) ++ [.acc rd (sessConst s)])
  /-- peer_connection.go:236-237 -/
  | shaken {h} (s) (hn : ∀ t k, Op.fork t k ∉ h) (t) : Call (.session s) h [.fork t (.rounds s)]
  /-- peer_connection.go:92-149, 206-209 -/
  | round {h} (s) (w : Bool) : Call (.rounds s) h ([.acc rd (sessConst s), .acc ald libValue] ++
      (if w then [.acc wr (isSynced s)] else []) ++ [.acc rd (isSynced s)])
  /-- peer_connection.go:150-186: a block received and applied -/
  | roundBlock {h} (s n i) : Call (.rounds s) h ([.acc rd (sessConst s), .new (blob n), .freeze (blob n)] ++ applyBlock n i ++
      [.acc rd (blob n), .acc wr (isSynced s), .acc rd (isSynced s)])
  /-- applicator.go:298-318, 142-175: entry `n` is new, or its answers are added to those of entry `o` -/
  | appNew {h} (n i t) (more : List Nat) (ho : ∀ o ∈ more, ∃ j, Op.recv ⟨.newBlock, j, o⟩ ∈ h) : Call .appLoop h
      ([.acc rd appConst, .recv ⟨.newBlock, i, n⟩, .acc rd (entry n), .acc rd (blob n), .acc rd tables, .acc rd lib, .acc wr (entry n)] ++
        more.map (fun o => .acc wr (entry o)) ++ [.acc wr tables, .fork t (.tryer n)])
  /-- applicator.go:283-296, 322-331, 177-208: an attempt has ended; the children tried, the entries answered -/
  | appStatus {h} (n i) (kids : List (Tid × Nat)) (gone : List Nat) (hk : ∀ x ∈ kids, ∃ j, Op.recv ⟨.newBlock, j, x.2⟩ ∈ h)
      (hg : ∀ o ∈ gone, ∃ j, Op.recv ⟨.newBlock, j, o⟩ ∈ h) : Call .appLoop h
      ([.acc rd appConst, .recv ⟨.blockStatus, i, n⟩, .acc rd (blob n), .acc rd tables, .acc wr tables] ++
        kids.map (fun x => .acc rd (blob x.2)) ++ kids.map (fun x => .fork x.1 (.tryer x.2)) ++ gone.map (fun o => .acc rd (entry o)))
  /-- applicator.go:333-357 -/
  | appForks {h} (n i) (kids : List (Tid × Nat)) (gone : List Nat) (hk : ∀ x ∈ kids, ∃ j, Op.recv ⟨.newBlock, j, x.2⟩ ∈ h)
      (hg : ∀ o ∈ gone, ∃ j, Op.recv ⟨.newBlock, j, o⟩ ∈ h) : Call .appLoop h
      ([.acc rd appConst, .recv ⟨.forkHeads, i, n⟩, .acc rd lib, .acc rd (blob n), .acc ast lib] ++ watchdogPurge ++
        [.acc rd tables, .acc wr tables] ++
        kids.map (fun x => .acc rd (blob x.2)) ++ kids.map (fun x => .fork x.1 (.tryer x.2)) ++ gone.map (fun o => .acc rd (entry o)))
  /-- applicator.go:359-368 -/
  | appBroadcast {h} (n i) (kids : List (Tid × Nat)) (hk : ∀ x ∈ kids, ∃ j, Op.recv ⟨.newBlock, j, x.2⟩ ∈ h) : Call .appLoop h
      ([.acc rd appConst, .recv ⟨.blockBroadcast, i, n⟩] ++ cacheCheck n ++ [.acc rd (blob n), .acc rd tables, .acc wr tables] ++
        kids.map (fun x => .acc rd (blob x.2)) ++ kids.map (fun x => .fork x.1 (.tryer x.2)))
  /-- applicator.go:222-240 -/
  | appTry {h} (n i t) : Call .appLoop h
      [.acc rd appConst, .recv ⟨.tryBlock, i, n⟩, .acc rd (blob n), .acc rd tables, .acc wr tables, .fork t (.tryer n)]
  /-- applicator.go:417-419, 422-423, 370-380 -/
  | workBlock {h} (n i) : Call .worker h [.acc rd appConst, .recv ⟨.applyBlock, i, n⟩, .acc rd (blob n), .acc ald lib, .acc rd (blob n)]
  /-- applicator.go:424-425, 382-390 -/
  | workTx {h} (n i) : Call .worker h ([.acc rd appConst, .recv ⟨.applyTransaction, i, n⟩] ++ cacheCheck n ++ [.acc rd (blob n)])
  | tryerSend {h} (n i c) (hc : c = .tryBlock ∨ c = .applyBlock ∨ c = .blockStatus) : Call (.tryer n) h
      [.acc rd appConst, .acc rd (blob n), .send ⟨c, i, n⟩]
  | tryerMore {h} (n t) : Call (.tryer n) h [.fork t (.tryer n)]

/-- What a goroutine of a kind may have done when a function of it is finished. -/
inductive Prog (k : Kind) : List Op → Prop where
  | nil : Prog k []
  | call {h c} : Prog k h → Call k h c → Prog k (h ++ c)

/-! ### Executions -/

abbrev Ev := Tid × Op

/-- What goroutine `t` has done. -/
def hist (t : Tid) (tr : List Ev) : List Op := tr.filterMap (fun e => if e.1 = t then some e.2 else none)

/-- The kind of goroutine `t`; 0 is the first one. -/
def kindOf (t : Tid) : List Ev → Option Kind
  | [] => if t = 0 then some .main else none
  | (_, .fork t' k) :: tr => if t' = t then some k else kindOf t tr
  | _ :: tr => kindOf t tr

/-- Who holds a lock after `tr` (oldest first). -/
def holder (l : Lock) (tr : List Ev) : Option Tid :=
  tr.foldl (fun o e => match e.2 with
    | .acq l' => if l' = l then some e.1 else o
    | .rel l' => if l' = l then none else o
    | _ => o) none

/-- What the runtime allows as the next event: a goroutine runs after it was started, and is started once; a lock is
acquired when it is free (and released by whoever holds it); memory is allocated once; a message is sent once, and received
once, after it was sent. -/
def enabled (tr : List Ev) (e : Ev) : Prop :=
  (e.1 = 0 ∨ ∃ x ∈ tr, ∃ k, x.2 = .fork e.1 k) ∧
  match e.2 with
  | .fork t _ => t ≠ 0 ∧ ∀ x ∈ tr, ∀ k, x.2 ≠ .fork t k
  | .acq l => holder l tr = none
  | .rel l => holder l tr = some e.1
  | .new f => ∀ x ∈ tr, x.2 ≠ .new f
  | .send m => ∀ x ∈ tr, x.2 ≠ .send m
  | .recv m => (∃ x ∈ tr, x.2 = .send m) ∧ ∀ x ∈ tr, x.2 ≠ .recv m
  | _ => True

/-- Executions of the node. -/
structure Exec (tr : List Ev) : Prop where
  sched : ∀ pre e post, tr = pre ++ e :: post → enabled pre e
  progs : ∀ t k, kindOf t tr = some k → ∃ h, Prog k h ∧ hist t tr <+: h

end Races
end KP2P
