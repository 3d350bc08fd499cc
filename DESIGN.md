# A machine-checked model of koinos/koinos-p2p

Everything is in Lean 4 under `lean/Verif`. `/repo` was only read as text; nothing ties the model
to the running program except the line references on every definition.

## 1. Layout

| directory | content |
|---|---|
| `Verif/Base`  | Go maps, Go errors, blocks, 64-bit integers |
| `Verif/Model` | executable model of the code, function by function; every definition cites `/repo` |
| `Verif/Spec`  | small specifications, written without reference to model helpers |
| `Verif/Proof` | invariants and helper lemmas |
| `Verif/Props` | the property theorems `Cxx_…`, each with a non-vacuity `example` beside it |

`properties.jsonl` holds the properties in English, `MANIFEST.json` the theorems per property and their
status, `seeded/LOG.jsonl` the faults seeded into the model and what they broke. `failed` in that log lists the theorems whose
proof no longer goes through; a proof may break though the statement is still true of the faulty model, so a failure alone is
weak evidence. The log was audited for
this by reading statements: six faults (`se6`, `al1`, `gr5`, `en7`, `en14`, `en15`) had broken proofs only; their notes say so, and
theorems were added that are false of them. For the other entries up to `en19` and `gr6` the audit was by inspection, not by
counterexample. For the rounds from `mb1` on, except `b6_gv10` (ids `b6_…` where an id was taken; the last are `nc1`–`nc14`, `ma1`–`ma7`, `lg1`–`lg7`, `ju1`–`ju10`, `fr1`–`fr7`, `ag1`–`ag4`, `ft1`–`ft6`) a concrete violation of the English claim was
proved of each faulty model and could not be proved of the real one; that a listed theorem *statement* is false of it was, where it
is not that violation itself, again judged by reading. Two faults of that round survived: `no12`, for which `C55_encoding` was added,
and `b6_gv10`, which changes nothing (C49).
The entries `au…` are 1334 edits that a program made in all model files: comparisons, constants, branches, missing updates. For
these `failed` is the first place where the build stopped. 224 survived at first; 160 of the survivors and half-survivors fail since
statements were made stronger or added (C17_forced, C31_by_peer, C33_switches, C36_accounted, C126 and others), 71 are equivalent on
reachable states or touch no claim, and in 15 only examples, bridges or refutations fail.

Naming: `Cxx_name` is a full proof of (a clause of) property Cxx. `Cxx_name_partial` is a theorem that
covers only part of the property (the rest is stated in its doc comment). `Cxx_name_refuted` is a proof
of the *negation* of the English property for the code as it is (a concrete reachable witness or, where
possible, a universally quantified statement).

## 2. Modelling conventions

* Go `map[K]V` is a list of key/value pairs without duplicate keys (`GoMap`). Iteration order of Go maps
  is unspecified; wherever the code ranges over a map the observable result is stated order-free.
* Go errors are a tree: sentinels, context errors, other errors, and `%w` wrapping. `errors.Is` walks
  `%w` only; an error formatted with `%s/%v` is kept in the model as a *shown* error that `Is` cannot see.
* `uint64` heights, scores and timestamps are Lean `UInt64` (wrap-around as in Go) wherever arithmetic
  can wrap; wall-clock instants and durations are `Int` nanoseconds (Go saturates at ±292 years; not
  modelled unless said so).
* Goroutines and channels become labelled transition systems: a state plus `step : State → Label →
  Option State`; a property "for every schedule" is a statement about every list of labels.
  A spawned goroutine is an element of a bag from which the scheduler may pick any element at any time
  (this over-approximates channel FIFO order, so invariants are sound; refutation witnesses are chosen to
  be FIFO-consistent).
* Panics are explicit results (`none`/`.panic`), never totalised away.
* External services (chain, block store, peers, libp2p, protobuf, SHA-256, semver) are parameters or
  adversarial inputs: replies are universally quantified.
* The decay factor `math.Exp(-(ln 2 / halflife) · t)` is exact real arithmetic (`realDecay`) in C27, C80, C81
  and any function within a relative error ε of it (`Rounded h ε`) in C80 and `C26_ban_rounded`.

## 3. Models, and which properties rest on them

| model | code | properties |
|---|---|---|
| `TxCache` | transaction_cache.go (both data structures, map and slice) | C01, C02 |
| `TxApply` | applicator.go ApplyTransaction, handleApplyTransaction, cache, chain replies, clock | C03, C04, C65, C96, C120 |
| `ForkWatchdog` | fork_watchdog.go | C05–C07, C121 |
| `Applicator` | applicator.go, whole block part: admission, waiting list, retries, delays, RPCs, broadcasts | C08–C22, C59, C63, C64, C73–C76, C90, C91, C104, C118, C119, C121, C152 |
| `SubmitWindow` | applicator.go:370-379, `Applicator` with the comparison of the height and the call of the chain as two steps | C10 |
| `ChainLink` | `Applicator` with a chain that tells the truth: verdicts, acceptances and announcements (applicator.go:359-375, node.go:223-240) | C111, C118, C125 |
| `Wiring` | error_handler.go and connection_manager.go: who waits for whom; provider set-up in node.go | C86–C89 |
| `Enforce` | error_handler.go, connection_manager.go, node.go Start (disconnection) and the libp2p callbacks together, many peers | C97–C103 |
| `Mailbox` | the request/reply pattern of ApplyBlock, ApplyTransaction, handleTryBlockApplication, CanConnectAddr, GetPeerErrorScore with channels of finite size, contexts and the end of the loop | C106 |
| `StartUp` | node.go Start, handleForkUpdate, GetLastIrreversibleBlock; order in main.go | C93, C94 |
| `Workers` | applicator.go Start, worker loop with `ApplicationJobs` workers and nested selects | C83–C85, C95 |
| `ErrorHandler` | error_handler.go and its options | C23–C31, C72, C80, C81, C92 |
| `GossipToggle` | gossip_toggle.go, tick machine | C32, C33 |
| `ConnManager` | connection_manager.go: notifications, queries, start-up, version lookup | C34–C36, C38, C61 |
| `Redial` | connection_manager.go:298-321, `connectInitialPeers`, with time and the unspecified order of the map | C60, C62 |
| `PeerConn` | peer_connection.go handshake, requestSyncBlocks | C37, C39–C42, C66, C76 |
| `Session`, `Pacing` | peer_connection.go connectionLoop, Start; with and without clock | C43, C82 |
| `VersionWait` | connection_manager.go:196-227, `GetProtocolVersion` with its clock; the scheduler's delay is bounded by a parameter | C127 |
| `Deadlines` | the time-outs of the contexts made in peer_connection.go and connection_manager.go:197; that callees obey them is assumed | C128 |
| `Races` | the accesses of all goroutines to shared memory, with mutexes, `go` statements, channels that carry pointers and atomics; no values, branches are choices | C129, C130 |
| `SessionEnd` | `Session` with what a `select` sees when it is entered | C109 |
| `PeerRPC` | peer_rpc.go, peer_rpc_service.go | C44, C45, C67, C77 |
| `Peering` | `PeerConn` as client of the service of another node; with `Session` for whole sessions, with `ChainLink` for what ends up on our chain | C78, C79, C107, C108, C121, C132 |
| `SyncRun` | `peer_connection.go:92-220`, the rounds of `PeerConn` step by step (questions of a round in one step, each block on its own) together with `ChainLink` | C132 |
| `NetSync` | `SyncRun` at every node of a network, with one session for each peer (connection_manager.go:228-255), all of them on the one applicator of the node; a panic in a session ends the process. Sessions are there from the beginning, the answers of a round come in one step; that they are those of the chain of the peer is said in `Spec/NetSync` | C147 |
| `Joint` | peer_connection.go, connection_manager.go:228-268 and error_handler.go: `Session` for every tracked peer over `Enforce`; the reports that `Enforce` allows from anywhere come from sessions and gossip | C133–C138 |
| `Flood` | gossip.go:112-122, 267-284, 310-377 and node.go:223-248, 476-490 for a whole network: `GossipValidate` and the message ids of `Node` at every node that runs this code, others send what they like in their own name, and pass on what anybody has published. pubsub (taking each id once, forgetting ids at any time, throwing away what arrives when as many validations go on as may, passing accepted messages on, signatures) is an assumption stated in the model; neighbours do not change, only blocks | C139–C143, C151 |
| `Whole` | `Flood` over `ChainLink`: gossip.go:338-377 with the calls of `ApplyBlock` made on the applicator of the validating node, whose result is the verdict; node.go:223-248, a node publishes what its own chain has accepted. Calls from sessions are free, the irreversible height a validator finds is arbitrary, a validation may time out at any time, a message is not forgotten while it is validated | C144–C146 |
| `TxFlood` | transactions in a network: gossip.go:248-265 (publishing) and 403-447 (validating) with the calls of `ApplyTransaction` made on `TxApply` of the validating node, whose result is the verdict; pubsub as in `Flood`. A node may publish any transaction at any time, a validation may time out at any time | C148–C151 |
| `KoinosRPC` | koinos_rpc.go | C46, C47 |
| `GossipValidate` | gossip.go validateBlock, applyBlock, validateTransaction, applyTransaction | C48–C51, C68 |
| `GossipManager` | gossip.go:36-122, `GossipManager` field by field, with failures of Join, Subscribe, RegisterTopicValidator and Publish; EnableGossip over two of them | C153 |
| `GossipRun` | gossip.go start, stop, reader, listener, publish | C52, C53, C105, C110, C126 |
| `GossipServ` | two copies of `GossipRun` with gossip_toggle.go, EnableGossip in single statements, node.go Close, the statistics goroutines | C53, C112–C114 |
| `NodeClose` | node.go Close, the connections of the host with their two callbacks, the manager loop | C115 |
| `Listen` | gossip.go Start, Stop, Publish… with their mutexes, the message loop of pubsub and its scores (node.go:158-161), over `Wiring` | C131 |
| `Life` | main.go from the probes to the end, node.go NewKoinosP2PNode and Start, over `NodeClose` | C122–C124 |
| `Multiaddr` | the keys of error_handler.go: first component of a multiaddress | C116 |
| `ConnLog` | node.go logConnectionsLoop (one report), GetAddress | C117 |
| `Node` | node.go broadcasts, RPC, message ids, keys | C54–C57, C69, C71 |
| `Config` | main.go option parsing, node.go addresses | C58, C70 |

How the proofs go: refinement of a data structure to a log specification (C01, C02, C05, C06, C23, C80); inductive
invariants of transition systems over ghost logs (C03, C08–C22, C35, C43, C52, C59, C63–C65, C73–C76, C82–C84);
equations between the modelled function and an independent specification, for all inputs (C13, C24, C25, C29, C32,
C37–C42, C44–C51, C54–C58, C67–C71, C77, C78); composition of two models (C31, C49, C73, C78).

## 4. Disagreements between the properties and the code

The English property stands in `properties.jsonl`; the code violates it; the negation is proved (`_refuted`).

| | finding | where |
|---|---|---|
| C03 | a worker may pause between the cache and the submission; a cache hit does not renew the record | applicator.go:382-389, transaction_cache.go |
| C04 | a repeated transaction is reported as success even if the first submission was rejected | applicator.go:382-389 |
| C07 | (status proved) detector memory has no constant bound, flagged blocks are remembered | fork_watchdog.go |
| C10 | the height is compared before the chain is called; irreversibility may advance in between | applicator.go:335, 372-375 |
| C13 | the height limit wraps at 2^64 | applicator.go handleNewBlock |
| C14 | a block too far in the future is answered with success when its waiting time ends | applicator.go:222-281 |
| C15 | blocks are keyed by their unverified id: another block with that id decides the verdict | applicator.go |
| C18 | wake-up dropped for blocks older than the force threshold while they are being applied | applicator.go |
| C19 | milliseconds taken as nanoseconds: a block may go up to a second early | applicator.go handleTryBlockApplication |
| C27 | every read of a score truncates: frequent queries lift a ban early | error_handler.go:203 |
| C30 | errors of peers without a tracked connection are ignored | error_handler.go:120 |
| C34 | with two connections to a peer, closing one forgets the peer | connection_manager.go:256 |
| C36 | with a peer connected before Start the manager loop is never reached | connection_manager.go:349 |
| C41 | a block without header from a peer crashes the process | peer_connection.go:92 |
| C43 | one more round may start at the moment of cancellation | peer_connection.go:193 |
| C47 | requests above 512 MiB give an error outside all classes | koinos_rpc.go:54 |
| C49 | fork bombs by gossip are charged as ordinary block errors, to the relaying peer | gossip.go:310-376 |
| C50 | blocks at the irreversible height are charged | gossip.go:338 |
| C52, C53 | start goroutines outlive a stop; reader may send on the closed channel (panic) | gossip.go:72-160, 286-308 |
| C57 | irreversibility updates may be applied out of order | applicator.go:133 |
| C58, C70 | malformed checkpoints become other checkpoints or panic; malformed peers panic | main.go |
| C61, C62 | an abandoned query stops the manager for good; the redial loop never ends | connection_manager.go:143-180, 270-320 |
| C63, C64 | deferred children may wait for nothing; forged heights hold outdated requests | applicator.go |
| C66 | a timed-out chain id query is reported as chain id mismatch | peer_connection.go:34 |
| C67 | no limit on the number of blocks served per request | peer_rpc_service.go:107 |
| C68 | failures of this node are charged to the relaying peer | gossip.go |
| C69 | the node key is one of fewer than 2^31 | node.go:439-470 |
| C71 | incomplete broadcasts panic (a missing transaction: if gossip is on and the printing function of a library outside the repository does not accept nil) | node.go:223-281, gossip.go:248-265 |
| C79 | sync stops when the own head is a batch above irreversibility | peer_connection.go:92 |
| C83 | as many unanswered calls as workers stop all application | applicator.go:370-432 |
| C85 | transactions may wait for ever while blocks arrive | applicator.go:413-431 |
| C87 | an error taken up while the manager does not serve (C36, C61) stops all admission answers | error_handler.go:120-121 |
| C89 | the gater is handed to libp2p before it has its address provider (nil dereference on a peer query) | node.go:129-218 |
| C91 | after a block-state error the block is resubmitted at once, without limit | applicator.go:286-288 |
| C92 | score records are never removed | error_handler.go:120-135 |
| C93 | the reply fetched at start overwrites a newer irreversible height | node.go:405-414 |
| C97, C102 | the last question about a connection comes before its establishment; a ban in between does not stop it, and the disconnection of the peer does not see it | error_handler.go:225-232, node.go:423-433 |
| C97, C99 | scores belong to addresses, disconnection to peers: neighbours of a banned peer stay connected, until any error, even of weight zero, is reported of them | error_handler.go:120-146, node.go:423-433 |
| C98 | the address is looked up when the error is handled, not when it was made | error_handler.go:121 |
| C100 | a peer with two connections that ends one is no longer tracked: all its later errors are ignored | connection_manager.go:256-268, error_handler.go:121 |
| C106 | handing over a request ignores the caller's context: with ten requests in the channel further calls are held, after the end of the loop for ever | applicator.go:107, 121, 267, error_handler.go:69, 86 |
| C110 | StartGossip called twice forgets the first context: its listeners are never stopped (the toggle does not do that, C33) | gossip.go:213-216 |
| C111 | a child put aside while its parent is being applied is lost if the reply on the parent is; a block handed over again is lost behind a left-over application of itself | applicator.go:162-172, 222-235, 283-296 |
| C112 | a start-up goroutine that runs after the stop leaves a topic on although the node says off | gossip.go:286-292, 366-372 |
| C113 | Close does not stop the toggle: gossip may be switched on again, and both may call StopGossip at once, whose test and use of the cancel function are not one step (nil dereference); the status RPC goes on saying "on" | node.go:374-382, gossip.go:238-246 |
| C115 | Close needs the connection manager, which ends with the node's context: after that, with a connection open, Close never returns; nor after C36 or C61. (With C113: Close goes wrong both before and after the end of the context.) | node.go:374-382, connection_manager.go:126-133, 337-343 |
| C116 | scores are kept by the first component of the address: relayed peers are charged to the relay (node.go:101: the seed peers), link-local ones to the link | error_handler.go:103, 112, 122 |
| C117 | "and n more" is one too many; no address: panic | node.go:361-365, 391-397 |
| C118 | reports about the parent that arrive while a recent block is being applied become retries that submit it again after it was accepted (three submissions in the ordinary course) | applicator.go:222-235, 322-331 |
| C119 | made-up blocks with unknown parents fill the table of waiting blocks: nothing is taken or submitted any more until their heights are irreversible | applicator.go:301-307 |
| C120 | transactions are remembered by an unverified id before they are submitted: a made-up one suppresses the genuine one, which is reported as success | applicator.go:381-389 |
| C121 | the fork detector believes the header: three made-up blocks shut out the genuine block of a slot, and the honest peer that serves it is kept out for an hour | fork_watchdog.go:28-52, applicator.go:98-103 |
| C122 | after the probes the chain is asked once for its head, and an error then is a panic, although every other failure of the start is retried; every probe leaves a context behind, and probes follow each other without a pause | main.go:203-227, applicator.go:71-74 |
| C123 | signals are asked for only after Start: before, they kill the program without Close; after C124 the first signal never ends the program and later ones are not looked at | main.go:231-241 |
| C124 | the gate is opened before the connection manager is started: a peer that comes in between disables the manager for good (C36) | node.go:418-420, connection_manager.go:349-361 |
| C125 | a block older than the force threshold is not tried again when its parent is reported while an attempt that came too early is still marked as pending: it stays behind | applicator.go:222-235, 283-296, 322-331 |
| C129 | Close (main goroutine) and the toggle's goroutine read and write the cancel function of gossip without ordering; the provider of addresses is set, and the connection manager behind it made, after libp2p was given the gater that reads them | gossip.go:213-246, node.go:374-382; node.go:110, 129, 203-218, error_handler.go:58-64, 278-280 |
| C131 | the message loop of pubsub asks the connection manager for scores: if that does not serve (C36, C124) and gossip is always on, nothing is sent any more, and after as many announcements as pubsub has room for, the handlers of broadcasts never return | node.go:158-161, gossip.go:249-283 |
| C132 | the block is reported as applied, and the round goes on, when a block of the future was given up (C14): the chain does not have it | applicator.go:252-262 |
| C134 | a failed question for the chain or for a checkpoint is reported as another chain or checkpoint mismatch (the points of one such error refuse the peer); a failing chain service of our own is charged to the peer whose blocks it should have applied | peer_connection.go:59-62, 79-82, 181-184; error_handler.go:120-201 |
| C137 | a block that the own chain service could not judge is reported as a failed application of the peer that passed it on | gossip.go:317-330, 370-374; error_handler.go:120-201 |
| C140 | identity of messages is of bytes: every further encoding of a block passes once more over each link; ids are forgotten after thirty seconds, then the same bytes pass again if anybody sends them | node.go:476-490, 63, 146 |
| C143 | a block that was refused because it came too early is not passed on, even when the node publishes it later, until its id is forgotten (thirty seconds) | gossip.go:310-377, node.go:243, 476-490 |
| C141 | a node that is behind, or on another fork, accuses the honest neighbour that passed on a good block | gossip.go:317-330, 370-374 |
| C144 | a validation that times out refuses the block; the chain may accept it afterwards, but the node has seen the message and does not send it as long as it remembers, so its neighbours may never get it by gossip | gossip.go:366-376, applicator.go:100-115, node.go:476-490 |
| C145 | a block of the future is answered with success after the waiting time-out (C14): sent twice to a node in different encodings, 55 seconds apart, it is passed on although the chain was never asked, and the neighbours report the node; a forged block with the id of a block that is being applied is answered with the verdict on that block (C15), and passed on | applicator.go:252-262, 100-115, 142-175; gossip.go:366-376 |
| C146 | a forged block with the id of a good one that comes first: its verdict is given for the good one too; the node that passed on the good one is reported, and the good block is not sent until its id is forgotten | applicator.go:142-175, 177-187; gossip.go:317-330, 366-376; node.go:476-490 |
| C147 | one answer with a block without header, from any peer, ends the process (C41): nothing reaches its chain any more, nor that of nodes that depend on it | fork_watchdog.go:33; peer_connection.go:161-165 |
| C148 | the transaction cache keeps ids of refused transactions: a forged transaction with the id of a good one, sent first, keeps the good one from the chains of the nodes, though they accept and pass it on; a validation that times out keeps it from the nodes behind | applicator.go:381-389; transaction_cache.go:30-90; gossip.go:403-447 |
| C149 | for the same reason a transaction that the own chain has refused is accepted, and passed on, when it comes again in another encoding, or just again after pubsub has forgotten it (thirty seconds) and before the transaction cache has (five minutes) | applicator.go:381-389; node.go:62-63, 146, 476-490 |
| C150 | the neighbours then report the node that was tricked; time-outs count as refusals too | gossip.go:403-416; applicator.go:381-389 |
| C151 | pubsub validates 1024 messages of a topic at a time, and a validation may last as long as the applicator waits: a message that arrives meanwhile is marked as seen and thrown away, so that later copies are ignored too until the id is forgotten | gossip.go:67-69, 310-336, 435-438; node.go:146, 476-490 |
| C152 | gossip waits 3 seconds for the applicator, which holds back blocks until they are no more than 4 seconds ahead: the sender of a block more than 7 seconds ahead is charged 5000 and the block is not passed on, even if the chain accepts it when its time has come | gossip.go:368-373; applicator.go:245-265; options/gossip_options.go:6 |
| C153 | errors of `Join`, `Subscribe`, `RegisterTopicValidator` and `Publish` are logged or discarded: the node announces that it gossips without a subscription; it subscribes without a validator, so that messages are passed on unseen; a publication that the library refused is answered with "yes" and counted | gossip.go:57-61, 119, 290-291, 383-384 |

## 5. Trusted base

* Lean 4.33.0 kernel; every theorem depends on no axioms beyond `propext`, `Classical.choice`, `Quot.sound`
  (checked over the whole project by `vcheck`). No `sorry`, no `native_decide`, no own axioms.
* Fidelity of the hand translation from Go; simplifications are stated at each definition.
* What the models take for granted of libp2p: the order of the two callbacks and that closing the host waits for them (C115, C123, C124), the
  form of relayed addresses (C116). Of libp2p-pubsub: that its message loop computes the scores, and that publishing, subscribing
  and cancelling wait for that loop (C131).
* Not modelled: libp2p (host, dialling, identify, relay), pubsub internals, gorpc, AMQP, the wire formats
  of protobuf (abstract codecs), IEEE rounding itself (only bounded relative errors), logging, memory
  exhaustion, values read in data races (the other models interleave whole statements; C129 shows that
  this is sound but for three fields), the memory that libraries share with the node, the order in which the runtime picks ready `select`
  cases (every order is allowed), fairness of the scheduler (liveness is stated as possibility from every
  reachable state, as termination of all internal executions (C86), or for executions assumed weakly fair
  per kind of step (C90, C111, `Spec/ApplicatorFair`, `Spec/ChainLink`), to one worker (C85, C95, `Spec/WorkersFair`) or to each
  call (C96, `Spec/TxApplyFair`), or to each report and request to disconnect (C101, C103, `Spec/Enforce`), or to each goroutine (C106, C109, C110, C112, C114, C115, C122–C124; for the choice between several ready cases strongly fair, C114, C115, C123, C124)), shutdown
  except in C35, C43, C62, C106, C109, C110, C113, C115, C123.
