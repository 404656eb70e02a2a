# Design of the go-pkg model

Target: `chenquan/go-pkg` at the pinned commit in `/repo` (26 non-test Go files, 3673 lines). The model and the proofs are in
`lean/Verif`; the English properties are in `properties.jsonl`; which theorem stands for which property is in `MANIFEST.json`;
deliberately wrong variants of the model and the theorems that reject them are in `seeded/LOG.jsonl`.

## 1. Layout

| where | what |
|-------|------|
| `Verif/Go/*` | the parts of the Go language and standard library that the code calls: wrap-around ints, UTF-8 (all byte strings, also invalid ones), `map`, channels (buffered, unbuffered, closed), `io.Reader`/`io.Writer` contracts |
| `Verif/Conc/*` | concurrency: histories and linearizability (`Lin`), programs of atomic steps (`Prog`), instants of a linearization (`Obs`), many objects of one kind (`Family`), calls made of calls (`Client`), networks of goroutines connected by channels (`Net`), one-goroutine components (`Seq`) |
| `Verif/<Pkg>/Model.lean` (or a file named after the type) | function-by-function model of the package; each definition cites the lines of `/repo` it models and says where it simplifies |
| `Verif/<Pkg>/*Spec.lean` | small specification that does not mention the model's helpers |
| `Verif/<Pkg>/*Lemmas.lean`, `*Inv.lean`, `*Steps*.lean` | auxiliary lemmas and invariants |
| `Verif/<Pkg>/*Props*.lean` | the property theorems `Cnn_…`, with non-vacuity examples beside them |

Naming: `Cnn_…` proves (a clause of) property Cnn. `Cnn_…_partial` proves part of it; the rest is named in the manifest note and in
section 6. `Cnn_…_refuted` proves, from a concrete execution of the model, that the code does **not** have the property.

## 2. Conventions of the model

* Go `int`/`int64` is a mathematical `Int` together with `wrap64` at every operation that can overflow; `uint32`, `uint16`, bytes are
  Lean's fixed-width words. `%` is `Int.tmod`.
* A panic is `none` (or an explicit `panic` result). No theorem excludes panics by a totalised definition: where a function is claimed
  not to panic, the statement says that the result is `some …`.
* A loop that may run for ever is given fuel, and "still running" is a separate result, so that termination is a claim of its own.
* A concurrent object is a set of calls; one step of one call is one atomic access (an atomic load/store/CAS, a lock operation, a channel
  operation, an access to a word protected by a lock, a call of a user function). Schedules are arbitrary sequences of steps, the number
  of calls is unbounded. Memory is sequentially consistent (Go's memory model for programs
  without data races; for Map the absence of races is C92). Locks are modelled
  by their contract: blocking, mutual exclusion, no fairness.
* `context.Context`: a flag that the environment may set at any moment, together with the error it then reports.
* User functions are arbitrary: functions of their argument where the code may call them with any value, streams of outcomes where the
  outcome may differ from call to call, arbitrary programs of atomic steps where they communicate. Whether they may panic is said per file.
* The environment (schedule, choice of a `select`, iteration order of a map, which pooled object `sync.Pool` returns, evictions,
  short reads, write errors) is universally quantified.

## 3. Frameworks

* `Conc/Lin.lean`: Herlihy–Wing linearizability, `Linearizable S H`, stated for histories of invocations and returns, incl. pending
  calls. A ghost automaton records commits (at a step of the call) and reads (justified by *some* instant since the invocation, which
  covers linearization points that lie in steps of other calls); theorem: each of its histories is linearizable. A program is
  proved linearizable by simulating it with this automaton.
* `Conc/Prog.lean`: calls with program counters over a shared state; induction principle over all schedules.
* `Conc/Refine.lean`: forward simulation between two programs: every history of the one is a history of the other.
* `Conc/Obs.lean`: the linearization with its intermediate states, and which instants lie during which call (for Range and Compute).
* `Conc/Family.lean`: if one object has a simulation proof (`Prog.simulate`), then every family of such objects has, as one object with one order.
* `Conc/Client.lean`: operations carried out by several calls of objects of a family; the calls of the objects lie inside the calls of the client.
* `Conc/Adequate.lean`, `Conc.crash_steps`, `XSync/MapConcChoice.lean`, `XSync/ResManChoice.lean`: nothing is lost. Composed programs make
  exactly the steps of their parts with every choice of the environment; user functions may have any of their results in any call, and the
  iterations over Go maps may go on with any entry that is left.
* `Conc/Net.lean`: networks of components over bounded channels. If every component is correct in every environment (`Good`), then in
  every schedule of the network: no send on a closed channel, no double close, no deadlock, termination (lexicographic weight), and at
  the end each component has computed its specification on the whole sequences that its predecessors sent.
* `Conc/Seq.lean`: components consisting of one goroutine given by its next command; obligations by cases over the command.

## 4. Plan and result per property

Status `partial` together with a `_refuted` theorem means: the full property is false of the code, and the partial theorem is the strongest
variant proved. Every property of the list can be expressed in the model.

| id | property | model | proof | status |
|----|----------|-------|-------|--------|
| C01 | Ring.Take returns the most recent values in insertion order | XRing/Model: array, wrapping counter, the loops of Add and Take | invariant over the list of Adds; Spec: last n of a list | proved |
| C02 | Ring is atomic under concurrent Add and Take | XRing/Conc: RWMutex and each access of Add/Take as a step | lock invariant, simulation by the ghost automaton, linearizability to the abstract ring; termination by the phases of each call | proved |
| C03 | BatchError keeps exactly the non-nil errors in order | XError/Model: BatchError as list of errors, message via Joiner | induction over the adds | proved |
| C04 | DoWithRetry stops at the first success and never over-runs | XTask/Retry: the loop with wrapping counter and fuel, fn as a stream of outcomes | induction over the remaining attempts; MaxInt64 refuted | refuted + partial |
| C05 | DoWithRetry reports nil exactly on success and otherwise every failure | as C04 | as C04, collected errors | proved |
| C06 | Do runs deferFunc exactly once on every way out | XTask/Do: caller, spawned goroutine, context, two 1-buffered channels | inductive invariant over all schedules | proved |
| C07 | Do's result is do's own result or the context's error, never invented | as C06 | inductive invariant: provenance of the result | proved |
| C08 | Do never leaks a blocked goroutine | as C06 | from every reachable state the spawned goroutine is able to finish | proved |
| C09 | once.Chan accepts exactly one write and delivers exactly that value once | XOnce/Model: writers and receivers on a 1-buffered channel guarded by sync.Once | inductive invariant | proved |
| C10 | once.Value is written at most once and never changes afterwards | XOnce/Model: atomic.Value with its type-mismatch and nil panics | linearizability to a write-once cell | proved |
| C100 | Concurrent xbinary calls do not disturb each other | XBinary/Pooled: xbinary on the memory of C99 | weakest preconditions in the private memory of C99; then C99 | proved |
| C101 | A panic of a user function does not break the rest of the pipeline | Walk of XStream/Model with functions that may panic; XStream/Panic: Peek, Distinct, Foreach, ForeachOrdered, AnyMach, AllMach, Sort, Group, GroupBy with such functions | as C49; invariants of the new components inside arbitrary networks (Conc/Net `Safe`: only the legal use of channels is needed); runs for the refutations | refuted + partial |
| C102 | Reverse leaves its argument alone | XString/Unsafe: string and slice headers into arrays of bytes | the loop on memory refines the loop on values of C57 and writes to the new array only | proved |
| C103 | MapStream is a stream like any other, and keeps the order within an item | XMapReduce/Comp: the model of Map as a component of a network | invariant: completing the output with any interleaving of what is pending gives an interleaving; the component is correct by itself (`Good`) because its executions are executions of Map with a consumer that takes every value at once | proved |
| C104 | Clear empties a Map that nobody else is using | XSync/MapConcClear: the program of C21 with Clear, one step per assignment | Conc/Phase: exclusive calls cut a history into phases; every phase is an execution of the program of C21 from a blank state (garbage on the heap allowed), linearizations are glued together; quiescence invariant for Clear itself | proved |
| C105 | Clear empties a SharedMap that nobody else is using | XSync/SharedConcClear: the program of C87 with Clear, which runs the Clear of C104 on one shard after the other | Conc/Phase with explanations (C88) in place of linearizations; shards start every phase blank; invariant of Clear over the shards already cleared; shards that do not exist are never touched | proved |
| C106 | What Map of a collector returns is the grouping of the whole stream | XStream/Panic: `GroupC.mapP`, the memoised Map with a key function that may panic | induction on the stream and on the number of calls | refuted + partial |
| C107 | Panics of create and of resources do not break the ResourceManager | XSync/ResManPanic: the program of C30 where results may be panics; a Close that panics ends with the lock held | Conc/Refine (`refineRes`): every history is one of C30 in which a panicking Close never gets on; then the theorems of C30-C32; runs for the refutations | refuted + partial |
| C108 | A rejected operation does not leak the stream it was called on | XStream/Reject: the network that is left when the last operation of a chain panics, with a draining goroutine or with no reader | the network with a drain is a program of C45; without a reader: invariant that the source never leaves its loop | refuted + partial |
| C109 | Index and IndexAny return the first occurrence | XString/Index: the loops of strings.Index and strings.IndexAny | induction on the string; truncating at a character boundary does not change how the characters before it are decoded | proved |
| C11 | WriteBarrier sends exactly once on success and never on refusal | XBarrier/Model: calls split at the select and at the channel operation; waiting senders | inductive invariant with counters of sends and receives | proved |
| C110 | When a consumer stops reading, the rest of the program ends exactly if what is left unread fits in the buffers | Conc/Stop, XStream/Stop: networks of C45 in states where only the stopped consumers could still move | induction along the network: nobody else is blocked; the converse from the bounds of C90 and from what Copy has sent before it closes | proved |
| C111 | Data guarded by a Spinlock behaves as if each critical section ran alone | XSync/SpinlockClient: the program of C28 with arbitrary instruction trees as critical sections on a shared memory | simulation by the ghost automaton of Conc/Lin, committing at the Unlock: what the rest of a section does from the present memory the whole section does from the memory at its Lock | proved |
| C112 | A panic of a function given to Map is not mistaken for the end of the output | XMapReduce/Panic: the model of C15 with a mapFunc that panics for some items and a generateFunc that may panic | simulation in both directions: until the program ends, a state is one of the model of C15 in which the panicking calls have returned | refuted + partial |
| C113 | Ring and ResourceManager have no data races, and a ResourceManager call changes the manager at one instant | XSync/ResManMem: resourcemanager.go with every lock operation, field access and map access a step of its own; XRing/Conc (C02) has such steps already | lock invariant (writer, readers, what the holder has seen); refinement to the model of C30 in which each critical section is one step | proved |
| C114 | create functions and Close methods may use the ResourceManager they are given to | XSync/ResManNest: resourcemanager.go with user functions as trees of nested calls; a goroutine is a stack of Get calls; Conc/Ends: programs whose calls take finitely many steps | structural induction on the user functions for termination; invariants on who leads which flight; induction on the rank of the key for absence of dead-lock; the refutations are states in which nobody can move | refuted + partial |
| C115 | Concurrent calls on Map and SharedMap return under every schedule | as C21 and C87; Conc/Ends: weights for programs with retry loops; Conc/ClientEnds: calls that consist of calls of other objects | a weight in three parts, added up over all calls and ordered lexicographically: lists not yet fixed, changes of entries a call can still make, steps left if nobody interferes; with the absence of deadlock (C85, C89) every call has returned when nothing can move; the model with single memory accesses (C92) inherits it: steps with no counterpart cannot go on for ever | proved |
| C116 | A Worker runs every function it is given | as C13 (XWorker/Model, which contains the model of Do) | termination: each job has finitely many steps; invariant: slots taken = jobs that hold one; the states in which the worker itself cannot move are characterised | proved |
| C117 | Every Lock of a Spinlock gets the lock at some time | as C28; Conc/Fair: infinite executions and weak fairness | a state in which nobody acquires the lock any more has a free lock at some time, and then the next attempt succeeds; with finitely many sessions acquisitions run out; the refutation is an explicit infinite execution | refuted + partial |
| C118 | Clear removes everything at one instant, whatever it overlaps | XSync/MapWords: the program of C21, where the first load of m.read takes two steps (type word, data word), first stores take three, and Clear writes the two words in any order | every Clear ends a world and begins a new one; the program simulates a list of executions of the map of C21, one per world, whose entries are disjoint; calls that found an entry before a Clear go on in their old world; the linearizations of the worlds are put one after the other with the Clears between them; termination with the weights of C115 | proved |
| C119 | Clear of a SharedMap removes everything at one instant, whatever it overlaps | XSync/SharedWords: calls of SharedMap, Clear included, as sequences of calls of the maps of C118 (Conc/Client) | the marked linearizations of the shards (C118) are merged into one (Conc/Marks) and mapped to effects on the contents of the whole map; for the keys of one shard the effects of Clears on other shards are dropped, which gives a linearization; termination with the weights of C118 and Conc/ClientEnds | refuted + partial |
| C12 | ReadBarrier consumes exactly one element on success and none on refusal | as C11 | as C11 | proved |
| C120 | A stream from MapStream whose context becomes done is still a stream | XMapReduce/Comp: the model of C15 with cancellation, seen from outside as a component of a network | invariant: what a mapping has written is a prefix determined by the results of its writes, and the output is an interleaving of these; with one worker at most one write is under way when the context becomes done; the component meets the conditions of Conc/Net, and Conc/NetKeep shows progress without cancellation | proved |
| C121 | Several readers of one stream divide it among themselves | XStream/Share: the group of the readers of a channel as one component with that channel as its only input; a receive of the group is a receive of any of the readers | invariant: the shares of the readers interleave to what the group has received; each reader is in a state it could reach alone with its share, so that the correctness of the single operations (C43, C45) carries over to the group, and the group meets the conditions of Conc/Net | proved |
| C122 | A mapFunc may react to the results of Write | XMapReduce/React: the model of C15 with a program in place of the list of writes of a mapping | forward simulation to the model of C15: before the first refusal a mapping still has to write what it writes when all calls succeed, the first refusal is the refusal of all of that, later refusals are no steps; steps in the other direction for progress; the weight of C17 plus the number of possible Write calls decreases | proved |
| C123 | User functions may make calls on the map they are called by | Conc/Nested: every goroutine has a stack of calls; at the points where a user function runs, a call of the same program may be pushed; the programs of C21 and C87 | a history with nested calls is one without, since only the innermost call moves; no deadlock: locks have levels, a call waits only for a lock of a level it may take, and functions called with a lock held take only higher ones; termination: a multiset of measures of the calls on all stacks, ordered by depth; deadlocks: a set of goroutines that wait for each other never moves again | refuted + partial |
| C124 | User functions of Map and SharedMap may panic | Conc/Crash: a program in which a call may end with a panic at given points and leaves everything as it is; the programs of C21 and C87 with the points at which user functions are called | simulation: a panicked call is a call that stopped for ever at the call of its function; there it has had no effect, so it does not occur in the linearization; termination carries over; invariant of the state with a mutex that nobody will release | refuted + partial |
| C125 | Functions given to a Worker may call Run of the same Worker | XWorker/Nest, XWorker/Made: the model of C13–C116 together with the code of the functions, trees of calls of Run, waits for these calls and returns | projection: every step is a step of the worker or changes the code only, so the invariants of C14 and the final states of C116 carry over; termination: weight of the worker plus weight of the code; at the end the calls that are not over wait for calls with a larger index, so one of them waits for a slot; jams for every size: induction on the number of functions that have started | refuted + partial |
| C126 | An error returned by BatchError.Err does not change | XError/Heap: slices with their arrays, append with any growth, several BatchError variables and assignments between them | refinement to the model of C03, in which everything is a value; invariant: a variable that may be added to shares its array only with slices that are not longer than its own and are not added to | refuted + partial |
| C127 | Slices and maps exchanged with a stream are not shared behind the back of their owner | XStream/Heap: Split, Merge and Group with slices that have arrays, append with any growth, consumers that change elements of the arrays they have received or allocated; Of as a loop over the array of its caller | invariant: the arrays of the slices not yet sent are owned by the stage alone and different slices have different arrays; so reads of the own slices are those of lists, and the lists are chunks, all elements, or groups | refuted + partial |
| C128 | A slow create delays only the Gets of its own key | model of C113; a call whose create is running is at the point `create` | no-deadlock invariant of C113: the holder of the lock is never at `create`, and a Get waits only for the leader of its own key | refuted + partial |
| C129 | Calls on different shards of a SharedMap do not wait for each other | model of C87: shards with a lock each | every shard satisfies the invariant of C21; a call that cannot move waits for the lock of the shard of its current part, whose holder is another call inside the same shard | proved |
| C13 | Worker never runs more than size functions at once | XWorker/Model: slot channel, goroutine of Run, nested machine of Do | invariant slots = unfinished functions with live context; refuted under cancellation | refuted + partial |
| C130 | The slice returned by Take of a Ring belongs to the caller | XRing/Heap: a memory of arrays, rings and returned slices as references to arrays, the loop of Take store by store | refinement to lists: the arrays of rings and slices are pairwise different, every ring array represents its log (C01), and the loop fills the new array only | proved |
| C131 | A Map survives keys that cannot be hashed | Conc/Must: a program in which a call ends with a panic at given points; the program of C21 with the points at which a map is indexed with the key | such a call panics at its first access, before the lock; so every execution is one of the program of C124 in which calls may panic at that point only, and linearization, lock invariant and termination carry over | proved |
| C132 | Reads of a Map wait for nobody once a Range has returned | model of C21; Takes counts the steps of one call | invariant: only a call that can add a key sets `amended`, a Range that has promoted leaves it unset; so later reads never come to the lock; a Load decreases a measure with each step | proved |
| C133 | What panics of user functions can leave behind in a stream program | Conc/NetDead: networks of components that can die; the programs of C101 | weights as for C45 show that executions end; at the end, by induction over the acyclic network: who sends is blocked by a receiver that is blocked or dead, who receives waits for a sender that is not finished or dead | proved |
| C134 | User functions of Map and SharedMap that make calls and panic | Conc/NestedCrash: the program of C124, nested as in C123; a function sees whether a call it made returned or panicked | a nested execution is an execution of the program of C124; measures and lock levels of C123 carry over because a call that panics holds no lock (levels) and had a function to call (measure) | proved |
| C135 | A generateFunc of xmapreduce.Map that watches the context leaves nothing behind | model of C15 with one more step: the generator gives up when the context is done | simulation: an execution in which the generator has given up is, apart from the generator, one in which it goes on waiting; the measure of C17 decreases also for the new step; in a state without steps the lemmas of C17 and C79 apply | proved |
| C136 | What a mapFunc that ends its goroutine does to xmapreduce.Map | model of C15 with one more step: a mapFunc that is not inside Write ends its goroutine | simulation: such a mapFunc is like one that goes on for ever, so the invariants of C15 to C17 and C120 apply; in a state without steps the occupied slots are those of these mapFuncs | proved |
| C137 | What a consumer that stops receiving leaves behind in xmapreduce.Map | model of C15 (and of C135); a quiet state is one without steps but those of the consumer and of the context | in a quiet state a job has ended or its mapFunc waits in Write; without such jobs the loop has ended; the count of C15 decides between the two; with a context that is done workers do not wait, so the loop closes the output, so no Write waits | proved |
| C138 | What a Spinlock guarantees whoever unlocks it | the three methods as calls of their own, step by step as in C28 | simulation by a flag: a successful compare-and-swap, a failed TryLock and the store of Unlock are the instants; counting along the linearization; explicit executions of one call alone; the refutation is a concrete history | refuted + partial |
| C139 | User functions of xsync.Map that clear the map | model of C118, with the stacks of nested calls of C123 | nested calls are calls, so C118 applies to the history; the measure of C123 for the functions that are still called, at the points of C118; the holder of the lock is at a point at which no function of Range runs, so a call that waits for the lock waits for a call that can move | refuted + partial |
| C14 | Worker slots are conserved and every deferFunc runs exactly once | as C13 | inductive invariant | proved |
| C140 | User functions of xsync.Map that clear the map and panic | model of C139, with functions that may panic as in C134 | a call whose function has panicked is one that has stopped, so C118 applies to the others; the measure and the levels of C139 carry over to panics | refuted + partial |
| C141 | User functions of xsync.SharedMap that clear the map | model of C119, with the stacks of nested calls of C123 | nested calls are calls, so C119 applies to the history; the measure of C139 for the current call of a shard below the number of calls of shards that are left; the levels of C123: a call that waits for the lock of a shard waits for one that holds it, and functions called under a lock go up | refuted + partial |
| C142 | User functions of xsync.SharedMap that clear the map and panic | model of C141, with functions that may panic as in C134 | a call whose function has panicked is one that has stopped, so C119 applies to the others; the measure and the levels of C141 carry over to panics | refuted + partial |
| C143 | Where the results of Get come from when create functions use the ResourceManager | model of C114; XSync/ResManNestFrom: which create functions a call can pass to Get, and what a function can come to | invariant by induction over executions: who leads which flight, and what the function of every frame of every stack can have come from | proved |
| C144 | A deferFunc given to a Worker may call Run of the same Worker | XWorker/DeferNest, XWorker/Made: the model of C13–C116 together with the code of the deferFuncs, trees of calls of Run, waits and returns | as C125; that a jam is for ever: the slots are counted by C14, so all calls that occupy one are the ones that wait, and no step changes the stage of a call | refuted + partial |
| C145 | How executions end when run and deferFunc call Run of the same Worker | XWorker/Both, XWorker/BothMade, XWorker/BothJam, XWorker/BothOld: the model of C13–C116 together with the code of both functions given to Run | a measure that sums what both functions of every call have still to do; at the end, downward induction over the calls (functions only wait for later calls), C116 for the slots | proved |
| C146 | Functions that call Run of the same Worker and panic | XWorker/BothPanic, XWorker/BothInside, XWorker/BothPanicMade, XWorker/BothPanicJam: the model of C145 with functions that may end with a panic | C78 for when the program ends, an invariant that ties what Do has seen to the code of the functions; measure and downward induction as in C145 | proved |
| C15 | xmapreduce.Map delivers exactly the mapped elements when not cancelled | XMapReduce/Model: generator, dispatcher, workers (with Do and Write), collector, consumer | inductive invariant: multiset equation | proved |
| C16 | xmapreduce.Map closes its output exactly once and never sends after close | as C15 | inductive invariant; refuted under cancellation | refuted + partial |
| C17 | xmapreduce.Map terminates when not cancelled | as C15 | explicit bound on the number of steps plus absence of stuck states | proved |
| C18 | xsync.Map behaves as an ordinary map in every sequential history | XSync/Map: read map, dirty map, entries on a heap, misses | refinement to a partial function for all histories | proved |
| C19 | xsync.Map.Range visits each present key once with its current value | as C18 | refinement lemma of Range for every iteration order | proved |
| C20 | Compute functions are called only when needed and with the current value | as C18 | as C18 with the log of calls of the user function | proved |
| C21 | xsync.Map is linearizable | XSync/MapConc: one step per atomic access, lock-protected sections split into their accesses | inductive invariant (MapConcInv), simulation by the ghost automaton (MapConcSim), linearizability | proved |
| C22 | Concurrent ComputeIfPresent applies its function to the value it replaces | as C21 | concrete schedule refutes; weaker specification linearizable; instants of the argument | refuted + partial |
| C23 | Concurrent Range is sane | as C21 with Range as a call | linearization with instants: each visited pair was present during the call, keys present throughout are visited, none twice | proved |
| C24 | Clear is safe to call concurrently | XSync/MapClear: the two words of atomic.Value | concrete schedule refutes; invariant for the remaining case | refuted + partial |
| C25 | SharedMap behaves as one ordinary map whatever the shard count | XSync/SharedMap: shards of C18 maps, fnv32 | refinement to one partial function | proved |
| C26 | Shard count is the least power of two not below the request and every key has a shard | XSync/SharedMap: getShardBlockSize on 32-bit words | bit-level lemma for all 2^32 values | proved |
| C27 | SharedMap.Range visits each key exactly once across shards and stops when told | as C25 | induction over the shards | proved |
| C28 | Spinlock provides mutual exclusion | XSync/Spinlock: word, backoff loop | inductive invariant | proved |
| C29 | Spinlock TryLock is exact and Lock makes progress with bounded backoff | as C28 | per-step lemmas and invariant on the backoff | proved |
| C30 | ResourceManager creates a resource at most once per key while it is held | XSync/ResMan: singleflight group, RWMutex, resources map | inductive invariant with ghost history; refuted clause | refuted + partial |
| C31 | ResourceManager.Close closes every held resource exactly once and reports every failure | as C30 | inductive invariant | proved |
| C32 | ResourceManager is safe after Close | as C30 | concrete execution refutes; invariant before the panic | refuted + partial |
| C33 | Malloc returns a buffer of the requested length and capacity | XBytes/Model: pools by size class, slices with length and capacity | case analysis over the size classes, all sizes | proved |
| C34 | Live buffers never overlap | as C33, pool returns any element or a new one | inductive invariant over ownership | proved |
| C35 | MaxInt/MinInt/MaxInt64/MinInt64 return the true maximum/minimum | XMath/Float: rounding of ints to 53 bits | order lemmas; refuted beyond 2^53 | refuted + partial |
| C36 | Float max/min follow IEEE order with NaN and signed-zero rules | XMath/Model: floats as bit patterns, 64 and 32 bit | case analysis on NaN, zeros, infinities and order | proved |
| C37 | Integers and booleans survive a write/read round trip | XBinary/Model over arbitrary io.Reader/io.Writer | round trip for eager readers; refuted for split reads | refuted + partial |
| C38 | Byte strings survive a WriteBytes/ReadBytes round trip | as C37 | round trip below 65536; refuted above | refuted + partial |
| C39 | Mixed sequences of typed values are framed unambiguously | as C37 | induction over the sequence of values | proved |
| C40 | Truncated input is reported as an error, never as a value | as C37 | for every chunking; ReadBool refuted for (0, nil) | refuted + partial |
| C41 | A pooled reader only yields its own source's bytes | XIO/Model: bufio.Reader state, pool as bag with evictions | inductive invariant over ownership of sources; refuted for *bufio.Reader sources | refuted + partial |
| C42 | A pooled writer only emits its own user's bytes | as C41 for bufio.Writer | inductive invariant | proved |
| C43 | Order-preserving stream stages compute the list function they name under every schedule | XStream/Model: each operation a component of Conc/Net | one loop invariant per stage (Stages, Stages2), then the network theorem | proved |
| C44 | Each stage closes its output exactly once, after its last element | as C43 | legality part of the network theorem | proved |
| C45 | Stages never deadlock while input keeps coming and output is consumed | as C43 | no-deadlock and termination part of the network theorem | proved |
| C46 | Distinct keeps exactly the first element of each key | as C43 | stage invariant; firstPerKey | proved |
| C47 | Split and SplitSteam partition the stream into chunks of n | as C43, nested channels of SplitSteam | stage invariant; chunks | proved |
| C48 | Sort yields an ordered permutation | as C43, sort.Slice by its contract | list lemmas | proved |
| C49 | Walk processes every element exactly once with at most workSize in flight | XStream/Walk: dispatcher, work-slot channel, any number of workers | component invariant over all schedules of the workers | proved |
| C50 | With the default single worker Walk preserves order | as C49 | invariant for one slot | proved |
| C51 | Concat delivers an interleaving of all its inputs | XStream/Fork: Concat with one goroutine per input | component invariant, Interleaving | proved |
| C52 | Copy gives every copy the whole stream | XStream/Fork: Copy | component invariant | proved |
| C53 | Group and GroupBy partition the stream by key | as C43, map iteration order arbitrary | list lemmas, IsGrouping | proved |
| C54 | Terminal operations agree with the list | as C43 | stage invariants of the terminal operations | proved |
| C55 | Sub/Left/Right select exactly the requested characters | XString/Model: byte strings, full UTF-8 decoding incl. invalid bytes | list lemmas over the decoded characters | proved |
| C56 | Padding reaches exactly the requested width and keeps the text | XString/Model: byte strings, full UTF-8 decoding incl. invalid bytes | list lemmas over the decoded characters | proved |
| C57 | Reverse reverses the characters and is its own inverse | XString/Model: byte strings, full UTF-8 decoding incl. invalid bytes | list lemmas over the decoded characters | refuted + partial |
| C58 | Rotate is a circular shift by the given number of characters | XString/Model: byte strings, full UTF-8 decoding incl. invalid bytes | list lemmas over the decoded characters | refuted + partial |
| C59 | RemoveChar and DeleteWhitespace remove exactly the unwanted characters | XString/Model: byte strings, full UTF-8 decoding incl. invalid bytes | list lemmas over the decoded characters | refuted + partial |
| C60 | CommonPrefix returns the longest common prefix | XString/Model: byte strings, full UTF-8 decoding incl. invalid bytes | list lemmas over the decoded characters | refuted + partial |
| C61 | IndexOfDifference finds the first differing position | XString/Model: byte strings, full UTF-8 decoding incl. invalid bytes | list lemmas over the decoded characters | refuted + partial |
| C62 | RegionMatches and ContainsIgnoreCase never panic and decide case-insensitive matching | XString/Model: byte strings, full UTF-8 decoding incl. invalid bytes | list lemmas over the decoded characters | proved |
| C63 | EqualsIgnoreCase is equality up to case | XString/Model: byte strings, full UTF-8 decoding incl. invalid bytes | list lemmas over the decoded characters | refuted + partial |
| C64 | EndsWith decides suffixes | XString/Model: byte strings, full UTF-8 decoding incl. invalid bytes | list lemmas over the decoded characters | proved |
| C65 | Abbreviate never exceeds maxWidth | XString/Model: byte strings, full UTF-8 decoding incl. invalid bytes | list lemmas over the decoded characters | refuted + partial |
| C66 | Joiner yields prefix + items joined by step + suffix | XString/Joiner: builder with capacity, prefix/step/suffix | exact output for every sequence of calls | refuted + partial |
| C67 | Joiner.Len is the length of String | as C66 | as C66 | proved |
| C68 | Shuffle only permutes characters | XString/Model | list lemmas over the decoded characters | proved |
| C69 | Character-class predicates quantify over all characters | XString/Model | list lemmas over the decoded characters | proved |
| C70 | IsNumerical accepts exactly decimal numerals | XString/Model | list lemmas over the decoded characters | refuted + partial |
| C71 | RemoveString removes every occurrence | XString/Model | list lemmas over the decoded characters | proved |
| C72 | UTF-8 decoding and encoding are inverse on valid text | Go/Utf8 | round trip for all code points; agreement with the encoder of Lean core | proved |
| C73 | Trim functions strip exactly the cutset from the ends | XString/Model | list lemmas over the decoded characters | proved |
| C74 | Write errors are reported and stop the write | XBinary/Model, writers that fail at any call | case analysis over the write calls | proved |
| C75 | A sized pooled reader has a buffer of at least the requested size | as C41 | refuted; proved for an empty pool | refuted + partial |
| C76 | A barrier call that is blocked on its channel is released by cancellation | as C11 | concrete execution refutes; invariant: somebody waits to send only if the buffer is full; the states in which nothing moves are characterised | refuted + partial |
| C77 | Do returns once do has ended | as C06 | refuted for Goexit; otherwise from every reachable state Do returns; termination by phases, and the states in which nothing moves are characterised | refuted + partial |
| C78 | A panic in a function given to a Worker does not end the program | as C13 | refuted; invariant that says exactly when the program has ended | refuted + partial |
| C79 | Cancelling Map lets the generator finish | as C15 | refuted for every continuation | refuted + partial |
| C80 | A cancelled Map closes its output on its own | as C15 | bounded measure under cancellation | proved |
| C81 | Get after Remove does not return the removed resource | as C30 | refuted; invariant with ghost removal times | refuted + partial |
| C82 | Every accepted shard count gives a usable SharedMap | as C25 | refuted above 2^31; proved below | refuted + partial |
| C83 | Stream operations reject exactly the bad parameters | XStream/Model constructors | case analysis | proved |
| C84 | The streams returned by Copy can be consumed independently | as C52, with consumers that stop at any moment (Conc/Stop) | refuted: invariant of the network on what the copies have been sent; the final state when nobody but the stopped consumers can move, by cases on where Copy is | refuted + partial |
| C85 | Concurrent Map operations neither panic nor dead-lock | as C21 | invariant; rank function for progress of a single call | proved |
| C86 | The function passed to ComputeIfAbsent or ComputeIfPresent is called at most once per call | as C21 | refuted by a schedule; invariant on the number of calls | refuted + partial |
| C87 | Concurrent use of a SharedMap is linearizable | XSync/SharedConc: a call is a sequence of calls of shards (Conc/Client), each shard a map of C21 (Conc/Family) | the simulation of C21 for every shard at once; calls of shards lie inside the calls of the SharedMap | proved |
| C88 | MStore and Range of a SharedMap under concurrency | as C87 | as C87; the instants observed by the shards are instants of the whole | proved |
| C89 | Concurrent SharedMap operations neither panic nor dead-lock | as C87 | no-panic by the invariant that shard indices are in range; from every reachable configuration a schedule is built that lets the holders of locks finish and then the call itself, shard by shard | proved |
| C90 | How far a stream runs ahead of its consumer | as C44 | invariant: a channel buffer never exceeds its capacity; the capacity in every sending state of every component equals the table | proved |
| C91 | User functions may use the Map they were called by | as C21; a nested call is another call of an execution in which the outer call takes no step | constructive: the lock holder, then the nested call, run to completion without the outer call; refutation: invariant that a call waiting for a lock held by a call that does not move keeps waiting | refuted + partial |
| C92 | Map has no data races | XSync/MapMem: instruction trees for all methods but Clear, one step per memory access; Go maps are heap objects shared by reference | forward simulation to the model of C21 (Conc/Refine): between two points that correspond, the holder of the lock runs ahead privately; published maps never change; races: a writer holds the lock and writes to an unpublished map, others read published maps only | proved |
| C93 | End of input is io.EOF exactly between values | as C37, with the reader of a memory buffer | case analysis over the length of the data | refuted + partial |
| C94 | Errors of the underlying writer are never lost | as C37 | case analysis over the calls of the writer | proved |
| C95 | Map works in amortised constant time and reads soon do without the lock | as C21; runs that record the list of their steps (Conc/Run) | potential function: three units per miss pay for copying an entry at the next dirtyLocked; the weight of a point bounds the steps to come; invariant: the counter of misses is below the size of the dirty map unless the holder of the lock is just changing it | proved |
| C96 | A pooled reader for a *bufio.Reader continues that reader | XIO/Chain: reading through chains of bufio.Readers | induction over the chain: the bytes left are the buffers from the outermost inwards, then the source | proved |
| C97 | A pooled writer for a *bufio.Writer appends to it | XIO/Chain: bufio.Writer over any sink; chains | generic lemma for a writer over any sink that keeps the contract of io.Writer; induction over the chain | proved |
| C98 | Putting a reader or writer back leaves the one it was obtained for intact | as C96, C97 | refuted; proved when the object obtained is not own | refuted + partial |
| C99 | Buffers from the shared pools behave like private memory | XBytes/Share: goroutines as programs over handles, memory byte by byte, the pools of C33/C34 | invariant: the windows of all handles satisfy the invariant of C34; simulation of each goroutine by one with private memory | proved |

Theorems and remarks per property: `MANIFEST.json`.

## 5. Trusted base

1. **Lean 4.33.0's kernel.** No `sorry`, `admit`, `native_decide`, `bv_decide`, no `axiom` declarations, no `implemented_by` in proofs.
2. **Axioms.** Every theorem depends on a subset of `propext`, `Classical.choice`, `Quot.sound`; section 7 lists the set for each
   theorem of the manifest (output of `#print axioms`).
3. **The reading of the Go source into the model.** Each definition cites its lines, so the translation can be compared by eye.
4. **The contracts of the Go runtime and standard library**, as far as the code relies on them:
   * channels, `select`, `close`, `go`, `defer`, `recover`, `runtime.Goexit`;
   * `sync.Mutex`, `sync.RWMutex`, `sync.Once`, `sync.WaitGroup`, `sync.Pool` (may return any object put before, or none);
   * `sync/atomic`: single atomic sequentially consistent steps; `atomic.Value` panics for nil and mixed types;
   * `golang.org/x/sync/singleflight`'s `Do` (modelled step by step in XSync/ResMan; a panic of its function takes the way of an error and is raised again in every caller, XSync/ResManPanic);
   * `bufio.Reader/Writer` (`Read`, `Reset`, `Write`, `Flush`, sizes), `io.ReadFull`, `encoding/binary.BigEndian`;
   * `sort.Slice` (permutes; sorted if `less` is a strict weak order), `math.Max/Min`, int↔float64 conversion (round to nearest even);
   * `strings.Builder`, `strings.Replace`, `strings.Trim*`, `strings.Index`, `strings.IndexAny`, `unicode.Is*`, `regexp` (for the one constant pattern),
     `rand` (any values in range).
   * `github.com/panjf2000/ants` pool: `Submit` of an unlimited pool is taken to be a `go` statement whose function may panic: the worker recovers the panic after the deferred calls of the function.

### What is modelled

| package | functions modelled | not modelled |
|---------|--------------------|--------------|
| xring, xerror, xmath, xonce, xbytes, xio, xbinary, xworker | all (Worker also with functions and deferFuncs that call Run of the same Worker, C125, C144, C145, and panic, C146) | – |
| xtask | Do, DoWithTimeout, DoWithoutDefer, DoWithRetry, options | the text of a recovered panic (stack trace) is represented by the panic value |
| xbarrier | Read and Write | the two constructors only store their arguments |
| xmapreduce | WithWorkerSize/loadOption, Map, buildSource, doMap, MapStream as a source of streams, with a context that may become done | mapFunc is a finite list of writes, after which it returns or panics (C112), or a terminating program that reacts to the results of Write and returns (C122) |
| xsync | Map (all methods, sequential and concurrent), SharedMap (all methods, sequential and concurrent), both with user functions that make calls on the map (C123; Clear included: C139, C141) or panic (C124; both: C134, C140, C142); Map with keys that cannot be hashed (C131), Spinlock (with sections, and with methods called by anybody), ResourceManager (with panicking or nil-returning `create` and panicking resources; access by access; with `create` functions and Close methods that use the manager) | fairness of schedulers only for Spinlock (C117; elsewhere the calls return under every schedule) |
| xstream | all sources, stages, terminals, options, internal ring buffer | the ants pool (see above); the log handle |
| xstring | all functions; StringJoiner | case folding and Unicode classes are parameters with the properties used; the `unsafe` conversions of internal/hack are modelled for Reverse, their only user (C102) |

Simplifications that concern a single definition are stated in the comment of that definition.

## 6. Findings: where the code does not have the property

Each item is a machine-checked refutation unless it is marked (read).

| property | finding |
|----------|---------|
| C01 | after 2^63 Adds the counter of Ring overflows and Take panics |
| C04 | `DoWithRetry` with `WithRetry(math.MaxInt64)` never stops for an always failing function (`i <= times` is always true) |
| C10 | `Value.Write(nil)` and a second Write of another dynamic type panic |
| C13 | after a cancellation `Do` returns and gives the slot back while the function still runs: more than `size` functions run |
| C16 | after a cancellation the collector is closed while mappings still run; their Write panics (send on closed channel) |
| C17 | worker size 0: Map never delivers anything |
| C22 | `ComputeIfPresent` computes once and retries its CAS with the stale result: a concurrent update is lost |
| C24 | `Clear` overwrites an `atomic.Value` by plain assignment: concurrent operations may panic |
| C30 | a Get made after another Get returned a create error can still get that error without calling create |
| C32 | Get after Close panics (nil map) with the lock held; later calls block for ever |
| C34 | freeing a buffer twice makes two later Mallocs alias (caller error; shows the assumption is needed) |
| C35 | MaxInt/MinInt go through float64: wrong beyond 2^53, even with the wrong sign of the result |
| C37 | ReadIntN uses a single Read: a reader that splits the value makes it fail; so does a reader that returns io.EOF together with the last bytes |
| C38 | the length is written as uint16: slices of 65536 bytes or more are corrupted |
| C40 | ReadBool ignores the number of bytes read: a (0, nil) read gives `false` without error |
| C41 | GetBufferReader of a `*bufio.Reader` with an empty pool returns the same object, PutBufferReader then puts the user's reader into the pool |
| C57 | Reverse rejects valid strings that contain U+FFFD |
| C58 | Rotate takes the shift modulo the byte length |
| C59 | DeleteWhitespace compares byte count with character count |
| C60, C61 | CommonPrefix/IndexOfDifference use a sentinel 2^33-1 as "infinity" |
| C63 | EqualsIgnoreCase compares only the common prefix of the lengths |
| C65 | Abbreviate exceeds maxWidth for some offsets |
| C66 | Joiner writes an extra step before the first item after a leading Grow, and after Reset |
| C70 | the dot in IsNumerical's pattern is unescaped |
| C75 | the requested buffer size is ignored if a pooled reader is reused |
| C76 | a barrier call blocked on its channel is not released by cancellation |
| C77 | `Do` blocks for ever if the function calls `runtime.Goexit` and the context is never done |
| C78 | a panic in a function given to a Worker terminates the program |
| C79 | the generator goroutine of a cancelled Map is leaked |
| C81 | Get can return a resource removed before the Get was made |
| C82 | SharedMap with a negative or > 2^31 shard count is accepted and then panics at every use |
| C84 | an unread copy of Copy stops all the other copies as soon as its buffer is full |
| C93 | ReadBytes reports a stream that ends directly after a length as io.EOF, like a complete stream |
| C98 | GetBufferReader/GetBufferWriter of a `*bufio.Reader`/`*bufio.Writer` with an empty pool return the object itself; Put resets it: its source or destination is gone, and unflushed bytes are lost without an error |
| C88 | MStore is not atomic: a Load can see one of its pairs while a later Load does not see another |
| C86 | ComputeIfAbsent and ComputeIfPresent can call their function twice |
| C91 | ComputeIfAbsent/ComputeIfPresent call the function with the map's lock held in the slow path: a function that uses the same map dead-locks |
| C123 | SharedMap: functions of ComputeIfAbsent that load each other's key, in different shards, dead-lock two goroutines; on the same shard one goroutine dead-locks with itself |
| C124 | Map, SharedMap: a panic in the function of ComputeIfAbsent or ComputeIfPresent leaves the mutex locked; if the caller recovers, later calls that need the mutex never return |
| C125 | Worker: functions that call Run of their own Worker can wait for ever for slots they hold themselves (`size` such functions, or one call nested `size` deep whose functions wait for their calls) |
| C126 | BatchError: after a copy `b := a`, adding to both can overwrite an error in what `a.Err()` has already returned (shared array of the slice) |
| C127 | xstream: `Of(s...)` reads the slice of its caller after it has returned; the consumers of Copy share the slices they receive; `Map` of the GroupBy collector returns its own map |
| C128 | ResourceManager.Close calls the Close methods of the resources with the lock held: a slow one blocks every other call |
| C101 | a panic of Peek's function leaves its consumer waiting for ever (close is not deferred); one of Distinct's key function ends the stream early without a sign and leaks the goroutine of the source; one in Foreach, AnyMach, AllMach, Group or GroupBy's Map leaks it too |
| C106 | after a recovered panic of the key function, Map of the collector returns the groups of the elements before the panic as if they were all |
| C107 | a `create` that returns (nil, nil) makes every Get of its key panic until Remove; a nil resource or a panicking Close method makes ResourceManager.Close panic with the write lock held, after which every call blocks |
| C114 | a `create` that calls Get with its own key, or two concurrent `create`s that Get each other's key, and a Close method of a resource that calls Get or Remove of the manager being closed, block for ever (in the last case the whole manager) |
| C108 | Split, Limit and Copy panic on a bad parameter without draining their stream, whose goroutines are then blocked for ever (SplitSteam, Tail and Skip drain it) |
| C112 | when mapFunc panics, the deferred waitGroup.Done lets doMap close the output before the panic ends the program: the consumer can see a normal end with values missing; after a cancellation the panic is lost completely |
| C117 | Lock of a Spinlock can be overtaken by other sessions for ever, also under a fair scheduler |
| C138 | Unlock of a Spinlock by a goroutine that does not have the lock lets another goroutine in beside the holder |
| C139 | a function of ComputeIfAbsent of xsync.Map that calls Clear on the same map never returns, nor does the Clear |
| C141 | a function of ComputeIfAbsent of xsync.SharedMap that calls Clear on the same map never returns, nor does the Clear |
| C119 | `SharedMap.Clear` empties one shard after the other: during it one key can be gone and another one still be found; a Clear can make an MStore panic after it has stored some of its pairs |
| C120 | after a cancellation the stream of MapStream ends normally with values missing: the consumer cannot tell (it follows from C16 and C79) |
| C121 | operations called on the same stream (or on streams of the same channel) do not each see the whole stream: its elements are divided among them by the schedule; Copy is needed for that |
| C144 | Worker: deferFuncs that call Run of their own Worker keep their slots meanwhile; `size` of them never return, even when all contexts become done |
| (read) | `Worker.Run` with a nil deferFunc crashes (also C78); `NewWorker(-1)` panics; size 0 blocks for ever (C14_size_zero) |
| (read) | FlatMap drops nil items; Peek calls its function after the element has been sent on; ForeachOrdered iterates in reverse (documented) |

## 7. Axioms of the theorems

**no axioms** (7 theorems):
`XStream.Heap.C127_map_exact`, `XMath.C35_maxInt_wrong_sign_refuted`, `XBinary.C40_bool_refuted`, `XString.Joiner.C66_grow_refuted`, `XString.Joiner.C66_reset_refuted`, `XString.Joiner.C66_counts`, `XString.C71_not_repeated`.

**propext** (44 theorems):
`XRing.C01_newRing_panics_iff`, `XRing.C01_counter_overflow_panics`, `XError.C03_err`, `XOnce.C10_panics_refuted`, `XStream.C106_agrees`, `XSync.ResMan.C107_nil_refuted`, `XSync.ResMan.C107_close_refuted`, `XSync.ResManMem.C113_resman_writes`, `XRing.Conc.C113_ring_writes`, `XSync.ResManNest.C114_own_key_refuted`, `XSync.ResManNest.C114_cycle_refuted`, `XSync.ResManNest.C114_close_remove_refuted`, `XSync.ResManNest.C114_close_get_refuted`, `XSync.MapConc.C123_map_history`, `XWorker.C125_worker`, `XError.Heap.C126_stable_refuted`, `XStream.Heap.C127_of_refuted`, `XStream.Heap.C127_map_refuted`, `XSync.ResManMem.C128_slow_close_refuted`, `XSync.MapConc.C132_needed`, `XWorker.C14_newWorker`, `XWorker.C144_worker`, `XWorker.C145_worker`, `XWorker.C146_worker`, `XSync.MapClear.C24_clear_panics_refuted`, `XSync.ResMan.C30_error_refuted`, `XSync.ResMan.C32_after_close_refuted`, `XBytes.C34_double_free_aliases`, `XBinary.C37_write`, `XBinary.C37_chunked_refuted`, `XBinary.C38_write`, `XIO.C41_wrap_refuted`, `XString.C57_reverse_refuted`, `XString.C58_rotate_refuted`, `XString.C59_deleteWhitespace_cases`, `XString.C65_width_refuted`, `XString.C65_negative_offset_overflow`, `XIO.C75_size_refuted`, `XTask.C77_goexit_refuted`, `XMapReduce.C79_generator_refuted`, `XSync.ResMan.C81_stale_refuted`, `XSync.MapConc.C86_called_twice_refuted`, `XSync.MapConc.C86_present_twice_refuted`, `XSync.MapMem.C92_writes`.

**propext, Quot.sound** (131 theorems):
`XRing.Conc.C02_linearizable`, `XRing.Conc.C02_progress`, `XRing.Conc.C02_ends`, `XError.C03_nil_iff`, `XError.C03_message`, `XTask.Retry.C04_options`, `XTask.C06_defer_once`, `XTask.C07_result`, `XTask.C07_not_done`, `XTask.C08_no_leak`, `XOnce.C10_linearizable`, `XOnce.C10_write_once`, `XMapReduce.C103_panics`, `XSync.ResMan.C107_close_panics`, `XSync.ResMan.C107_ends`, `XString.C109_index`, `XBarrier.C11_late_write`, `XBarrier.C11_C12_conservation`, `XSync.Spinlock.C111_linearizable`, `XSync.Spinlock.C111_memory`, `XSync.Spinlock.C111_no_race`, `XSync.Spinlock.C111_no_deadlock`, `XMapReduce.C112_end_refuted`, `XMapReduce.C112_lost_refuted`, `XRing.Conc.C113_ring_no_race`, `XSync.ResManMem.C113_resman_reads`, `XRing.Conc.C113_ring_reads`, `XSync.ResManNest.C114_got`, `XSync.ResManNest.C114_removed`, `XSync.ResManNest.C114_create_once`, `XSync.ResManNest.C114_no_panic`, `XSync.Spinlock.C117_starves_refuted`, `XSync.Spinlock.C117_unfair_refuted`, `XBarrier.C12_late_read`, `XMapReduce.C122_lists`, `XSync.SharedConc.C123_shared_history`, `XSync.MapConc.C124_map_history`, `XSync.MapConc.C124_computeIfAbsent_refuted`, `XSync.MapConc.C124_computeIfPresent_refuted`, `XSync.SharedConc.C124_shared_history`, `XWorker.C125_joined`, `XStream.Heap.C127_merge`, `XStream.Heap.C127_apart`, `XStream.Heap.C127_kept`, `XStream.Heap.C127_value`, `XStream.Heap.C127_of_partial`, `XStream.Heap.C127_of_exact`, `XStream.Heap.C127_copy_refuted`, `XWorker.C13_bound_partial`, `XWorker.C13_bound_not_cancelled`, `XWorker.C13_bound_refuted`, `XSync.MapConc.C131_panics`, `XSync.MapConc.C131_history`, `XSync.MapConc.C134_map_history`, `XSync.SharedConc.C134_shared_history`, `XSync.SpinlockFree.C138_linearizable`, `XSync.SpinlockFree.C138_one_per_unlock`, `XSync.SpinlockFree.C138_no_waiting`, `XSync.SpinlockFree.C138_unlock_lets_in`, `XSync.SpinlockFree.C138_owner_refuted`, `XWorker.C14_slots`, `XWorker.C14_defer_once`, `XWorker.C14_accept_iff`, `XWorker.C14_release_never_blocks`, `XSync.ResManNest.C143_failed`, `XSync.ResManNest.C143_got`, `XWorker.C144_joined`, `XWorker.C145_mixed`, `XWorker.C145_has_C125`, `XWorker.C145_has_C144`, `XWorker.C146_has_C145`, `XWorker.C146_lost`, `XWorker.C146_panic`, `XMapReduce.C16_cancel_refuted`, `XMapReduce.C17_options`, `XSync.MapConc.C23_range_stops`, `XSync.Shared.C26_new`, `XSync.Shared.C26_index`, `XSync.Shared.C26_option`, `XSync.Spinlock.C28_mutual_exclusion`, `XSync.Spinlock.C29_attempt_exact`, `XSync.Spinlock.C29_tryLock_result`, `XSync.Spinlock.C29_backoff`, `XSync.ResMan.C32_ends`, `XSync.ResManMem.C113_resman_ends`, `XMath.C36_maxFloat64`, `XMath.C36_minFloat64`, `XBinary.C37_big_endian`, `XBinary.C37_dataErr_refuted`, `XBinary.C40_bool_partial`, `XStream.C46_first_per_key`, `XStream.C83_panics`, `XStream.C48_witness`, `XStream.C50_options`, `XStream.C52_channels`, `XString.C65_fits`, `XString.C65_error_small`, `XString.Joiner.C66_exact`, `XString.Joiner.C66_joined_partial`, `XString.Joiner.C66_no_panic`, `XString.Joiner.C67_grow_room`, `XString.C69_classes`, `XString.C69_variants`, `XString.C69_equalsAny`, `XString.C69_defaults`, `XString.C70_language`, `XString.C70_isNumerical_partial`, `XString.C70_isNumerical_refuted`, `XString.C71_removeString`, `XString.C71_unchanged_iff`, `XString.C71_contains`, `XString.C71_containsAny`, `XBinary.C74_write_errors`, `XIO.C75_size_partial`, `XBarrier.C76_blocked_refuted`, `XTask.C77_returns_partial`, `XTask.C77_exact`, `XWorker.C78_no_crash_partial`, `XWorker.C78_exact`, `XWorker.C78_panic_refuted`, `XSync.MapConc.C86_alone_partial`, `XSync.SharedConc.C88_mstore_atomic_refuted`, `XSync.MapMem.C92_reads`, `XBinary.C93_end_partial`, `XBinary.C93_number_partial`, `XBinary.C94_write_errors`, `XIO.C96_read`, `XIO.C97_agrees`, `XIO.C98_reader_refuted`, `XIO.C98_writer_refuted`, `XBytes.C99_no_wait`.

**propext, Classical.choice, Quot.sound** (448 theorems):
`XRing.C01_take_returns_last_n`, `XRing.C01_take_suffix`, `XRing.Conc.C02_takes_return_last_n`, `XRing.Conc.C02_returns`, `XTask.Retry.C04_C05_doWithRetry`, `XTask.Retry.C04_calls`, `XTask.Retry.C04_maxint_refuted`, `XTask.Retry.C05_maxint`, `XTask.Retry.C05_result`, `XTask.C06_without_defer`, `XTask.C07_done_on_entry`, `XTask.C07_timeout`, `XOnce.C09_at_most_one`, `XOnce.C09_exactly_one`, `XOnce.C09_no_panic`, `XOnce.C09_write_never_blocks`, `XOnce.C09_received`, `XOnce.C09_closed_after_value`, `XOnce.C09_recv_never_blocks`, `XBinary.C100_session`, `XBinary.C100_roundtrip`, `XStream.C101_no_crash`, `XStream.C101_map`, `XStream.C101_filter`, `XStream.C101_walk`, `XStream.C101_peek`, `XStream.C101_distinct`, `XStream.C101_foreach`, `XStream.C101_peek_refuted`, `XStream.C101_distinct_refuted`, `XStream.C101_foreach_refuted`, `XStream.C101_mach`, `XStream.C101_mach_decided`, `XStream.C101_keyed`, `XStream.C101_ordered`, `XStream.C101_sort`, `XStream.C101_mach_refuted`, `XStream.C101_keyed_refuted`, `XStream.C101_ordered_source`, `XStream.C101_sort_source`, `XStream.C101_mach_end`, `XStream.C101_keyed_end`, `XStream.C101_ordered_end`, `XStream.C101_sort_end`, `XString.C102_reverse`, `XString.C102_immutable`, `XMapReduce.C103_order`, `XMapReduce.C103_in_order`, `XMapReduce.C103_node`, `XMapReduce.C103_program`, `XSync.MapConc.C104_clear_linearizable`, `XSync.MapConc.C104_clear_observed`, `XSync.MapConc.C104_clear_runs`, `XSync.SharedConc.C105_clear_linearizable`, `XSync.SharedConc.C105_clear_effects`, `XSync.SharedConc.C105_clear_no_panic`, `XSync.SharedConc.C105_clear_runs`, `XStream.C106_map_partial`, `XStream.C106_map_refuted`, `XSync.ResMan.C107_create`, `XSync.ResMan.C107_error`, `XSync.ResMan.C107_got`, `XSync.ResMan.C107_stored`, `XSync.ResMan.C107_nil`, `XSync.ResMan.C107_close_partial`, `XSync.ResMan.C107_no_deadlock_partial`, `XSync.ResMan.C107_returns_partial`, `XSync.ResMan.C107_locked`, `XStream.C108_left`, `XStream.C108_drained_partial`, `XStream.C108_leak_refuted`, `XString.C109_index_any`, `XBarrier.C11_write`, `XBarrier.C11_never_false`, `XStream.C110_source`, `XStream.C110_pipeline`, `XStream.C110_copy`, `XStream.C110_copy_end`, `XSync.Spinlock.C111_tickets`, `XMapReduce.C112_output`, `XMapReduce.C112_only`, `XMapReduce.C112_crash_partial`, `XSync.ResManMem.C113_resman_atomic`, `XSync.ResManMem.C113_resman_no_race`, `XSync.ResManMem.C113_resman_exclusive`, `XSync.ResManMem.C113_close`, `XSync.ResManNest.C114_ends`, `XSync.ResManNest.C114_no_deadlock_partial`, `XSync.ResManNest.C114_returns_partial`, `XSync.MapConc.C115_ends`, `XSync.MapConc.C115_returns`, `XSync.SharedConc.C115_shared_ends`, `XSync.SharedConc.C115_shared_returns`, `XSync.MapMem.C115_mem_ends`, `XSync.MapMem.C115_mem_returns`, `XWorker.C116_ends`, `XWorker.C116_accepted`, `XWorker.C116_waits`, `XWorker.C116_all_done`, `XSync.Spinlock.C117_overtaken`, `XSync.Spinlock.C117_over`, `XSync.Spinlock.C117_ends_partial`, `XSync.Spinlock.C117_all_over`, `XSync.MapWords.C118_linearizable`, `XSync.MapWords.C118_calm`, `XSync.MapWords.C118_observed`, `XSync.MapWords.C118_panics`, `XSync.MapWords.C118_ends`, `XSync.MapWords.C118_returns`, `XSync.SharedConc.C119_atomic_refuted`, `XSync.SharedConc.C119_effects`, `XSync.SharedConc.C119_panics`, `XSync.SharedConc.C119_key_partial`, `XSync.SharedConc.C119_one_shard_partial`, `XSync.SharedConc.C119_ends`, `XSync.SharedConc.C119_returns`, `XBarrier.C12_read`, `XMapReduce.C120_cut`, `XMapReduce.C120_cut_in_order`, `XMapReduce.C120_node`, `XMapReduce.C120_no_wait`, `XMapReduce.C120_ends`, `XMapReduce.C120_complete`, `XMapReduce.C120_program`, `XMapReduce.C120_all_refuted`, `XStream.C121_ends`, `XStream.C121_shares`, `XStream.C121_exactly_once`, `XStream.C121_counts`, `XStream.C121_foreach`, `XStream.C121_whole_refuted`, `XMapReduce.C122_multiset`, `XMapReduce.C122_order`, `XMapReduce.C122_in_order`, `XMapReduce.C122_results`, `XMapReduce.C122_accepted`, `XMapReduce.C122_cut_in_order`, `XMapReduce.C122_stops`, `XMapReduce.C122_closed_once`, `XMapReduce.C122_all_finished`, `XMapReduce.C122_finite`, `XMapReduce.C122_progress`, `XMapReduce.C122_cancel_closes`, `XSync.MapConc.C123_map_range`, `XSync.MapConc.C123_map_ends`, `XSync.MapConc.C123_map_returns_partial`, `XSync.MapConc.C123_computeIfAbsent_refuted`, `XSync.MapConc.C123_computeIfPresent_refuted`, `XSync.SharedConc.C123_shared_linearizable`, `XSync.SharedConc.C123_shared_ends`, `XSync.SharedConc.C123_shared_returns_partial`, `XSync.SharedConc.C123_shared_same_refuted`, `XSync.SharedConc.C123_shared_cross_refuted`, `XSync.MapConc.C124_map_effects`, `XSync.MapConc.C124_map_strict`, `XSync.MapConc.C124_map_ends`, `XSync.MapConc.C124_map_returns_partial`, `XSync.SharedConc.C124_shared_effects`, `XSync.SharedConc.C124_shared_ends`, `XSync.SharedConc.C124_shared_returns_partial`, `XSync.SharedConc.C124_shared_refuted`, `XWorker.C125_no_crash`, `XWorker.C125_made`, `XWorker.C125_apart`, `XWorker.C125_ends`, `XWorker.C125_exact`, `XWorker.C125_over_partial`, `XWorker.C125_cancelled`, `XWorker.C125_crowd_refuted`, `XWorker.C125_deep_refuted`, `XError.Heap.C126_values_partial`, `XError.Heap.C126_stable_partial`, `XError.Heap.C126_no_copy`, `XStream.Heap.C127_split`, `XStream.Heap.C127_group`, `XSync.ResManMem.C128_no_wait_partial`, `XSync.ResManMem.C128_slow_create_partial`, `XSync.SharedConc.C129_waits`, `XSync.SharedConc.C129_slow`, `XWorker.C13_unbounded_refuted`, `XRing.Heap.C130_own`, `XRing.Heap.C130_kept`, `XSync.MapConc.C131_effects`, `XSync.MapConc.C131_lock`, `XSync.MapConc.C131_ends`, `XSync.MapConc.C131_returns`, `XSync.MapConc.C132_no_wait`, `XSync.MapConc.C132_slow`, `XSync.MapConc.C132_load_steps`, `XStream.C133_ends`, `XStream.C133_left`, `XStream.C133_nothing`, `XStream.C133_distinct`, `XSync.MapConc.C134_map_effects`, `XSync.MapConc.C134_map_ends`, `XSync.MapConc.C134_map_returns`, `XSync.SharedConc.C134_shared_effects`, `XSync.SharedConc.C134_shared_ends`, `XSync.SharedConc.C134_shared_returns`, `XMapReduce.C135_output`, `XMapReduce.C135_same`, `XMapReduce.C135_finite`, `XMapReduce.C135_nothing_left`, `XMapReduce.C136_output`, `XMapReduce.C136_open`, `XMapReduce.C136_finite`, `XMapReduce.C136_end`, `XMapReduce.C136_cancelled`, `XMapReduce.C137_comes_to_rest`, `XMapReduce.C137_fits`, `XMapReduce.C137_too_many`, `XMapReduce.C137_cancelled`, `XMapReduce.C137_watching`, `XSync.MapWords.C139_linearizable_partial`, `XSync.MapWords.C139_observed`, `XSync.MapWords.C139_panics`, `XSync.MapWords.C139_ends`, `XSync.MapWords.C139_returns_partial`, `XSync.MapWords.C139_clear_refuted`, `XWorker.C14_cancelled_before`, `XWorker.C14_size_zero`, `XSync.MapWords.C140_linearizable_partial`, `XSync.MapWords.C140_observed`, `XSync.MapWords.C140_panics`, `XSync.MapWords.C140_ends`, `XSync.MapWords.C140_returns_partial`, `XSync.SharedConc.C141_effects`, `XSync.SharedConc.C141_key_partial`, `XSync.SharedConc.C141_panics`, `XSync.SharedConc.C141_ends`, `XSync.SharedConc.C141_returns_partial`, `XSync.SharedConc.C141_clear_refuted`, `XSync.SharedConc.C142_effects`, `XSync.SharedConc.C142_key_partial`, `XSync.SharedConc.C142_panics`, `XSync.SharedConc.C142_ends`, `XSync.SharedConc.C142_returns_partial`, `XWorker.C144_no_crash`, `XWorker.C144_made`, `XWorker.C144_apart`, `XWorker.C144_ends`, `XWorker.C144_exact`, `XWorker.C144_over_partial`, `XWorker.C144_forever`, `XWorker.C144_crowd_refuted`, `XWorker.C145_no_crash`, `XWorker.C145_made`, `XWorker.C145_apart`, `XWorker.C145_joined`, `XWorker.C145_ends`, `XWorker.C145_exact`, `XWorker.C145_over`, `XWorker.C145_cancelled`, `XWorker.C145_forever`, `XWorker.C145_inside`, `XWorker.C145_taken`, `XWorker.C146_crash`, `XWorker.C146_no_crash`, `XWorker.C146_ends`, `XWorker.C146_exact`, `XWorker.C146_over`, `XWorker.C146_cancelled`, `XWorker.C146_inside`, `XWorker.C146_taken`, `XWorker.C146_made`, `XWorker.C146_apart`, `XWorker.C146_joined`, `XWorker.C146_forever`, `XWorker.C146_held`, `XMapReduce.C15_multiset`, `XMapReduce.C15_no_duplicates`, `XMapReduce.C15_writes_succeed`, `XMapReduce.C16_closed_once`, `XMapReduce.C16_all_finished_partial`, `XMapReduce.C17_finite`, `XMapReduce.C17_progress`, `XMapReduce.C17_size_zero`, `XSync.Map.C18_ordinary_map`, `XSync.Map.C19_range`, `XSync.Map.C20_absent`, `XSync.Map.C20_present`, `XSync.MapConc.C21_linearizable`, `XSync.MapConc.C22_lost_update_refuted`, `XSync.MapConc.C22_computeIfPresent_partial`, `XSync.MapConc.C23_range`, `XSync.MapClear.C24_clear_panics_partial`, `XSync.Shared.C25_ordinary_map`, `XSync.Shared.C26_shards`, `XSync.Shared.C26_count`, `XSync.Shared.C27_range`, `XSync.ResMan.C30_create_once`, `XSync.ResMan.C30_removed_by`, `XSync.ResMan.C30_got`, `XSync.ResMan.C30_same`, `XSync.ResMan.C30_error_partial`, `XSync.ResMan.C31_close`, `XSync.ResMan.C32_panic_partial`, `XSync.ResMan.C32_no_deadlock_partial`, `XSync.ResMan.C32_returns_partial`, `XSync.ResManMem.C113_resman_no_deadlock_partial`, `XSync.ResManMem.C113_resman_returns_partial`, `XBytes.C33_malloc`, `XBytes.C33_mallocSize`, `XBytes.C34_live_disjoint`, `XMath.C35_exact_partial`, `XMath.C35_iff`, `XMath.C35_iff_amd64`, `XMath.C35_relative_error_partial`, `XMath.C35_commutative`, `XMath.C35_maxInt_refuted`, `XMath.C36_commutative64`, `XMath.C36_maxFloat32`, `XMath.C36_minFloat32`, `XMath.C36_commutative32`, `XBinary.C37_roundtrip`, `XBinary.C38_roundtrip_partial`, `XBinary.C38_sound`, `XBinary.C38_long_refuted`, `XBinary.C39_sequences`, `XBinary.C40_truncated_partial`, `XBinary.C40_bytes`, `XIO.C41_reader_partial`, `XIO.C41_read`, `XIO.C42_writer`, `XIO.C42_flush`, `XStream.C43_order_preserving`, `XStream.C43_nodes`, `XStream.C43_pipeline`, `XStream.C44_close_once`, `XStream.C45_no_deadlock`, `XStream.C46_distinct`, `XStream.C47_split`, `XStream.C47_chunks`, `XStream.C48_sort`, `XStream.C49_walk`, `XStream.C50_in_order`, `XStream.C51_concat`, `XStream.C51_concat_program`, `XStream.C52_copy`, `XStream.C53_group`, `XStream.C53_group_by`, `XStream.C53_map_again`, `XStream.C54_terminals`, `XString.C55_sub`, `XString.C55_sub_get`, `XString.C55_left_right`, `XString.C55_sub_valid`, `XString.C56_padLeft`, `XString.C56_padRight`, `XString.C56_padCenter`, `XString.C56_width`, `XString.C56_space`, `XString.C57_reverse_exact`, `XString.C57_reverse_partial`, `XString.C57_invalid_reported`, `XString.C58_is_rotation`, `XString.C58_rotate_single_byte_partial`, `XString.C58_rotate_small_shift_partial`, `XString.C58_exact`, `XString.C59_removeChar`, `XString.C59_deleteWhitespace_ascii_partial`, `XString.C59_exact`, `XString.C59_deleteWhitespace_refuted`, `XString.C60_commonPrefix_partial`, `XString.C60_capped`, `XString.C60_huge_refuted`, `XString.C61_indexOfDifference_partial`, `XString.C61_exact`, `XString.C61_indexOfDifferenceTwo`, `XString.C61_difference`, `XString.C61_huge_refuted`, `XString.C62_regionMatches`, `XString.C62_containsIgnoreCase`, `XString.C63_equalsIgnoreCase_exact`, `XString.C63_equalsIgnoreCase_partial`, `XString.C63_equalsIgnoreCase_refuted`, `XString.C64_endsWith`, `XString.C64_endsWithCase`, `XString.C64_endsWithCase_valid`, `XString.C64_endsWithAny`, `XString.C65_error`, `XString.C65_width_partial`, `XString.C65_near_end`, `XString.C65_width_exact`, `XString.abbreviate_total`, `XString.Joiner.C67_len_cap`, `XString.C68_shuffle_perm`, `XString.C72_roundtrip`, `XString.C72_decode_total`, `XString.C72_encoder_agrees_with_core`, `XString.C73_trim`, `XIO.C75_exact`, `XBarrier.C76_ends`, `XBarrier.C76_exact`, `XTask.C77_ends`, `XMapReduce.C79_generator_partial`, `XMapReduce.C79_left`, `XMapReduce.C80_cancel_closes`, `XSync.ResMan.C81_stale_partial`, `XSync.ResMan.C81_remBy`, `XSync.Shared.C82_accepted_refuted`, `XSync.Shared.C82_accepted_partial`, `XSync.Shared.C82_exact`, `XStream.C84_independent_refuted`, `XStream.C84_ahead`, `XStream.C84_exact`, `XStream.C84_example`, `XSync.MapConc.C85_no_panic`, `XSync.MapConc.C85_no_deadlock`, `XSync.MapConc.C86_calls_partial`, `XSync.SharedConc.C87_linearizable`, `XSync.SharedConc.C88_effects`, `XSync.SharedConc.C88_mstore_visible`, `XSync.SharedConc.C88_range_stops`, `XSync.SharedConc.C89_no_panic`, `XSync.SharedConc.C89_no_deadlock`, `XStream.C90_run_ahead`, `XStream.C90_no_wait`, `XSync.MapConc.C91_unlocked_partial`, `XSync.MapConc.C91_range_partial`, `XSync.MapConc.C91_computeIfAbsent_refuted`, `XSync.MapConc.C91_computeIfPresent_refuted`, `XSync.MapMem.C92_no_race`, `XSync.MapMem.C92_no_deadlock`, `XSync.MapMem.C92_refines`, `XSync.MapMem.C92_linearizable`, `XSync.MapMem.C92_no_panic`, `XSync.MapMem.C92_computeIfPresent`, `XSync.MapMem.C92_range`, `XSync.MapMem.C92_lost_update_refuted`, `XBinary.C93_bytes_partial`, `XBinary.C93_eof_refuted`, `XSync.MapConc.C95_work`, `XSync.MapConc.C95_amortized`, `XSync.MapConc.C95_misses`, `XSync.MapConc.C95_locks`, `XIO.C96_get`, `XIO.C96_session`, `XIO.C97_get`, `XIO.C97_write`, `XIO.C97_flush`, `XIO.C97_session`, `XIO.C98_reader_partial`, `XIO.C98_writer_partial`, `XIO.C98_reader_exact`, `XIO.C98_writer_exact`, `XBytes.C99_private`, `XBytes.C99_no_race`.

