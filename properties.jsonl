{"id": "C01", "title": "Ring.Take returns the most recent values in insertion order", "statement": "For a ring made by NewRing(n) with n >= 1, after any sequence of Add calls, Take returns exactly the last min(n, number of Adds) added values, oldest first, and Take itself changes nothing; NewRing(n) with n < 1 panics.", "quantifier": "every capacity n, every finite sequence of Add calls (shorter than 2^63) and every interleaving of Take calls", "why_tests_cant": "the wrap-around position depends on both n and the unbounded number of Adds; a test samples a few (n, history) pairs", "anchors": ["xring/xring.go: NewRing, Ring.Add, Ring.Take"]}
{"id": "C02", "title": "Ring is atomic under concurrent Add and Take", "statement": "When any number of goroutines call Add and Take on one Ring concurrently, the values stored and every Take result are those of some sequential order of the calls consistent with real time: a Take never sees a half-finished Add, and every call returns whatever the schedule.", "quantifier": "every number of goroutines, every program of Add/Take calls and every interleaving of their individual memory accesses", "why_tests_cant": "schedules are chosen by the runtime; a race test samples a handful of interleavings", "anchors": ["xring/xring.go: Ring.Add, Ring.Take, lock"]}
{"id": "C03", "title": "BatchError keeps exactly the non-nil errors in order", "statement": "After any sequence of Add calls, Err is nil iff every added error was nil; with one non-nil error Err is that very error; with two or more it is a collection of exactly the non-nil errors in Add order whose message is their messages joined by single newlines; NotNil is true iff some non-nil error was added.", "quantifier": "every finite sequence of Add calls with nil and non-nil errors", "why_tests_cant": "sequence length and nil positions are unbounded", "anchors": ["xerror/err.go: BatchError.Add, Err, NotNil, errorArray.Error"]}
{"id": "C04", "title": "DoWithRetry stops at the first success and never over-runs", "statement": "DoWithRetry(fn, WithRetry(times)) calls fn exactly k times where k is the index of the first success (1-based) if it is at most times+1 and times+1 otherwise (0 if times < 0); the last option given wins and the default is 3 retries.", "quantifier": "every retry count (including negative) and every infinite sequence of fn outcomes", "why_tests_cant": "the outcome sequence and the retry count are unbounded", "anchors": ["xtask/retry.go: DoWithRetry, WithRetry, newRetryOptions"]}
{"id": "C05", "title": "DoWithRetry reports nil exactly on success and otherwise every failure", "statement": "Whenever it returns (see C04 for times = MaxInt64), DoWithRetry with times >= 0 returns nil iff one of the first times+1 attempts succeeded; otherwise it returns all the attempts' errors in attempt order (the single error itself when only one attempt is made).", "quantifier": "every retry count and every sequence of fn outcomes", "why_tests_cant": "unbounded outcome sequences", "anchors": ["xtask/retry.go: DoWithRetry", "xerror/err.go: BatchError"]}
{"id": "C06", "title": "Do runs deferFunc exactly once on every way out", "statement": "In every execution of Do in which Do returns or panics, the non-nil deferFunc has been run exactly once, and it is never run before the decision to leave; a nil deferFunc is never called.", "quantifier": "every behaviour of do (return, panic, never returning), every moment of context cancellation, every select choice and schedule", "why_tests_cant": "the select choice and the goroutine schedule are nondeterministic", "anchors": ["xtask/do.go: Do, DoWithTimeout, DoWithoutDefer"]}
{"id": "C07", "title": "Do's result is do's own result or the context's error, never invented", "statement": "If Do returns normally, the returned error is either exactly what do returned, or ctx.Err() and then the context was done; if Do panics then do panicked and Do's panic text is made from that value; if the context was done on entry do is never started; if the context is never done Do returns exactly do's result or propagates its panic.", "quantifier": "every behaviour of do, every cancellation moment, every schedule", "why_tests_cant": "nondeterministic select and schedule", "anchors": ["xtask/do.go: Do"]}
{"id": "C08", "title": "Do never leaks a blocked goroutine", "statement": "The goroutine Do starts never blocks on delivering its result: in every reachable state, once do has returned or panicked, the goroutine can take its next step until it ends, even if the caller has already left because of cancellation.", "quantifier": "every schedule and cancellation moment", "why_tests_cant": "leaks appear only in particular interleavings", "anchors": ["xtask/do.go: Do, doneChan, panicChan"]}
{"id": "C09", "title": "once.Chan accepts exactly one write and delivers exactly that value once", "statement": "Among any number of concurrent Write calls on one Chan at most one returns true, and if all calls finish and there was at least one, exactly one does; no Write ever blocks or panics; receivers on the channel obtain the winner's value exactly once and after that see the channel closed.", "quantifier": "every number of writers and receivers and every interleaving of their atomic steps", "why_tests_cant": "winner selection is schedule dependent", "anchors": ["xonce/chan.go: NewChan, Chan.Write, Chan.Chan"]}
{"id": "C10", "title": "once.Value is written at most once and never changes afterwards", "statement": "For non-nil values of one dynamic type, among any sequence of concurrent Write calls the first one to take effect returns true and all others return false; Value returns nil before it and the winner's value forever after.", "quantifier": "every sequence of atomic Write/Value operations by any number of goroutines", "why_tests_cant": "unbounded histories and schedules", "anchors": ["xonce/value.go: Value.Write, Value.Value"]}
{"id": "C11", "title": "WriteBarrier sends exactly once on success and never on refusal", "statement": "Write returns true only after exactly one send of v on the channel, and returns false only without any send; a Write that starts after the context is done returns false; a Write whose context is never done never returns false.", "quantifier": "every channel capacity and content, every cancellation moment, every schedule of writers and receivers", "why_tests_cant": "the race between cancellation and the blocking send is schedule dependent", "anchors": ["xbarrier/writebarrier.go: WriteBarrier.Write"]}
{"id": "C12", "title": "ReadBarrier consumes exactly one element on success and none on refusal", "statement": "Read returning (v, true) consumed exactly one element v from the front of the channel (or the channel was closed and drained and v is nil); returning false consumed nothing and the context was done; a Read that starts after the context is done returns false.", "quantifier": "every channel content, every cancellation moment, every schedule", "why_tests_cant": "schedule dependent", "anchors": ["xbarrier/readbarrier.go: ReadBarrier.Read"]}
{"id": "C13", "title": "Worker never runs more than size functions at once", "statement": "For a Worker made with NewWorker(size), at every moment the number of run functions currently executing is at most size.", "quantifier": "every size, every number of Run calls, every behaviour of the run functions, every cancellation moment, every schedule", "why_tests_cant": "concurrency peaks depend on the schedule", "anchors": ["xworker/xworker.go: NewWorker, Worker.Run", "xtask/do.go: Do"]}
{"id": "C14", "title": "Worker slots are conserved and every deferFunc runs exactly once", "statement": "The number of occupied slots equals the number of accepted Run calls whose goroutine has not ended (it gives the slot back after deferFunc), so it never exceeds size and returns to zero when all are done; the deferFunc of an accepted Run runs at most once, and exactly once when its goroutine has ended; with a context done beforehand run is never called but deferFunc still is.", "quantifier": "every size, number of Run calls, cancellation moment and schedule", "why_tests_cant": "slot leaks only show in particular interleavings", "anchors": ["xworker/xworker.go: Worker.Run", "xtask/do.go: Do"]}
{"id": "C15", "title": "xmapreduce.Map delivers exactly the mapped elements when not cancelled", "statement": "If the context is never done, then when the returned channel has been closed and drained, the values received are, as a multiset, exactly all the values mapFunc wrote for all generated items, none lost or duplicated; every Write by mapFunc reports true.", "quantifier": "every item list, every mapFunc output list per item, every worker size >= 1, every schedule", "why_tests_cant": "schedule and sizes are unbounded", "anchors": ["xmapreduce/xmapreduce.go: Map, doMap, buildSource", "xworker/xworker.go: Run", "xbarrier/writebarrier.go: Write"]}
{"id": "C16", "title": "xmapreduce.Map closes its output exactly once and never sends after close", "statement": "The output channel is closed at most once, only after every mapping started has finished, and while the context is never done no send happens after the close.", "quantifier": "every item list, worker size, schedule and cancellation moment", "why_tests_cant": "send-after-close panics need a particular interleaving", "anchors": ["xmapreduce/xmapreduce.go: doMap"]}
{"id": "C17", "title": "xmapreduce.Map terminates when not cancelled", "statement": "If the context is never done, worker size >= 1 and the consumer keeps receiving, no reachable state is stuck before the output is closed, and every execution is finite.", "quantifier": "every item list, worker size >= 1 and schedule", "why_tests_cant": "deadlocks appear only in particular schedules", "anchors": ["xmapreduce/xmapreduce.go: Map, doMap"]}
{"id": "C18", "title": "xsync.Map behaves as an ordinary map in every sequential history", "statement": "Any sequence of Load, Store, LoadOrStore, LoadAndDelete, Delete, ComputeIfAbsent, ComputeIfPresent, Clear and Range calls from one goroutine returns exactly what the same calls on an ordinary key-value map return.", "quantifier": "every finite sequence of operations over any key and value types", "why_tests_cant": "the internal promote/expunge bookkeeping depends on the whole history", "anchors": ["xsync/map.go: Map.Load, Store, LoadOrStore, LoadAndDelete, Delete, ComputeIfAbsent, ComputeIfPresent, Clear, Range, missLocked, dirtyLocked"]}
{"id": "C19", "title": "xsync.Map.Range visits each present key once with its current value", "statement": "In a sequential history Range calls f exactly once for each key present, with its current value and in some order, stops right after the first call for which f returns false, and leaves the contents unchanged.", "quantifier": "every history before the Range, every map iteration order and every f", "why_tests_cant": "iteration order and history are unbounded", "anchors": ["xsync/map.go: Map.Range"]}
{"id": "C20", "title": "Compute functions are called only when needed and with the current value", "statement": "In a sequential history ComputeIfAbsent calls its function exactly once if the key is absent and not at all otherwise; ComputeIfPresent calls its function exactly once with the current value if the key is present and not at all otherwise.", "quantifier": "every history, key and function", "why_tests_cant": "depends on internal state reached by arbitrary histories", "anchors": ["xsync/map.go: ComputeIfAbsent, ComputeIfPresent, tryComputeIfAbsent, tryComputeIfPresent"]}
{"id": "C21", "title": "xsync.Map is linearizable", "statement": "Every concurrent history of Load, Store, LoadOrStore, LoadAndDelete/Delete and ComputeIfAbsent calls on one Map is linearizable with respect to an ordinary map: each call appears to take effect atomically at one instant between its invocation and its response.", "quantifier": "every number of goroutines, every program and every interleaving of individual atomic memory operations", "why_tests_cant": "the number of interleavings is unbounded and failures need rare schedules (expunged entries, promotion races)", "anchors": ["xsync/map.go: all of Map, entry"]}
{"id": "C22", "title": "Concurrent ComputeIfPresent applies its function to the value it replaces", "statement": "When ComputeIfPresent reports success, the value it stored is the function applied to the value it replaced, atomically, so concurrent increments are never lost.", "quantifier": "every schedule of concurrent operations on the same key", "why_tests_cant": "a lost update needs a store between the function call and the compare-and-swap", "anchors": ["xsync/map.go: ComputeIfPresent, tryComputeIfPresent"]}
{"id": "C23", "title": "Concurrent Range is sane", "statement": "A Range running concurrently with other operations visits no key twice, every visited key/value pair was the map's content at some instant during the call, and every key that is present throughout the call is visited (if f never returns false).", "quantifier": "every schedule of concurrent operations", "why_tests_cant": "schedule dependent", "anchors": ["xsync/map.go: Range"]}
{"id": "C24", "title": "Clear is safe to call concurrently", "statement": "Calling Clear concurrently with other Map operations never makes any operation panic.", "quantifier": "every schedule of Clear with other operations", "why_tests_cant": "a torn read of the two-word atomic.Value needs a rare schedule", "anchors": ["xsync/map.go: Clear, Load"]}
{"id": "C25", "title": "SharedMap behaves as one ordinary map whatever the shard count", "statement": "For every accepted shard count, any sequence of Store, MStore, Load, Has, LoadOrStore, Delete, ComputeIfAbsent, ComputeIfPresent, Clear and Range calls on a SharedMap returns exactly what the same calls on an ordinary string-keyed map return.", "quantifier": "every shard count option, every key string, every finite operation sequence", "why_tests_cant": "hash placement of arbitrary keys and unbounded histories", "anchors": ["xsync/shared_map.go: NewSharedMap, GetShard, Store, MStore, Load, Has, LoadOrStore, Delete, Clear, Range, ComputeIfAbsent, ComputeIfPresent"]}
{"id": "C26", "title": "Shard count is the least power of two not below the request and every key has a shard", "statement": "For every requested count 1 <= n <= 2^31 NewSharedMap allocates exactly the smallest power of two >= n shards, and the shard index computed for any key is within range; a request of 0 panics at construction.", "quantifier": "all 2^32 requested counts and all key strings", "why_tests_cant": "2^32 x infinitely many keys", "anchors": ["xsync/shared_map.go: getShardBlockSize, NewSharedMap, GetShard, fnv32"]}
{"id": "C27", "title": "SharedMap.Range visits each key exactly once across shards and stops when told", "statement": "Range calls fn once per present key with its current value, and never calls fn again after it returned false, also across shard boundaries.", "quantifier": "every content, shard count, iteration order and fn", "why_tests_cant": "unbounded contents and orders", "anchors": ["xsync/shared_map.go: SharedMap.Range"]}
{"id": "C28", "title": "Spinlock provides mutual exclusion", "statement": "If goroutines call Unlock only while they hold the lock, then in every schedule at most one goroutine is between a successful Lock/TryLock and its Unlock.", "quantifier": "every number of goroutines and every interleaving of atomic operations", "why_tests_cant": "schedule dependent", "anchors": ["xsync/spinlock.go: Lock, TryLock, Unlock"]}
{"id": "C29", "title": "Spinlock TryLock is exact and Lock makes progress with bounded backoff", "statement": "TryLock succeeds iff nobody holds the lock at that instant; a goroutine spinning in Lock acquires at its next attempt made while the lock is free, and after its n-th failed attempt it yields min(2^(n-1), 16) times.", "quantifier": "every schedule and any number of failed attempts", "why_tests_cant": "the number of failed attempts is unbounded", "anchors": ["xsync/spinlock.go: Lock, TryLock, maxBackoff"]}
{"id": "C30", "title": "ResourceManager creates a resource at most once per key while it is held", "statement": "Between two Removes of a key, at most one create call for this key succeeds no matter how many goroutines call Get(key) concurrently, and all Gets that return without error return that same resource; a failed create is not remembered.", "quantifier": "every number of goroutines, keys, create outcomes and schedules (without Close)", "why_tests_cant": "schedule dependent", "anchors": ["xsync/resourcemanager.go: Get, Remove"]}
{"id": "C31", "title": "ResourceManager.Close closes every held resource exactly once and reports every failure", "statement": "In a sequential history Close calls Close exactly once on each resource currently held (not on removed ones) and returns nil iff all succeeded, otherwise exactly the errors.", "quantifier": "every history of Get/Remove before Close, every close outcome, every iteration order", "why_tests_cant": "unbounded histories", "anchors": ["xsync/resourcemanager.go: Close", "xerror/err.go: BatchError"]}
{"id": "C32", "title": "ResourceManager is safe after Close", "statement": "After Close, Get of any key returns (a resource or an error) without panicking or dead-locking later calls.", "quantifier": "every history", "why_tests_cant": "needs a Get with a successful create after Close", "anchors": ["xsync/resourcemanager.go: Close, Get"]}
{"id": "C33", "title": "Malloc returns a buffer of the requested length and capacity", "statement": "For 0 <= size, Malloc(size, capacity) returns a slice of length exactly size and capacity exactly max(size, capacity), whatever was freed before, even slices that did not come from Malloc; for negative size it panics.", "quantifier": "every size and capacity and every history of Malloc/Free and pool evictions", "why_tests_cant": "depends on the pooled history and the garbage collector", "anchors": ["xbytes/pool.go: Malloc, MallocSize, Free, getOrCreatePool"]}
{"id": "C34", "title": "Live buffers never overlap", "statement": "If each buffer is freed at most once, by its owner, and not used afterwards, then two buffers that are live at the same time never share memory.", "quantifier": "every history of Malloc/Free calls, every pool choice and eviction", "why_tests_cant": "depends on history and on which pooled buffer is reused", "anchors": ["xbytes/pool.go: Malloc, Free"]}
{"id": "C35", "title": "MaxInt/MinInt/MaxInt64/MinInt64 return the true maximum/minimum", "statement": "MaxInt(a,b), MinInt(a,b), MaxInt64(a,b) and MinInt64(a,b) return the mathematical maximum/minimum of a and b.", "quantifier": "all pairs of 64-bit integers", "why_tests_cant": "2^128 pairs; rounding errors only beyond 2^53", "anchors": ["xmath/xmath.go: MaxInt, MinInt, MaxInt64, MinInt64"]}
{"id": "C36", "title": "Float max/min follow IEEE order with NaN and signed-zero rules", "statement": "MaxFloat64/MinFloat64 return the larger/smaller argument for ordinary numbers, NaN if an argument is NaN (unless the other is +Inf for max, -Inf for min), and prefer +0 over -0 for max and -0 for min; they are commutative; MaxFloat32/MinFloat32 do the same without precision loss.", "quantifier": "all pairs of floats including NaN, infinities and signed zeros", "why_tests_cant": "2^128 pairs", "anchors": ["xmath/xmath.go: MaxFloat64, MinFloat64, MaxFloat32, MinFloat32"]}
{"id": "C37", "title": "Integers and booleans survive a write/read round trip", "statement": "Writing any uint16, uint32 or bool and reading it back with the matching function gives the same value and consumes exactly the bytes written (big-endian: 2, 4 and 1 bytes).", "quantifier": "all values and any data following in the stream", "why_tests_cant": "2^32 values times arbitrary suffixes", "anchors": ["xbinary/xbinary.go: WriteUint16, ReadUint16, WriteUint32, ReadUint32, WriteBool, ReadBool"]}
{"id": "C38", "title": "Byte strings survive a WriteBytes/ReadBytes round trip", "statement": "Every byte slice written with WriteBytes is read back identical by ReadBytes, leaving the rest of the stream untouched.", "quantifier": "all byte slices and stream suffixes", "why_tests_cant": "unbounded length; the 16-bit length prefix overflows at 65536", "anchors": ["xbinary/xbinary.go: WriteBytes, ReadBytes"]}
{"id": "C39", "title": "Mixed sequences of typed values are framed unambiguously", "statement": "Any sequence of typed values written one after the other to a buffer is read back as the same sequence by the matching sequence of reads.", "quantifier": "every finite sequence of typed values", "why_tests_cant": "unbounded sequences", "anchors": ["xbinary/xbinary.go: all Write*/Read* functions"]}
{"id": "C40", "title": "Truncated input is reported as an error, never as a value", "statement": "Reading from a stream that holds only a proper prefix of a written value returns an error, not a value, for readers that deliver data in any chunking.", "quantifier": "every value, every proper prefix, every chunking of the reader", "why_tests_cant": "unbounded prefixes and chunkings", "anchors": ["xbinary/xbinary.go: ReadUint16, ReadUint32, ReadBool, ReadBytes"]}
{"id": "C41", "title": "A pooled reader only yields its own source's bytes", "statement": "A reader obtained from GetBufferReader/GetBufferReaderSize yields exactly the bytes of the given source in order, never bytes buffered for an earlier user of the pool.", "quantifier": "every history of Get/read/Put calls and pool choices", "why_tests_cant": "depends on reuse history", "anchors": ["xio/buffer.go: GetBufferReader, GetBufferReaderSize, PutBufferReader"]}
{"id": "C42", "title": "A pooled writer only emits its own user's bytes", "statement": "After Flush, the destination given to GetBufferWriter/GetBufferWriterSize has received exactly the bytes written through this writer since it was obtained; unflushed bytes of earlier users are discarded by Put and reach nobody.", "quantifier": "every history of Get/write/flush/Put calls and pool choices", "why_tests_cant": "depends on reuse history", "anchors": ["xio/buffer.go: GetBufferWriter, GetBufferWriterSize, PutBufferWriter"]}
{"id": "C43", "title": "Order-preserving stream stages compute the list function they name under every schedule", "statement": "For Of, From, Buffer, Distinct, Skip, Limit, Tail, Split, Merge, Peek and Reverse the sequence of elements received downstream is exactly the corresponding list operation of the upstream sequence: identity, first occurrence per key, drop n, take n, last n, consecutive chunks of n, one slice, identity, reverse.", "quantifier": "every upstream sequence of fewer than 2^63 elements, parameter, channel capacity and schedule of the goroutines involved", "why_tests_cant": "unbounded input and nondeterministic scheduling", "anchors": ["xstream/xstream.go: Of, From, Buffer, Distinct, Skip, Limit, Tail, Split, Merge, Peek, Reverse", "xstream/ring.go"]}
{"id": "C44", "title": "Each stage closes its output exactly once, after its last element", "statement": "No stage goroutine ever sends on or closes an already closed channel, and the output channel is closed when and only when all elements have been delivered to it.", "quantifier": "every input of fewer than 2^63 elements per channel, parameter and schedule; any network of streams", "why_tests_cant": "double close (for instance in Limit's counting) depends on input length and parameter", "anchors": ["xstream/xstream.go: Limit and all stages"]}
{"id": "C45", "title": "Stages never deadlock while input keeps coming and output is consumed", "statement": "As long as the upstream delivers and the downstream receives, a stage always has an enabled step until it has closed its output and finished; every execution is finite.", "quantifier": "every input of fewer than 2^63 elements per channel, parameter, capacity and schedule; any network of streams", "why_tests_cant": "deadlock is schedule dependent", "anchors": ["xstream/xstream.go: stages"]}
{"id": "C46", "title": "Distinct keeps exactly the first element of each key", "statement": "Distinct(f) outputs a subsequence of its input with pairwise different keys, containing the first element for every key that occurs.", "quantifier": "every input sequence and key function", "why_tests_cant": "unbounded input", "anchors": ["xstream/xstream.go: Distinct"]}
{"id": "C47", "title": "Split and SplitSteam partition the stream into chunks of n", "statement": "For n >= 1 concatenating the chunks gives the input, every chunk but the last has exactly n elements and the last between 1 and n; for n < 1 they panic.", "quantifier": "every input sequence and n", "why_tests_cant": "unbounded input", "anchors": ["xstream/xstream.go: Split, SplitSteam"]}
{"id": "C48", "title": "Sort yields an ordered permutation", "statement": "Sort(less) outputs a permutation of its input in which no element is less than its predecessor, when less is a strict weak order.", "quantifier": "every input and strict weak order", "why_tests_cant": "unbounded input", "anchors": ["xstream/xstream.go: Sort"]}
{"id": "C49", "title": "Walk processes every element exactly once with at most workSize in flight", "statement": "Walk (and Map, Filter, FlatMap, ParallelFinish built on it) delivers exactly the multiset of values produced by its function over all input elements, closes the output once after all workers finished, and never has more than workSize functions running.", "quantifier": "every input, function outputs, workSize and schedule", "why_tests_cant": "schedule dependent", "anchors": ["xstream/xstream.go: Walk, Map, Filter, FlatMap, ParallelFinish", "xstream/option.go"]}
{"id": "C50", "title": "With the default single worker Walk preserves order", "statement": "With workSize 1 (the default) the output of Map, Filter, FlatMap and Walk is the in-order concatenation of the per-element outputs under every schedule.", "quantifier": "every input, function and schedule", "why_tests_cant": "schedule dependent", "anchors": ["xstream/xstream.go: Walk, Map, Filter, FlatMap", "xstream/option.go: loadOptions"]}
{"id": "C51", "title": "Concat delivers an interleaving of all its inputs", "statement": "Concat delivers exactly all elements of all streams, keeping each stream's own order, and closes once after the last.", "quantifier": "every number of streams, contents and schedule", "why_tests_cant": "schedule dependent", "anchors": ["xstream/xstream.go: Concat"]}
{"id": "C52", "title": "Copy gives every copy the whole stream", "statement": "Every stream returned by Copy yields exactly the source sequence in order when all copies are consumed, whatever their buffer sizes.", "quantifier": "every source, set of copies, buffer sizes and schedule", "why_tests_cant": "schedule dependent", "anchors": ["xstream/xstream.go: Copy"]}
{"id": "C53", "title": "Group and GroupBy partition the stream by key", "statement": "Every element lands in exactly one group, the group of its key, in stream order; groups are non-empty and there is one per occurring key; calling Group.Map again returns the same groups (the same map, see C127).", "quantifier": "every input, key function and map iteration order", "why_tests_cant": "unbounded input", "anchors": ["xstream/xstream.go: Group", "xstream/collection.go: GroupBy, Group.Map"]}
{"id": "C54", "title": "Terminal operations agree with the list", "statement": "Count, Foreach, ForeachOrdered, AnyMach, AllMach, FindFirst, FindLast return/visit what the corresponding list operation does, AnyMach/AllMach evaluate the predicate only up to the deciding element, and FindFirst/FindLast report ErrNoElement iff the stream is empty.", "quantifier": "every input and predicate", "why_tests_cant": "unbounded input", "anchors": ["xstream/xstream.go: Count, Foreach, ForeachOrdered, AnyMach, AllMach, FindFirst, FindLast"]}
{"id": "C55", "title": "Sub/Left/Right select exactly the requested characters", "statement": "For every string and every pair of ints, Sub(s, start, end) never panics and its characters are those of s at the positions from start to end, negative positions counting from the end and out-of-range ones clamped; an empty result when start is past end.", "quantifier": "every byte string (valid UTF-8 or not), all ints start and end", "why_tests_cant": "unbounded strings, 2^128 index pairs", "anchors": ["xstring/xstring.go: Sub, Left, Right, sub, Len"]}
{"id": "C56", "title": "Padding reaches exactly the requested width and keeps the text", "statement": "PadLeft/PadRight/PadCenter return a string of max(size, Len(s)) characters consisting of s with only pad characters added on the stated side(s); centre padding puts floor(half) on the left; s is unchanged when already wide enough.", "quantifier": "every string, size and pad character", "why_tests_cant": "unbounded", "anchors": ["xstring/xstring.go: PadLeftChar, PadRightChar, PadCenterChar, padCharLeftOrRight, RepeatChar"]}
{"id": "C57", "title": "Reverse reverses the characters and is its own inverse", "statement": "For every valid UTF-8 string Reverse succeeds, its characters are those of s reversed, and reversing twice gives s back; for invalid UTF-8 it reports an error.", "quantifier": "every byte string", "why_tests_cant": "unbounded strings over all code points", "anchors": ["xstring/xstring.go: Reverse, MustReverse"]}
{"id": "C58", "title": "Rotate is a circular shift by the given number of characters", "statement": "Rotate(s, n) moves the last n mod Len(s) characters to the front (negative n rotates the other way); no character is lost.", "quantifier": "every string and int shift", "why_tests_cant": "unbounded; byte/character length confusion only shows for multi-byte text", "anchors": ["xstring/xstring.go: Rotate"]}
{"id": "C59", "title": "RemoveChar and DeleteWhitespace remove exactly the unwanted characters", "statement": "RemoveChar(s, c) yields the characters of s other than c in order; DeleteWhitespace(s) yields the non-space characters of s in order.", "quantifier": "every string", "why_tests_cant": "unbounded; coincidences of byte and character counts", "anchors": ["xstring/xstring.go: RemoveChar, DeleteWhitespace"]}
{"id": "C60", "title": "CommonPrefix returns the longest common prefix", "statement": "For valid UTF-8 strings CommonPrefix returns a prefix of every argument and every common prefix of all arguments made of whole characters is a prefix of it.", "quantifier": "every list of valid strings", "why_tests_cant": "unbounded", "anchors": ["xstring/xstring.go: CommonPrefix, IndexOfDifference", "xmath/xmath.go: MinInt, MaxInt"]}
{"id": "C61", "title": "IndexOfDifference finds the first differing position", "statement": "IndexOfDifference / IndexOfDifferenceWithTwoStr return -1 iff the strings have the same characters, otherwise the least position at which they differ (one having ended counts as differing); Difference returns the rest of the second string from there.", "quantifier": "every list of strings", "why_tests_cant": "unbounded", "anchors": ["xstring/xstring.go: IndexOfDifference, IndexOfDifferenceWithTwoStr, Difference"]}
{"id": "C62", "title": "RegionMatches and ContainsIgnoreCase never panic and decide case-insensitive matching", "statement": "RegionMatches returns true iff both regions lie within the strings and agree character by character (up to case when asked); ContainsIgnoreCase(s, t) is true iff some region of s matches t; neither panics for any int arguments.", "quantifier": "every string, int offsets and lengths", "why_tests_cant": "unbounded", "anchors": ["xstring/xstring.go: RegionMatches, ContainsIgnoreCase"]}
{"id": "C63", "title": "EqualsIgnoreCase is equality up to case", "statement": "EqualsIgnoreCase(a, b) is true iff a and b have the same length and agree character by character up to case; in particular it is symmetric.", "quantifier": "every pair of strings", "why_tests_cant": "unbounded", "anchors": ["xstring/xstring.go: EqualsIgnoreCase"]}
{"id": "C64", "title": "EndsWith decides suffixes", "statement": "EndsWith(s, t, false) is true iff t's characters are a suffix of s's; EndsWithAny is true iff some candidate is a suffix (for non-empty s).", "quantifier": "every pair of strings", "why_tests_cant": "unbounded", "anchors": ["xstring/xstring.go: EndsWith, EndsWithCase, EndsWithIgnoreCase, EndsWithAny"]}
{"id": "C65", "title": "Abbreviate never exceeds maxWidth", "statement": "Whenever Abbreviate(s, marker, offset, maxWidth) succeeds and had to shorten s, the result has at most maxWidth characters; it returns s itself when it already fits; it fails only if the width is too small for the marker, and the error names the width bound that was missed.", "quantifier": "every string, marker and ints", "why_tests_cant": "unbounded", "anchors": ["xstring/xstring.go: Abbreviate"]}
{"id": "C66", "title": "Joiner yields prefix + items joined by step + suffix", "statement": "After any sequence of writes the String of a Joiner is prefix, the written items separated by exactly one step, suffix; Grow does not change the contents and Reset starts over.", "quantifier": "every sequence of Write/WriteString/WriteByte/WriteRune/Grow/Reset calls and options", "why_tests_cant": "unbounded histories", "anchors": ["xstring/stringjoiner.go: Joiner"]}
{"id": "C67", "title": "Joiner.Len is the length of String", "statement": "At every moment Len equals the number of bytes of String, and Cap is at least Len.", "quantifier": "every history of Joiner calls", "why_tests_cant": "unbounded histories", "anchors": ["xstring/stringjoiner.go: Joiner.Len, Cap, String"]}
{"id": "C68", "title": "Shuffle only permutes characters", "statement": "Whatever the random generator returns, Shuffle(s) consists of exactly the characters of s, each as often as before.", "quantifier": "every string and every sequence of in-range random numbers", "why_tests_cant": "random", "anchors": ["xstring/xstring.go: Shuffle"]}
{"id": "C69", "title": "Character-class predicates quantify over all characters", "statement": "IsAlpha, IsNumeric, IsAlphanumeric are true iff the string is non-empty and all its characters are in the class; IsBlank iff all characters are spaces; the Any/None variants quantify over their arguments and are each other's negation.", "quantifier": "every string and list of strings", "why_tests_cant": "unbounded", "anchors": ["xstring/xstring.go: IsAlpha, IsNumeric, IsAlphanumeric, IsBlank, IsAnyBlank, IsNoneBlank, IsEmpty, IsAnyEmpty, IsNoneEmpty, DefaultIfBlank, DefaultIfEmpty"]}
{"id": "C70", "title": "IsNumerical accepts exactly decimal numerals", "statement": "IsNumerical(s) is true iff s is one or more digits optionally followed by a decimal point and digits.", "quantifier": "every string", "why_tests_cant": "unbounded; the regexp's unescaped dot matches any character", "anchors": ["xstring/xstring.go: IsNumerical"]}
{"id": "C71", "title": "RemoveString removes every occurrence", "statement": "RemoveString(s, t) deletes all non-overlapping occurrences of t found from left to right and keeps everything else; s is unchanged iff t is empty or does not occur.", "quantifier": "every pair of strings", "why_tests_cant": "unbounded", "anchors": ["xstring/xstring.go: RemoveString, Contains, ContainsAnySubstrings, Index"]}
{"id": "C72", "title": "UTF-8 decoding and encoding are inverse on valid text", "statement": "For every valid UTF-8 string converting to characters and back gives the same bytes, Len is the number of characters, and every list of valid characters survives encode/decode.", "quantifier": "every valid string", "why_tests_cant": "unbounded over 1.1 million code points", "anchors": ["xstring/xstring.go: Len, Sub, Reverse, Difference (all rune loops)"]}
{"id": "C73", "title": "Trim functions strip exactly the cutset from the ends", "statement": "Trim/TrimLeft/TrimRight/TrimSpace return s without its longest prefix/suffix of characters in the cutset (white space for TrimSpace); the result neither starts nor ends with a cutset character.", "quantifier": "every valid string and cutset", "why_tests_cant": "unbounded", "anchors": ["xstring/xstring.go: Trim, TrimLeft, TrimRight, TrimSpace"]}
{"id": "C74", "title": "Write errors are reported and stop the write", "statement": "Every Write* function of xbinary returns nil iff the underlying writer accepted every call; on an error it returns the writer's first error and makes no further calls; on nil exactly the encoding has been written.", "quantifier": "every value and every failure pattern of the writer", "why_tests_cant": "unbounded values and failure patterns", "anchors": ["xbinary/xbinary.go: WriteUint16, WriteUint32, WriteBool, WriteBytes"]}
{"id": "C75", "title": "A sized pooled reader has a buffer of at least the requested size", "statement": "GetBufferReaderSize(r, n) returns a reader whose buffer has at least n (and at least 16) bytes, so Peek(n) can succeed.", "quantifier": "every size and every history of the pool", "why_tests_cant": "depends on the pooled history", "anchors": ["xio/buffer.go: GetBufferReaderSize"]}
{"id": "C76", "title": "A barrier call that is blocked on its channel is released by cancellation", "statement": "If the context becomes done while WriteBarrier.Write waits for room (or a receiver) or ReadBarrier.Read waits for a value, the call returns instead of waiting for the channel.", "quantifier": "every channel capacity and content, every moment of cancellation, every schedule", "why_tests_cant": "a blocked goroutine is only observable in particular schedules", "anchors": ["xbarrier/writebarrier.go: WriteBarrier.Write", "xbarrier/readbarrier.go: ReadBarrier.Read"]}
{"id": "C77", "title": "Do returns once do has ended", "statement": "Do returns (or panics) once the function do has ended or the context is done; it never waits for something that cannot come any more.", "quantifier": "every way do can end (return, panic, runtime.Goexit), every cancellation moment, every schedule", "why_tests_cant": "a permanent block is not observable by a finite test, and depends on the way do ends", "anchors": ["xtask/do.go: Do"]}
{"id": "C78", "title": "A panic in a function given to a Worker does not end the program", "statement": "When run panics (or deferFunc is nil), the panic stays inside the worker: the program goes on and other functions of the worker are not affected.", "quantifier": "every behaviour of run and deferFunc, every number of calls and schedule", "why_tests_cant": "a crash ends the test process itself; it depends on how panics travel between goroutines", "anchors": ["xworker/xworker.go: Worker.Run", "xtask/do.go: Do"]}
{"id": "C79", "title": "Cancelling Map lets the generator finish", "statement": "After the context given to Map is done, the goroutine executing generateFunc is not kept waiting forever on its source channel.", "quantifier": "every item list, cancellation moment and schedule", "why_tests_cant": "a leaked goroutine is invisible to functional tests and depends on the moment of cancellation", "anchors": ["xmapreduce/xmapreduce.go: buildSource, doMap"]}
{"id": "C80", "title": "A cancelled Map closes its output on its own", "statement": "After the context is done, the output channel gets closed without any further receiving by the consumer, any further step of the generator and any return of a running mapFunc; nothing panics outside a recover.", "quantifier": "every item list, worker size >= 1, cancellation moment and schedule", "why_tests_cant": "liveness over all schedules, including hanging user functions", "anchors": ["xmapreduce/xmapreduce.go: doMap", "xworker/xworker.go: Worker.Run", "xtask/do.go: Do"]}
{"id": "C81", "title": "Get after Remove does not return the removed resource", "statement": "A Get of a key that begins after a Remove of this key has returned does not return the resource which this Remove removed.", "quantifier": "every number of goroutines, keys, create outcomes and schedules", "why_tests_cant": "needs an overlapping older Get at one particular point", "anchors": ["xsync/resourcemanager.go: Get, Remove"]}
{"id": "C82", "title": "Every accepted shard count gives a usable SharedMap", "statement": "If NewSharedMap returns (does not panic) for a given WithShardBlockSize count then every operation on every key succeeds on the returned map.", "quantifier": "every int given to WithShardBlockSize, every key string, every operation sequence", "why_tests_cant": "the bad counts are a range at the far end of the int domain", "anchors": ["xsync/shared_map.go: WithShardBlockSize, NewSharedMap, getShardBlockSize, GetShard"]}
{"id": "C83", "title": "Stream operations reject exactly the bad parameters", "statement": "Building a pipeline panics if and only if it contains Split or SplitSteam with n < 1, or Skip, Limit or Tail with n < 0; no other operation or parameter makes building a pipeline panic.", "quantifier": "every source, chain of operations, parameters and terminal operation", "why_tests_cant": "unbounded parameters and chains", "anchors": ["xstream/xstream.go: Split, SplitSteam, Skip, Limit, Tail, Buffer"]}
{"id": "C84", "title": "The streams returned by Copy can be consumed independently", "statement": "Consuming one of the streams returned by Copy never requires that another of them is consumed.", "quantifier": "every source, set of buffer sizes and schedule", "why_tests_cant": "it fails only when a copy is left unread", "anchors": ["xstream/xstream.go: Copy"]}
{"id": "C85", "title": "Concurrent Map operations neither panic nor dead-lock", "statement": "In every concurrent execution of Load, Store, LoadOrStore, ComputeIfAbsent, ComputeIfPresent, LoadAndDelete, Delete and Range calls on one Map (with user functions that return and do not use the Map), no call panics, and from every reachable point every call that has not returned can still return.", "quantifier": "every number of goroutines, every program and every interleaving of individual atomic memory operations", "why_tests_cant": "an assignment to the nil dirty map or a lock that is never released shows only in rare schedules", "anchors": ["xsync/map.go: all of Map, entry"]}
{"id": "C86", "title": "The function passed to ComputeIfAbsent or ComputeIfPresent is called at most once per call", "statement": "Each call of ComputeIfAbsent or ComputeIfPresent calls its function at most once, and at least once if it reports that the function's value is now in the map.", "quantifier": "every schedule of concurrent operations", "why_tests_cant": "a second call needs an expunge between the first call of the function and the compare-and-swap", "anchors": ["xsync/map.go: ComputeIfAbsent, tryComputeIfAbsent, ComputeIfPresent, tryComputeIfPresent"]}
{"id": "C87", "title": "Concurrent use of a SharedMap is linearizable", "statement": "Every concurrent history of Load, Has, Store, LoadOrStore, ComputeIfAbsent and Delete calls on a SharedMap with 1 to 2^31 requested shards can be ordered, respecting real time, so that each call returns what an ordinary map returns.", "quantifier": "every shard count, every set of keys, every number of goroutines, every program and every interleaving of individual atomic memory operations of all shards", "why_tests_cant": "unbounded schedules, and keys that happen to share or not share a shard", "anchors": ["xsync/shared_map.go: SharedMap", "xsync/map.go: all of Map, entry"]}
{"id": "C88", "title": "MStore and Range of a SharedMap under concurrency", "statement": "A returned MStore has stored each of its pairs exactly once, each by an atomic Store during the call; a Range reports no key twice, only pairs that were in the map at some instant of the call, and (unless stopped by its function) every key that was present during the whole call, whatever shards the keys are in; it stops exactly when its function returns false.", "quantifier": "every shard count, every data map, every number of goroutines, every program and every interleaving", "why_tests_cant": "the shards are visited one after the other while other goroutines change them", "anchors": ["xsync/shared_map.go: MStore, Range, Store, GetShard"]}
{"id": "C89", "title": "Concurrent SharedMap operations neither panic nor dead-lock", "statement": "In every concurrent execution of Load, Has, Store, MStore, LoadOrStore, ComputeIfAbsent, ComputeIfPresent, Delete and Range calls on one SharedMap with 1 to 2^31 requested shards (with user functions that return and do not use the map), no call panics, and from every reachable point every call that has not returned can still return.", "quantifier": "every shard count, every number of goroutines, every program and every interleaving of individual atomic memory operations of all shards", "why_tests_cant": "a shard index out of range, or a lock of one shard kept while waiting for another, shows only for some keys and schedules", "anchors": ["xsync/shared_map.go: all of SharedMap but Clear", "xsync/map.go: all of Map, entry"]}
{"id": "C90", "title": "How far a stream runs ahead of its consumer", "statement": "At every moment a stream has sent at most r values more than its consumer has received, and while it is fewer than r a producer that has a value to send need not wait, where r is n for Buffer(n) (0 for negative n), the number of elements for Of, Reverse and Sort, the work size for Walk, Filter, Map and FlatMap, the requested size for a stream of Copy, the capacity of the channel given to Range, and 0 for all other operations.", "quantifier": "every program of sources, operations, Concat, Copy and terminal operations, and every schedule", "why_tests_cant": "depends on the relative speed of all goroutines", "anchors": ["xstream/xstream.go: Of, From, Range, Buffer, Walk, Copy, and all operations that make a channel"]}
{"id": "C91", "title": "User functions may use the Map they were called by", "statement": "While a Range, ComputeIfAbsent or ComputeIfPresent of Map is inside its user function, every other call on the map - in particular one made by the function itself - can return without the outer call moving. Holds for Range; FALSE for ComputeIfAbsent and ComputeIfPresent, whose function may be called under the lock.", "quantifier": "all keys, values, functions, reachable states and schedules of concurrent calls", "why_tests_cant": "a self-deadlock depends on whether the key is in the read or in the dirty part of the map, i.e. on the history before the call; tests that do not re-enter never see it", "anchors": ["xsync/map.go: Map.Range, Map.ComputeIfAbsent, Map.ComputeIfPresent"]}
{"id": "C92", "title": "Map has no data races", "statement": "No two concurrent calls of Map ever access the same unsynchronised memory (the field that holds the dirty map, the miss counter, or one Go map object) while one of them writes it; so every execution is sequentially consistent by the Go memory model and the runtime never reports concurrent map accesses. Taken one memory access at a time, with Go maps as shared objects, the operations still never panic or deadlock and have the histories described in C21, C22 and C23.", "quantifier": "all keys, values, functions, reachable states and schedules of any number of concurrent calls (Clear excepted, see C24)", "why_tests_cant": "the race detector only sees the schedules that happen; a race needs a promotion between two steps of another call", "anchors": ["xsync/map.go: Map, entry"]}
{"id": "C93", "title": "End of input is io.EOF exactly between values", "statement": "Reading from a memory buffer: if nothing is left every Read function returns io.EOF; if the data ends inside a value the error is another one (ErrInvalidLength inside a number, io.ErrUnexpectedEOF inside the contents of a byte string), so that a reader can tell a complete stream from a truncated one. FALSE for ReadBytes when the data ends directly after the length.", "quantifier": "every value and every proper prefix of its encoding", "why_tests_cant": "unbounded lengths and cut positions", "anchors": ["xbinary/xbinary.go: ReadUint16, ReadUint32, ReadBool, ReadBytes"]}
{"id": "C94", "title": "Errors of the underlying writer are never lost", "statement": "If a Write function of xbinary returns nil, then all bytes of the encoding have been accepted by the writer; otherwise it returns an error that the writer returned during this call, and the bytes accepted are a prefix of the encoding.", "quantifier": "every value, every writer and every pattern of failures", "why_tests_cant": "unbounded failure patterns", "anchors": ["xbinary/xbinary.go: WriteUint16, WriteUint32, WriteBool, WriteBytes"]}
{"id": "C95", "title": "Map works in amortised constant time and reads soon do without the lock", "statement": "The running time of a sequence of Load, Store, LoadOrStore, ComputeIfAbsent, ComputeIfPresent, LoadAndDelete and Delete calls that do not overlap is linear in the number of calls; with overlapping calls and Range it is linear in the number of calls, of lost compare-and-swap races and of entries that Range iterates over. Once no key is added any more, the number of calls that have to consult the locked part of the map is at most the number of keys ever stored, whatever follows; if calls do not overlap, at most that many of the following Load, LoadAndDelete and Delete calls take the lock.", "quantifier": "every history, every schedule, every number of keys and calls", "why_tests_cant": "amortised bounds are about all sequences of calls; a benchmark measures some", "anchors": ["xsync/map.go: Map, missLocked, dirtyLocked, Load, Store, LoadAndDelete"]}
{"id": "C96", "title": "A pooled reader for a *bufio.Reader continues that reader", "statement": "A reader obtained from GetBufferReader or GetBufferReaderSize for a source that is itself a *bufio.Reader, or reads from one, to any depth, delivers exactly the bytes the source has left, in order, first those already buffered; reading through it never panics. Other users of the pool do not interfere.", "quantifier": "every chain of readers, every state of their buffers, every choice of the pool, every sequence of reads and of actions of other users", "why_tests_cant": "unbounded depth, contents and histories", "anchors": ["xio/buffer.go: GetBufferReader, GetBufferReaderSize, PutBufferReader"]}
{"id": "C97", "title": "A pooled writer for a *bufio.Writer appends to it", "statement": "What is written through a writer obtained from GetBufferWriter or GetBufferWriterSize for a destination that is itself a *bufio.Writer, or writes to one, to any depth, is appended to what the destination has accepted; Write reports how many bytes were accepted, exactly these are kept and none is lost or duplicated, also if a write fails; after a successful Flush the destination has accepted everything. Other users of the pool do not interfere.", "quantifier": "every chain of writers, every state of their buffers, every pattern of failures, every choice of the pool, every sequence of writes, flushes and actions of other users", "why_tests_cant": "unbounded depth, contents, failures and histories", "anchors": ["xio/buffer.go: GetBufferWriter, GetBufferWriterSize, PutBufferWriter"]}
{"id": "C98", "title": "Putting a reader or writer back leaves the one it was obtained for intact", "statement": "After PutBufferReader(r) for a reader obtained by GetBufferReader(own), own can be read on and has everything left that was not taken through r. After a Flush and PutBufferWriter(w) for a writer obtained by GetBufferWriter(own), own has accepted everything written through w and can be written to.", "quantifier": "every chain, buffer size and state of the pool", "why_tests_cant": "depends on the state of the pool and on sizes", "anchors": ["xio/buffer.go: GetBufferReader, PutBufferReader, GetBufferWriter, PutBufferWriter"]}
{"id": "C99", "title": "Buffers from the shared pools behave like private memory", "statement": "Any number of goroutines take buffers from xbytes, read, write and reslice them and free each one at most once, without using it afterwards. Then each goroutine sees exactly what it would see if every Malloc returned fresh memory of its own (of the right length and capacity, with arbitrary contents): a byte it loads is the one it stored last. No two goroutines ever access the same byte, and none waits for another.", "quantifier": "all programs of all goroutines, all interleavings of single byte accesses, all choices of the pools, all evictions by the garbage collector", "why_tests_cant": "data races and aliasing between goroutines through a pool show up only in particular interleavings", "anchors": ["xbytes/pool.go: Malloc, MallocSize, Free"]}
{"id": "C100", "title": "Concurrent xbinary calls do not disturb each other", "statement": "While one goroutine makes any sequence of xbinary calls on its own reader and writer, others use xbinary or the pools of xbytes at the same time. The goroutine's results, the bytes it has written and the bytes it has consumed are those of the same calls made alone; it does not panic; every slice returned by ReadBytes keeps the bytes read until its owner changes or frees it; temporary buffers are given back exactly once and no other buffers are kept.", "quantifier": "all sequences of calls, all lawful readers, all writers, all programs of other goroutines, all interleavings (also in the middle of Read and Write), all choices of the pools", "why_tests_cant": "a buffer freed too early or twice is visible only if another goroutine gets it in that moment", "anchors": ["xbinary/xbinary.go: all functions", "xbytes/pool.go: Malloc, MallocSize, Free"]}
{"id": "C101", "title": "A panic of a user function does not break the rest of the pipeline", "statement": "If the function given to an operation panics for an element, the program neither crashes nor hangs, all other elements are handled as if the function had returned for this one, and the consumer can tell a complete stream from one that was cut off. (True of Walk, Map, Filter, FlatMap and ParallelFinish, which lose only the rest of the output of the call that panics. Peek never closes its output, so that its consumer waits for ever; Distinct ends its stream early, as if it were complete, and leaves the goroutine of a generator behind; so do Foreach, AnyMach, AllMach, Group and the Map of GroupBy, whose callers get the panic. ForeachOrdered and Sort give the panic to their callers too, but only after the whole stream has been received, so that nothing is left behind.)", "quantifier": "every stream, every function and every set of elements for which it panics, every number of workers, every schedule", "why_tests_cant": "which goroutine panics when, and who waits for it, depends on the schedule", "anchors": ["xstream/xstream.go: From, Walk, Map, Filter, FlatMap, ParallelFinish, Peek, Distinct, Foreach, ForeachOrdered, AnyMach, AllMach, Sort, Group, startGoroutine", "xstream/collection.go: Map"]}
{"id": "C102", "title": "Reverse leaves its argument alone", "statement": "Reverse converts between strings and byte slices without copying. It never writes to memory that existed before the call (string constants may be in read-only memory), so every string that anybody holds reads the same afterwards, and nothing else refers to the memory of the string it returns. What it returns is what C57 says.", "quantifier": "every string, also parts of other strings, and every contents of the rest of the memory", "why_tests_cant": "a test sees the strings it looks at, not the others that share memory", "anchors": ["xstring/xstring.go: Reverse", "internal/hack/xstring.go: StringToBytes, BytesToString"]}
{"id": "C103", "title": "MapStream is a stream like any other, and keeps the order within an item", "statement": "As long as its context is not done, Map delivers what mapFunc writes for one item in the order in which it writes it, and everything in the order of the items if there is one worker. A program that starts with MapStream never panics, always ends with all its goroutines (generator, workers and mappings included), and computes what its operations do to such a sequence. The call panics exactly if the worker size is negative.", "quantifier": "every list of items, every mapping function, worker size >= 1, every chain of operations and terminal operation after it, anywhere in a program with several streams; every schedule", "why_tests_cant": "the order of concurrent writes, and which goroutine is left behind, depend on the schedule", "anchors": ["xmapreduce/xmapreduce.go: Map, MapStream, buildSource, doMap", "xbarrier/writebarrier.go: Write", "xworker/xworker.go: Run", "xstream/xstream.go: Range and all operations"]}
{"id": "C104", "title": "Clear empties a Map that nobody else is using", "statement": "If no call of Clear overlaps another call, then all calls of Map, concurrent as they may be with each other, together with the Clears behave like atomic operations of an ordinary map from which Clear removes everything; Range and ComputeIfPresent observe what C22 and C23 say, and a Clear is never blocked.", "quantifier": "all keys, values and user functions; every number of Clears, every number of concurrent calls between them, every schedule", "why_tests_cant": "entries created before a Clear stay reachable for nobody only if no path of any later operation, in any interleaving, leads to them", "anchors": ["xsync/map.go: Clear, Load, Store, LoadOrStore, ComputeIfAbsent, ComputeIfPresent, LoadAndDelete, Delete, Range"]}
{"id": "C105", "title": "Clear empties a SharedMap that nobody else is using", "statement": "If no call of Clear overlaps another call, then the operations on one key, concurrent as they may be with each other, together with the Clears behave like atomic operations of an ordinary map from which Clear removes everything, whatever the shard count; MStore, Range and ComputeIfPresent do what C88 says, nothing panics, and a Clear is never blocked.", "quantifier": "all shard counts from 1 to 2^31, all keys, values and user functions; every number of Clears, every number of concurrent calls between them, every schedule", "why_tests_cant": "Clear visits the shards one after the other; that no key of any shard survives, and that no shard is left locked, must hold for every shard count and every earlier history", "anchors": ["xsync/shared_map.go: Clear, GetShard, Load, Has, Store, MStore, LoadOrStore, ComputeIfAbsent, ComputeIfPresent, Delete, Range", "xsync/map.go: Clear"]}
{"id": "C106", "title": "What Map of a collector returns is the grouping of the whole stream", "statement": "Every call of Map on the collector of GroupBy that returns, the first or a later one, returns a map with one entry for every key, holding all elements of the stream with that key in order. (True if the key function never panics. If it panics for an element, the first Map panics; every later Map returns, without a panic, the groups of the elements before that one, and reads nothing more.)", "quantifier": "every stream, every key function and every set of elements for which it panics, every number of calls", "why_tests_cant": "a test has to guess the element, and that Map is called again after a recovered panic", "anchors": ["xstream/collection.go: GroupBy, Input, Map"]}
{"id": "C107", "title": "Panics of create and of resources do not break the ResourceManager", "statement": "If create panics, the panic reaches the callers of the Get calls that share that create call (and no Get that began after they had ended), nothing is held for the key, and a later Get calls its own create; if create returns a nil resource without an error, or the Close method of a resource panics, the manager remains usable. Get never returns a nil resource without an error. (True for a panicking create. A nil resource is remembered: every Get of the key panics until Remove. A nil resource or a panicking Close method makes Close panic with the lock held: the remaining resources are not closed and every later call blocks for ever, apart from a Get that joins another one of its key still under way.)", "quantifier": "all keys, every set of creates that fail, panic or return nil, every set of resources whose Close fails or panics; every number of concurrent Get, Remove and Close calls, every schedule", "why_tests_cant": "the panic has to be combined with every position of other calls waiting for the same create, and 'nothing blocks for ever' ranges over all continuations", "anchors": ["xsync/resourcemanager.go: Get, Remove, Close"]}
{"id": "C108", "title": "A rejected operation does not leak the stream it was called on", "statement": "When Split, SplitSteam, Tail, Skip, Limit or Copy panics because of its parameter, the goroutines of the stream on which it was called all end. (True of SplitSteam, Tail and Skip, which read the rest of the stream in the background. False of Split, Limit and Copy: a source that sends more values than its channel can hold is blocked for ever.)", "quantifier": "every source, every chain of operations before the rejected one and their functions, every bad parameter, every schedule", "why_tests_cant": "'all goroutines end' ranges over every schedule of the abandoned pipeline, and a leaked goroutine has no visible effect a test would notice", "anchors": ["xstream/xstream.go: Split, SplitSteam, Tail, Skip, Limit, Copy, drain, From, Range, Of"]}
{"id": "C109", "title": "Index and IndexAny return the first occurrence", "statement": "Index(s, t) is the number of bytes before the first occurrence of t in s, or -1 if t does not occur. IndexAny(s, chars) is the number of bytes before the first character of s that is one of the characters of chars, or -1 if there is none.", "quantifier": "every pair of byte strings, valid UTF-8 or not", "why_tests_cant": "byte positions and character boundaries have to agree for every mixture of characters of different widths and invalid bytes", "anchors": ["xstring/xstring.go: Index, IndexAny"]}
{"id": "C110", "title": "When a consumer stops reading, the rest of the program ends exactly if what is left unread fits in the buffers", "statement": "A consumer that stops at any moment (it makes no further step) does not keep the other goroutines from ending if all that can still be sent to it fits in its channel: a source ends exactly if what its consumer has not received fits in the channel of the source (always for Of, never for From unless everything was received); a pipeline ends if all it can send fits; of a copied stream, the other copies are consumed to their ends with the whole stream if what each stopped consumer leaves unread fits in the channel asked for, and no consumer of a copy sees its end otherwise.", "quantifier": "every source, every chain of operations, every list of copies, every set of consumers that stop, every moment at which they stop and every schedule of the others", "why_tests_cant": "a test stops one consumer at one moment; whether goroutines are left blocked depends on the number of values, the buffers, the moment and the schedule", "anchors": ["xstream/xstream.go: Of, From, Range, Buffer, Copy"]}
{"id": "C111", "title": "Data guarded by a Spinlock behaves as if each critical section ran alone", "statement": "If goroutines access some variables only between a successful Lock or TryLock of one Spinlock and their Unlock, there are no data races on these variables, every history of such sessions is one in which each critical section is executed at one instant between the call and the return, the memory left is that of running the ended sections one after the other, and no session is dead-locked: it can always still return.", "quantifier": "every number of sessions, every program of reads, writes and environment choices as a critical section, every initial memory and every interleaving of single accesses", "why_tests_cant": "a race or a lost update shows only in particular interleavings of the accesses of two critical sections", "anchors": ["xsync/spinlock.go: Lock, TryLock, Unlock"]}
{"id": "C112", "title": "A panic of a function given to Map is not mistaken for the end of the output", "statement": "If mapFunc or generateFunc panics, the consumer of the channel returned by Map does not see a normal end of the output: the panic ends the program first. Nothing but a panic of one of these functions ends the program, and the consumer never receives anything else than values written by mapFunc, each once.", "quantifier": "every list of items, every mapFunc and generateFunc, every set of items for which mapFunc panics, every worker size, every moment of cancellation and every schedule", "why_tests_cant": "whether the panic or the end of the output is observed first is a race between the worker, the mapping goroutine and the consumer", "anchors": ["xmapreduce/xmapreduce.go: Map, doMap, buildSource", "xworker/xworker.go: Run", "xtask/do.go: Do"]}
{"id": "C113", "title": "Ring and ResourceManager have no data races, and a ResourceManager call changes the manager at one instant", "statement": "Concurrent calls on one Ring, and concurrent Get, Remove and Close calls on one ResourceManager, never make two unordered accesses to the same variable or map of which one is a write. What is observed of a manager, including which resources are created, added, removed and closed and in which order, is what is observed if each of its critical sections (of Close: each closing of a resource) is executed at one instant.", "quantifier": "every number of concurrent calls, every create function, every iteration order of the map, every interleaving of single operations on the lock, the fields and the map", "why_tests_cant": "a data race shows only if the two accesses are scheduled next to each other; a race detector sees only the schedules that were run", "anchors": ["xring/xring.go: Add, Take", "xsync/resourcemanager.go: Get, Remove, Close"]}
{"id": "C114", "title": "create functions and Close methods may use the ResourceManager they are given to", "statement": "The create function passed to Get, and the Close methods of resources, may call Get and Remove of the same manager, with create functions that do the same. Whatever they do, Get returns a resource that was created for its key, between two resources created for one key the first was removed, a manager that is not closed makes no Get panic, and no execution goes on for ever without new calls; every call returns.", "quantifier": "every number of concurrent calls, every pair of user functions as arbitrary finite trees of nested calls that depend on results, every iteration order, every schedule", "why_tests_cant": "whether nested calls dead-lock depends on the schedule of several goroutines and on the keys that user functions choose at run time", "anchors": ["xsync/resourcemanager.go: Get, Remove, Close"]}
{"id": "C115", "title": "Concurrent calls on Map and SharedMap return under every schedule", "statement": "Once no new calls are made, every execution of concurrent calls on one Map or one SharedMap ends, however the scheduler interleaves them and without any fairness assumption, and when it has ended every call has returned. In particular no set of calls can keep each other repeating their compare-and-swaps for ever.", "quantifier": "every number of concurrent calls of every kind, every history that led to the present state, every schedule, every iteration order", "why_tests_cant": "retry loops under contention end or not depending on the schedule; no finite set of runs excludes a schedule that goes on for ever", "anchors": ["xsync/map.go: Map", "xsync/shared_map.go: SharedMap"]}
{"id": "C116", "title": "A Worker runs every function it is given", "statement": "Once no new calls of Run are made, every execution of a Worker ends, under every schedule. If then no run and no deferFunc is still executing and none has panicked or ended its goroutine, every call of Run has returned, every run was called and has returned, unless its context was done, and every deferFunc was called exactly once and has returned. A call of Run waits only while all slots are taken by functions that still execute.", "quantifier": "every number of slots, every number of concurrent calls of Run with any functions and contexts, every moment at which contexts become done, every schedule", "why_tests_cant": "a slot that is lost on one path, or a wake-up that is missed in one interleaving, shows only if later calls need that slot", "anchors": ["xworker/xworker.go: Run, NewWorker", "xtask/do.go: Do"]}
{"id": "C117", "title": "Every Lock of a Spinlock gets the lock at some time", "statement": "If the scheduler is fair and every holder unlocks, a goroutine that waits in Lock gets the lock at some time, and every TryLock and every Unlock returns. (False if others keep coming: a Lock can be overtaken for ever. True if the number of sessions is finite; in general a waiting Lock gets the lock unless other sessions acquire it infinitely often.)", "quantifier": "every infinite execution under a fair scheduler, every number of sessions", "why_tests_cant": "starvation is a property of infinite executions", "anchors": ["xsync/spinlock.go: Lock, TryLock, Unlock"]}
{"id": "C118", "title": "Clear removes everything at one instant, whatever it overlaps", "statement": "Calls of Map, Clears included, may overlap in any way. A call can panic only if a Clear overlaps it, a Clear never panics, and a call that panics has no effect. All other calls behave like atomic operations of an ordinary map from which Clear removes everything; Range and ComputeIfPresent observe what C22 and C23 say. Once no new calls are made, every execution ends and every call has returned or panicked.", "quantifier": "all keys, values and user functions; every number of concurrent calls and Clears; every schedule of single accesses to the two words of the atomic.Value, to the lock, to the entries", "why_tests_cant": "an operation that got hold of an entry before a Clear goes on with it after the Clear; whether its effect can be seen by anybody depends on all interleavings with later operations and further Clears", "anchors": ["xsync/map.go: Clear, Load, Store, LoadOrStore, ComputeIfAbsent, ComputeIfPresent, LoadAndDelete, Delete, Range"]}
{"id": "C119", "title": "Clear of a SharedMap removes everything at one instant, whatever it overlaps", "statement": "Calls of SharedMap, Clears included, may overlap in any way and behave like operations of an ordinary map from which Clear removes everything at one instant of the call. (False: during a Clear one key can be found removed and then another still found, and calls that overlap a Clear can panic. True: every Clear that returns has emptied all shards, each at one instant of the call, so that for the operations on any single key, apart from MStore and ComputeIfPresent, it is atomic, and with a single shard for all keys together; a Clear never panics; a call that panics overlaps a Clear and has no effect, apart from an MStore, which may have stored some of its pairs; once no new calls are made every execution ends and every call has returned or panicked.)", "quantifier": "all keys, values and user functions; all numbers of shards; every number of concurrent calls and Clears; every schedule of single accesses to the words of the maps of the shards", "why_tests_cant": "which keys are gone at which moment of a Clear depends on the interleaving with it", "anchors": ["xsync/shared_map.go: Clear, Load, Has, Store, MStore, LoadOrStore, ComputeIfAbsent, ComputeIfPresent, Delete, Range", "xsync/map.go: Clear"]}
{"id": "C120", "title": "A stream from MapStream whose context becomes done is still a stream", "statement": "The context given to MapStream may become done at any moment, also while later operations of the stream are at work. No panic ends the program (a Write can panic as in C16, which ends only its mapping), every execution of the whole program ends and all its goroutines end, except possibly the one of the generator (C79); nobody has to cancel for that. What the rest of the program gets is, for every item, a prefix of what mapFunc writes for it, interleaved in some order, each value at most once; with one worker it is a prefix of what mapFunc writes for the items in their order; and it is everything if the context did not become done. (That it always gets everything is false.)", "quantifier": "all items, mapping functions, worker sizes of at least one, programs with any operations after MapStream, all moments at which the context becomes done, all schedules", "why_tests_cant": "the context may become done between any two steps of any goroutine, and blocked writes, refused writes and writes on the closed channel leave different traces", "anchors": ["xmapreduce/xmapreduce.go: Map, MapStream, buildSource, doMap", "xbarrier/writebarrier.go: Write", "xtask/do.go: Do", "xworker/xworker.go: Run"]}
{"id": "C121", "title": "Several readers of one stream divide it among themselves", "statement": "Several operations may be called on the same Stream, or on streams made of the same channel. Each element of the stream then goes to exactly one of them, each of them handles its share in the order of the stream, exactly as if it were a stream of its own, and all of them see the end: the results of several Counts add up to the number of elements, several Foreachs call their functions once per element altogether. Nothing panics, every execution of the program ends, and all its goroutines end. (That each of them gets the whole stream is false: two Counts of a non-empty stream do not both return the number of its elements.)", "quantifier": "all programs, all operations and terminal operations on a shared stream, every number of readers, all ways in which the schedule divides the elements", "why_tests_cant": "which reader gets which element is decided by the schedule, with exponentially many possibilities", "anchors": ["xstream/xstream.go: Range, Buffer, Distinct, Filter, Walk, Count, Foreach, FindFirst, Done, drain and the other operations"]}
{"id": "C122", "title": "A mapFunc may react to the results of Write", "statement": "Whatever mapFunc does with the results of its Write calls: a value comes out of Map iff its Write reported true, and the values accepted from one mapping come out in the order of its calls; once a Write of a mapping reports false all later ones do, and this happens only after the context is done. Without cancellation everything comes out that the mappings write when every Write succeeds, as an interleaving, in the order of the items with one worker, and all mappings have returned when the output is closed. At any time the accepted values of a mapping are a prefix of what it writes when every Write succeeds. A mapFunc that returns when a Write reports false makes at most one such call. The output is closed exactly once, no panic ends the program (a Write that has passed its test of the context before a cancellation can panic after it, C16; that ends only its mapping), every execution ends, and after a cancellation the output gets closed without the help of mapFunc.", "quantifier": "all items, all programs of mapFunc that choose their next step by the results of Write so far, all worker sizes (at least one for termination), all moments of cancellation, all schedules", "why_tests_cant": "the functions of the tests ignore the results of Write; the first refused Write may be any call of any mapping, and what mapFunc does then depends on it", "anchors": ["xmapreduce/xmapreduce.go: Map, buildSource, doMap", "xbarrier/writebarrier.go: Write", "xtask/do.go: Do", "xworker/xworker.go: Run"]}
{"id": "C123", "title": "User functions may make calls on the map they are called by", "statement": "The functions given to Range, ComputeIfAbsent and ComputeIfPresent of a Map or SharedMap may call any methods of the same map, on the same goroutine, and the functions given to these calls may do so in turn, while other goroutines do the same. (That they return is false for ComputeIfAbsent and ComputeIfPresent: a function that loads another key can wait for ever for the lock its own call holds; on a SharedMap this happens with keys of the same shard, and two functions that load each other's key, of different shards, can wait for each other for ever. True: nested calls are atomic operations like any others; if every function makes finitely many calls and the depth is limited no execution goes on for ever; where only functions of Range make calls, and on a SharedMap also where functions of the other two use only shards that come later in some order of the shards, every call returns.)", "quantifier": "all keys, values and user functions, all sequences of nested calls that may depend on earlier results, every depth of nesting, every number of goroutines, every schedule", "why_tests_cant": "whether a nested call blocks depends on the internal state of the map (read-only or dirty part, expunged entries) at that moment, and mutual waiting on the interleaving", "anchors": ["xsync/map.go: Range, ComputeIfAbsent, ComputeIfPresent", "xsync/shared_map.go: Range, ComputeIfAbsent, ComputeIfPresent"]}
{"id": "C124", "title": "User functions of Map and SharedMap may panic", "statement": "A function given to Range, ComputeIfAbsent or ComputeIfPresent of a Map or SharedMap may panic, and the caller may recover the panic and go on. A call that ended with a panic has changed nothing, and all other calls behave as if it had not been made; no execution goes on for ever. (That the other calls return is false: if the function of a ComputeIfAbsent or ComputeIfPresent panics while the call holds the mutex, which is not released, then on a Map no call may ever return again, and on a SharedMap no Range and no call for a key of the same shard. True: on a Map every call returns or panics if only functions of Range panic; on a SharedMap every call returns or panics that uses no shard in which a function of ComputeIfAbsent or ComputeIfPresent has panicked.)", "quantifier": "all keys, values and user functions, all conditions under which they panic, every number of calls, every schedule", "why_tests_cant": "the crash point is any call of any user function, and whether the mutex is held there depends on the internal state of the map at that moment", "anchors": ["xsync/map.go: Range, ComputeIfAbsent, tryComputeIfAbsent, ComputeIfPresent, tryComputeIfPresent", "xsync/shared_map.go: Range, ComputeIfAbsent, ComputeIfPresent"]}
{"id": "C125", "title": "Functions given to a Worker may call Run of the same Worker", "statement": "The functions given to Run of a Worker may call Run of this Worker, with functions that do the same to any depth, and may wait until the deferFuncs of the calls they have made have returned. Every call of Run then returns and is done with as in C116: its function returns, its deferFunc is called once and returns, its slot becomes free. (This is false: as many functions as there are slots, each of which calls Run once, wait for ever, and so does a single call whose functions wait for their calls if these are nested as deeply as there are slots. True: the bounds of C13 and C14 as for all other functions; a function that has returned has made its calls, each once, in order and with the functions it gives to them; a function that waits for its calls before it returns has their deferFuncs behind it when it has returned; every execution ends, and at the end either every call is over or every slot is held by a function whose context is not done and that waits for Run or for one of its calls; hence every call is over if fewer functions that call Run are executing than there are slots, or if all contexts are done.)", "quantifier": "all sizes of the worker, all functions given as trees of calls, waits and returns, any number of calls from outside, all contexts and times at which they become done, all interleavings", "why_tests_cant": "whether an execution jams depends on how many functions of which kind hold slots at the same time; a jam needs a schedule in which all of them reach their nested call before a slot becomes free", "anchors": ["xworker/xworker.go: NewWorker, Run", "xtask/do.go: Do"]}
{"id": "C126", "title": "An error returned by BatchError.Err does not change", "statement": "The error that Err of a BatchError returns stands for the errors that had been added before the call, with the message they give, however often it is looked at later and whatever is added to the BatchError or to others in between. (This is false if a BatchError is copied and errors are then added to the original and to the copy: adding to one can replace an error in what Err of the other has returned. True if BatchErrors are not copied, and more generally if after a copy errors are added to one of the two only: then every BatchError holds what was added to it, and errors returned by Err never change.)", "quantifier": "all sequences of Add, Err and assignments of BatchErrors, on any number of variables, with any capacities that append chooses", "why_tests_cant": "whether two slices share the array behind them depends on the capacities chosen by append and on the whole history of copies and additions", "anchors": ["xerror/err.go: BatchError, Add, Err, errorArray"]}
{"id": "C127", "title": "Slices and maps exchanged with a stream are not shared behind the back of their owner", "statement": "A slice received from Split, Merge or Group belongs to the receiver: whatever is done with it (changing elements, appending in place), the slices sent later have the right elements and other slices do not change, and nobody but those who have received it changes it. FALSE after Copy, where all consumers get the same slice. Of(s...) gives the elements s had when Of was called: FALSE, it reads the slice of its caller later; true if the caller does not change an element before it has been sent. Changing the map returned by Map of the GroupBy collector does not change what later calls return: FALSE, it is the same map.", "quantifier": "every input, key function, growth of arrays, sequence of changes made by consumers or callers, and interleaving of these with the stage", "why_tests_cant": "aliasing shows only for particular capacities, growth factors and moments of a change", "anchors": ["xstream/xstream.go: Split, Merge, Group, Of, Copy", "xstream/collection.go: Group.Map"]}
{"id": "C128", "title": "A slow create delays only the Gets of its own key", "statement": "A ResourceManager never makes a call wait for a user function that has to do with another key: while create functions are running, however long they take, every Remove, every Close and every Get of a key for which no create is running returns. (True of create, as long as no Get has panicked (C32). FALSE of the Close methods of the resources: while Close of the manager calls one, no other Get or Remove that needs the lock goes on.)", "quantifier": "every set of concurrent calls, every set of create functions that take long or never return, every schedule of the other calls, access by access", "why_tests_cant": "a wait on a lock held during a user function shows only if another call comes while the function runs, and as a delay, not as a wrong result", "anchors": ["xsync/resourcemanager.go: Get, Remove, Close"]}
{"id": "C129", "title": "Calls on different shards of a SharedMap do not wait for each other", "statement": "A call of a SharedMap that cannot go on waits for another call that has to do with the same shard, has not returned and can go on. So if some calls stop for any time at any point, for example because a function passed to ComputeIfAbsent, ComputeIfPresent or Range takes long, every other call returns that has no shard in common with them. (A call for one key has to do with the shard of the key, MStore with the shards of its keys, Range with all shards.)", "quantifier": "every shard count, every set of concurrent calls, every set of calls that stop at any of their points, every schedule of the others", "why_tests_cant": "the wait depends on which calls hold which locks at which moment", "anchors": ["xsync/shared_map.go: GetShard and all methods but Clear", "xsync/map.go: all methods but Clear"]}
{"id": "C130", "title": "The slice returned by Take of a Ring belongs to the caller", "statement": "A slice returned by Take holds the values of C01 and keeps them whatever happens to the Ring or to other Rings afterwards (Adds that overwrite every slot, other Takes), until the caller changes it; changing elements of it changes neither a Ring nor any other slice.", "quantifier": "all capacities, any number of Rings, all sequences of NewRing, Add, Take and changes of elements of returned slices", "why_tests_cant": "whether two slices share an array shows only for particular sequences of additions and changes, for example when the ring is full and starts at slot 0", "anchors": ["xring/xring.go: NewRing, Add, Take"]}
{"id": "C131", "title": "A Map survives keys that cannot be hashed", "statement": "A call of a Map with a key that cannot be hashed (a slice, a map, a function, or a value that contains one) panics, and no other call of a Map with user functions that return does. It panics without an effect and without holding the lock: the other calls behave as if it had not been made, and every call returns or panics.", "quantifier": "all sets of concurrent calls of Load, Store, LoadOrStore, ComputeIfAbsent, ComputeIfPresent, LoadAndDelete, Delete and Range with any keys, all interleavings", "why_tests_cant": "whether the panic leaves the lock held depends on which access of the call indexes a map first, in every state of the map and for every interleaving", "anchors": ["xsync/map.go: Load, Store, LoadOrStore, ComputeIfAbsent, ComputeIfPresent, LoadAndDelete, Delete, Range"]}
{"id": "C132", "title": "Reads of a Map wait for nobody once a Range has returned", "statement": "After a Range of a Map has returned, and as long as no call is in progress that could add a key (no Store, LoadOrStore or ComputeIfAbsent since before that Range began), a Load, LoadAndDelete, Delete or Range that begins waits for no other call: it can go on in every state, whatever the other calls are doing and wherever they have stopped, and a Load returns after three steps of its own. (Without the Range a Load can have to wait for a call that has stopped with the lock.)", "quantifier": "all sets of concurrent calls without Clear, all points at which other calls stop, all interleavings of the accesses", "why_tests_cant": "that a call never waits shows only if another call is stopped at each of its points, in every state of the map", "anchors": ["xsync/map.go: Load, LoadAndDelete, Delete, Range, readOnly"]}
{"id": "C133", "title": "What panics of user functions can leave behind in a stream program", "statement": "Whichever user functions panic, every execution of a program of streams comes to an end. A goroutine of the program that has not ended then waits because of a panic of the function of a Peek, Distinct, Foreach, AnyMach, AllMach, Group or GroupBy operation: it gets its input, directly or through other operations, from an operation that sends, directly or through other operations, to one whose function has panicked, and none of the channels in between has been closed. So panics in Walk, Map, Filter, FlatMap, ParallelFinish, From, ForeachOrdered and Sort leave nothing behind, and what is behind a Distinct always gets to its end.", "quantifier": "every acyclic network of streams with fewer than 2^63 elements per channel, all functions and all sets of elements for which they panic, every schedule", "why_tests_cant": "which goroutines are left depends on where in the network the panic happens, on the capacities and on the schedule", "anchors": ["xstream/xstream.go: all operations", "xstream/collection.go: GroupBy"]}
{"id": "C134", "title": "User functions of Map and SharedMap that make calls and panic", "statement": "The functions given to Range, ComputeIfAbsent and ComputeIfPresent of a Map or a SharedMap may make any calls on it and may panic before, between and after them; a function may recover the panic of a call that it has made and go on, or panic too. Still the calls that returned, nested or not, have a history of a map without panics, in which they take effect as in C21 and C88, and a call that panicked has no effect of its own. If every function makes finitely many calls and the nesting is limited, no schedule runs on for ever. If only functions of Range panic, and functions called with the lock held make no calls (for SharedMap: only calls that use later shards in some order of the shards), every call returns or panics.", "quantifier": "all user functions and the calls they make at any depth, all choices of the functions that panic, all interleavings of any number of goroutines", "why_tests_cant": "which locks are held when a function panics or makes a call depends on the state of the map and on the schedule", "anchors": ["xsync/map.go: Range, ComputeIfAbsent, ComputeIfPresent", "xsync/shared_map.go: Range, ComputeIfAbsent, ComputeIfPresent"]}
{"id": "C135", "title": "A generateFunc of xmapreduce.Map that watches the context leaves nothing behind", "statement": "If generateFunc selects between sending the next item and the end of the context, and returns when it finds the context done, then, with a worker size of at least 1, mapFuncs that return and a consumer that keeps receiving, every execution of Map comes to an end and nothing is left behind, cancelled or not: the consumer has seen the end of the output, generateFunc has returned, source is closed, the loop of Map has ended, and so have all workers and mapFuncs. (A generateFunc that only sends can be left behind after a cancellation: C79.) The output is not affected: for every item a prefix of what its mapFunc writes, interleaved; everything, if the context is not done.", "quantifier": "all lists of items, all mapFuncs, all worker sizes from 1, all moments of cancellation and of the return of generateFunc, all interleavings", "why_tests_cant": "whether a goroutine is left depends on when the context is cancelled relative to each step of the generator, the loop and the workers", "anchors": ["xmapreduce/xmapreduce.go: Map, buildSource, doMap"]}
{"id": "C136", "title": "What a mapFunc that ends its goroutine does to xmapreduce.Map", "statement": "A mapFunc may end its goroutine without returning (runtime.Goexit, as FailNow of package testing does). The program goes on. What comes out is, for every item, a prefix of what its mapFunc would write, interleaved, and the output is closed at most once. As long as the context is not done, each such mapFunc keeps its worker slot and the output is not closed. Every execution ends; if the context is not done then, with a worker size of at least 1 and a consumer that keeps receiving, the consumer has seen the end of the output exactly if no mapFunc ended its goroutine, every started mapFunc that did not has delivered everything, and if fewer mapFuncs than there are workers ended their goroutine, all items have been mapped and generateFunc has returned. If the context is done, the consumer has seen the end of the output and all workers and mapFuncs have ended.", "quantifier": "all lists of items, all mapFuncs and all moments (outside Write) at which they end their goroutine, all worker sizes, all moments of cancellation, all interleavings", "why_tests_cant": "which items are still mapped depends on how many slots are lost before them, which depends on the schedule; that the output is never closed cannot be observed by a test", "anchors": ["xmapreduce/xmapreduce.go: Map, doMap", "xworker/xworker.go: Run", "xtask/do.go: Do"]}
{"id": "C137", "title": "What a consumer that stops receiving leaves behind in xmapreduce.Map", "statement": "A consumer of Map may stop receiving at any time. Whatever happens then, nothing more happens by itself after a while. If the context is not done, with a worker size of at least 1: if the values that it has not received are at most as many as the worker size, everything has ended then (generateFunc, the loop of Map, all workers and mapFuncs) and the output is closed and holds exactly the values not received; if they are more, the output stays open and full, the loop of Map has not returned, at least one mapFunc waits in Write, and so does each mapFunc that has not ended. If the context is done, before or after the consumer has stopped, everything has ended but a generateFunc that has still something to send, and the output is closed, however many values have not been received; with a generateFunc that watches the context (C135) nothing at all is left.", "quantifier": "all lists of items, all mapFuncs, all worker sizes from 1, all moments at which the consumer stops and the context is cancelled, all interleavings", "why_tests_cant": "a goroutine that is left behind shows in no result; whether one is left depends on the number of values, on the channel's capacity and on the schedule", "anchors": ["xmapreduce/xmapreduce.go: Map, doMap", "xbarrier/writebarrier.go: Write", "xworker/xworker.go: Run", "xtask/do.go: Do"]}
{"id": "C138", "title": "What a Spinlock guarantees whoever unlocks it", "statement": "Lock, TryLock and Unlock of a Spinlock may be called by any goroutines in any order; the lock may be unlocked by another goroutine than the one that has locked it, twice, or without being locked. Every history is linearizable to a flag: Lock returns at an instant at which the flag is down, and raises it; TryLock raises it and returns whether it was down; Unlock lowers it. At every moment the calls that have returned with the lock are at most one more than the calls of Unlock that have been made. TryLock and Unlock never wait, and an Unlock by anybody lets a waiting Lock in. Two goroutines never have the lock as long as neither of them has called Unlock.", "quantifier": "all numbers of goroutines, all sequences of calls of each, all interleavings", "why_tests_cant": "the sequences of calls and the schedules are unlimited; tests lock and unlock in pairs", "anchors": ["xsync/spinlock.go: Lock, TryLock, Unlock"]}
{"id": "C139", "title": "User functions of xsync.Map that clear the map", "statement": "The functions passed to Range, ComputeIfAbsent and ComputeIfPresent of xsync.Map may make calls on the map, Clear included, at any depth, while other goroutines make calls and clear the map as well. Without the calls that panicked the history, nested calls included, is that of an ordinary map on which Clear removes everything at one instant, where the function of a ComputeIfPresent is applied to a value that the key had during the call; a Range whose function clears the map visits no key twice, and only pairs that were there during the call; only calls that overlap a Clear panic. If every function makes finitely many calls and the nesting is limited, every execution ends; every call returns or panics.", "quantifier": "all maps, all functions and what they call, any number of goroutines, all interleavings", "why_tests_cant": "the functions, their calls, the depth and the interleavings with Clear are unlimited", "anchors": ["xsync/map.go: Range, ComputeIfAbsent, ComputeIfPresent, Clear"]}
{"id": "C140", "title": "User functions of xsync.Map that clear the map and panic", "statement": "The functions passed to Range, ComputeIfAbsent and ComputeIfPresent of xsync.Map may make calls on the map, Clear included, and may panic before, between and after these calls; a function may recover the panic of a call that it has made, or panic too. For the other calls a call whose function panicked is a call that has not returned: apart from the calls that panicked the history is that of an ordinary map on which Clear removes everything at one instant, where the function of a ComputeIfPresent is applied to a value that the key had during the call, and a Range keeps its promises. A call that panics although its function has not panicked overlaps a Clear. If every function makes finitely many calls and the nesting is limited, every execution ends; every call returns or panics.", "quantifier": "all maps, all functions, what they call and where they panic, any number of goroutines, all interleavings", "why_tests_cant": "the functions, their calls and panics, the depth and the interleavings with Clear are unlimited", "anchors": ["xsync/map.go: Range, ComputeIfAbsent, ComputeIfPresent, Clear"]}
{"id": "C141", "title": "User functions of xsync.SharedMap that clear the map", "statement": "The functions passed to Range, ComputeIfAbsent and ComputeIfPresent of xsync.SharedMap may make calls on the map, Clear included, at any depth, while other goroutines make calls and clear the map as well. Nested calls are calls like any others: a Clear that has returned has emptied every shard, one after the other, each at one instant of the call, the calls on every single key that did not panic are those of an ordinary map, and only calls that overlap a Clear panic. If every function makes finitely many calls and the nesting is limited, every execution ends; every call returns or panics.", "quantifier": "all shared maps of at most 2^31 shards, all functions and what they call, any number of goroutines, all interleavings", "why_tests_cant": "the functions, their calls, the depth and the interleavings with Clear are unlimited", "anchors": ["xsync/shared_map.go: Range, ComputeIfAbsent, ComputeIfPresent, Clear", "xsync/map.go: Range, ComputeIfAbsent, ComputeIfPresent, Clear"]}
{"id": "C142", "title": "User functions of xsync.SharedMap that clear the map and panic", "statement": "The functions passed to Range, ComputeIfAbsent and ComputeIfPresent of xsync.SharedMap may make calls on the map, Clear included, and may panic before, between and after these calls; a function may recover the panic of a call that it has made, or panic too. For the other calls a call whose function panicked is a call that has not returned: the history of the others is explained as if no function had panicked, a Clear that has returned has emptied every shard, one after the other, each at one instant of the call, and the calls on every single key are those of an ordinary map. A call that panics although its function has not panicked overlaps a Clear. If every function makes finitely many calls and the nesting is limited, every execution ends; every call returns or panics.", "quantifier": "all shared maps of at most 2^31 shards, all functions, what they call and where they panic, any number of goroutines, all interleavings", "why_tests_cant": "the functions, their calls and panics, the depth and the interleavings with Clear are unlimited", "anchors": ["xsync/shared_map.go: Range, ComputeIfAbsent, ComputeIfPresent, Clear", "xsync/map.go: Range, ComputeIfAbsent, ComputeIfPresent, Clear"]}
{"id": "C143", "title": "Where the results of Get come from when create functions use the ResourceManager", "statement": "Create functions and Close methods may call Get and Remove of the same manager, with create functions that do the same. An error that Get returns for a key is one that a create function can end with that was passed to Get for the same key, by a caller, by a create function passed in a call or by a Close method, and that call overlaps the Get (or is the Get itself): so a Get never returns an error that only the create functions of other keys, or of calls that ended before it began, can end with. The same holds for panics of create functions, recovered or not by the create functions around them. Get returns a resource only if a create function passed to Get for the same key can succeed.", "quantifier": "every number of concurrent calls, all user functions as arbitrary finite trees of nested calls that depend on results, every iteration order, every schedule", "why_tests_cant": "whose create function runs depends on the schedule, and functions and their nesting are unlimited", "anchors": ["xsync/resourcemanager.go: Get, Remove, Close"]}
{"id": "C144", "title": "A deferFunc given to a Worker may call Run of the same Worker", "statement": "The deferFuncs given to Run of a Worker may call Run of this Worker, with deferFuncs that do the same to any depth, and may wait until the deferFuncs of the calls they have made have returned. Every call of Run then returns and is done with as in C116. (This is false: the slot of a call is given back only after its deferFunc has returned, so as many deferFuncs as there are slots, each of which calls Run once, never return. Once all slots are held in this way it stays so, whatever is called later and whichever contexts become done, and no waiting or later call of Run ever gets a slot; in C125 contexts that become done end the jam. True: the bounds of C13 and C14 as for all other functions; the program is not ended; a deferFunc that has returned has made its calls, each once, in order and with the deferFuncs it gives to them; a deferFunc that waits for its calls before it returns has their deferFuncs behind it when it has returned; every execution ends, and at the end either every call is over or a call of Run waits and every slot is held by a deferFunc that waits for Run or for the deferFunc of one of its calls; hence every call is over if fewer deferFuncs that call Run are executing than there are slots.)", "quantifier": "all sizes of the worker, all deferFuncs given as trees of calls, waits and returns, any number of calls from outside, all contexts and times at which they become done, all interleavings", "why_tests_cant": "whether an execution jams depends on how many deferFuncs hold slots at the same time, and that a jam never ends is a statement about all continuations", "anchors": ["xworker/xworker.go: NewWorker, Run", "xtask/do.go: Do"]}
{"id": "C145", "title": "How executions end when run and deferFunc call Run of the same Worker", "statement": "Both functions given to Run of a Worker, run and deferFunc, may call Run of this Worker, with functions that do the same to any depth, and may wait until the deferFuncs of the calls they have made have returned; when the context of a call is done its deferFunc may execute while its run is still executing. The program is not ended by this. While a call of Run made by a function waits for a slot, the function has not returned and has made no later call; when it has returned, all its calls have got slots. A function that has returned has made exactly the calls in its code, in this order, each once and with the functions it says; if it waits for its calls at its end, each of them has been taken on and its deferFunc was called once and has returned. Without new calls from outside every execution comes to an end. At the end every call is over (run has returned or was never started as its context was done, deferFunc has been called once and has returned, the slot is free), or a call of Run waits for a slot and every slot is held by a run whose context is not done or by a deferFunc that is inside a call of Run or waits for the deferFunc of a call it has made. The second case can be met with a mixture of both kinds of functions. It does not occur if fewer calls have an executing run (with a context that is not done) or an executing deferFunc that calls Run than there are slots; so it does not occur if all contexts are done and no executing deferFunc calls Run. If all slots are held by deferFuncs that wait like this, it is so for ever, whatever the functions run do, whatever is called from outside and whichever contexts become done.", "quantifier": "all sizes of the worker, all pairs of functions given as trees of calls, waits and returns, any number of calls from outside, all contexts and times at which they become done, all interleavings", "why_tests_cant": "the functions, the depth of the calls and the schedules are unlimited; run and deferFunc of one call may execute at the same time only in some schedules", "anchors": ["xworker/xworker.go: NewWorker, Run", "xtask/do.go: Do"]}
{"id": "C146", "title": "Functions that call Run of the same Worker and panic", "statement": "As in C145, both functions given to Run of a Worker may call Run of this Worker and wait for the deferFuncs of their calls, to any depth; here they may also end with a panic they do not recover, before, between or after their calls. The program is ended by the worker exactly if a deferFunc has panicked or a run has panicked and Do was left with its panic, deferFunc having returned; so never if no function ends with a panic. A panic of run is lost if its context was done before and Do had left. Otherwise it can end the program while calls the function has made are still executing; but not before deferFunc has returned. If all slots are held by deferFuncs that are inside a call of Run or wait for the deferFunc of a call they have made, it is so for ever, no waiting or later call gets a slot, and no panic ends the program any more, not even one that Do has received already. While a call of Run made by a function waits for a slot, the function has not returned or panicked and has made no later call; when it has ended, all its calls have got slots. A function that has returned or panicked has made exactly the calls in its code, in this order, each once and with the functions it says; if it waits for its calls right before that, the deferFunc of each of them was called once and has returned. The bounds of C13 and C14 hold up to then. Without new calls from outside every execution comes to an end; if the program has not been ended by a panic, every call is over then (run has returned, or its context was done and it was not started, has returned or has panicked unseen; deferFunc has been called once and has returned; the slot is free), or a call of Run waits for a slot and every slot is held by a run whose context is not done or a deferFunc that is inside a call of Run or waits for the deferFunc of a call it has made. The second case does not occur if fewer calls have an executing run (with a context that is not done) or an executing deferFunc that calls Run than there are slots.", "quantifier": "all sizes of the worker, all pairs of functions given as trees of calls, waits, returns and panics, any number of calls from outside, all contexts and times at which they become done, all interleavings", "why_tests_cant": "whether a panic is seen depends on a race with the context, and the functions, the depth of the calls and the schedules are unlimited", "anchors": ["xworker/xworker.go: NewWorker, Run", "xtask/do.go: Do"]}
