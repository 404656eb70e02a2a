{
 "claims": [
  {
   "property": "C01",
   "status": "proved",
   "theorems": [
    "Verif.XRing.C01_take_returns_last_n",
    "Verif.XRing.C01_take_suffix",
    "Verif.XRing.C01_newRing_panics_iff",
    "Verif.XRing.C01_counter_overflow_panics"
   ],
   "note": "Bound 2^63 Adds is the int counter's range; beyond it Take panics (C01_counter_overflow_panics)."
  },
  {
   "property": "C02",
   "status": "proved",
   "theorems": [
    "Verif.XRing.Conc.C02_linearizable",
    "Verif.XRing.Conc.C02_takes_return_last_n",
    "Verif.XRing.Conc.C02_progress",
    "Verif.XRing.Conc.C02_ends",
    "Verif.XRing.Conc.C02_returns"
   ],
   "note": "Linearizability over all interleavings of individual accesses; every call returns under every schedule; sync.RWMutex semantics assumed."
  },
  {
   "property": "C03",
   "status": "proved",
   "theorems": [
    "Verif.XError.C03_err",
    "Verif.XError.C03_nil_iff",
    "Verif.XError.C03_message"
   ],
   "note": ""
  },
  {
   "property": "C04",
   "status": "partial",
   "theorems": [
    "Verif.XTask.Retry.C04_C05_doWithRetry",
    "Verif.XTask.Retry.C04_options",
    "Verif.XTask.Retry.C04_calls",
    "Verif.XTask.Retry.C04_maxint_refuted",
    "Verif.XTask.Retry.C05_maxint"
   ],
   "note": "Proved for every retry count except MaxInt64, where an always failing fn is retried for ever (refuted)."
  },
  {
   "property": "C05",
   "status": "proved",
   "theorems": [
    "Verif.XTask.Retry.C05_result",
    "Verif.XTask.Retry.C04_C05_doWithRetry",
    "Verif.XTask.Retry.C05_maxint"
   ],
   "note": "C05_result for counts below MaxInt64. For MaxInt64 (2^63 attempts) C05_maxint gives nil at the first success; without a success there is no result (C04)."
  },
  {
   "property": "C06",
   "status": "proved",
   "theorems": [
    "Verif.XTask.C06_defer_once",
    "Verif.XTask.C06_without_defer"
   ],
   "note": "deferFunc is assumed to return."
  },
  {
   "property": "C07",
   "status": "proved",
   "theorems": [
    "Verif.XTask.C07_result",
    "Verif.XTask.C07_done_on_entry",
    "Verif.XTask.C07_not_done",
    "Verif.XTask.C07_timeout"
   ],
   "note": "The panic text (value and stack) is represented by the value it is made from."
  },
  {
   "property": "C08",
   "status": "proved",
   "theorems": [
    "Verif.XTask.C08_no_leak"
   ],
   "note": ""
  },
  {
   "property": "C09",
   "status": "proved",
   "theorems": [
    "Verif.XOnce.C09_at_most_one",
    "Verif.XOnce.C09_exactly_one",
    "Verif.XOnce.C09_no_panic",
    "Verif.XOnce.C09_write_never_blocks",
    "Verif.XOnce.C09_received",
    "Verif.XOnce.C09_closed_after_value",
    "Verif.XOnce.C09_recv_never_blocks"
   ],
   "note": "Any number of writers and receivers."
  },
  {
   "property": "C10",
   "status": "proved",
   "theorems": [
    "Verif.XOnce.C10_linearizable",
    "Verif.XOnce.C10_write_once",
    "Verif.XOnce.C10_panics_refuted"
   ],
   "note": "atomic.Value.CompareAndSwap/Load are single atomic steps; nil values and mixed dynamic types panic (outside the property)."
  },
  {
   "property": "C100",
   "status": "proved",
   "theorems": [
    "Verif.XBinary.C100_session",
    "Verif.XBinary.C100_roundtrip"
   ],
   "note": "Readers and writers do not keep the slice they are given (contract of io.Reader and io.Writer). ReadBytes on a reader that never makes progress is reported as running."
  },
  {
   "property": "C101",
   "status": "partial",
   "theorems": [
    "Verif.XStream.C101_no_crash",
    "Verif.XStream.C101_map",
    "Verif.XStream.C101_filter",
    "Verif.XStream.C101_walk",
    "Verif.XStream.C101_peek",
    "Verif.XStream.C101_distinct",
    "Verif.XStream.C101_foreach",
    "Verif.XStream.C101_peek_refuted",
    "Verif.XStream.C101_distinct_refuted",
    "Verif.XStream.C101_foreach_refuted",
    "Verif.XStream.C101_mach",
    "Verif.XStream.C101_mach_decided",
    "Verif.XStream.C101_keyed",
    "Verif.XStream.C101_ordered",
    "Verif.XStream.C101_sort",
    "Verif.XStream.C101_mach_refuted",
    "Verif.XStream.C101_keyed_refuted",
    "Verif.XStream.C101_ordered_source",
    "Verif.XStream.C101_sort_source",
    "Verif.XStream.C101_mach_end",
    "Verif.XStream.C101_keyed_end",
    "Verif.XStream.C101_ordered_end",
    "Verif.XStream.C101_sort_end"
   ],
   "note": "Proved for Walk, Map, Filter, FlatMap, ParallelFinish (termination and closing: C44, C45); refuted for Peek, Distinct, Foreach, AnyMach, AllMach, Group and GroupBy, whose behaviour is proved instead; ForeachOrdered and Sort leave nothing behind."
  },
  {
   "property": "C102",
   "status": "proved",
   "theorems": [
    "Verif.XString.C102_reverse",
    "Verif.XString.C102_immutable"
   ],
   "note": ""
  },
  {
   "property": "C103",
   "status": "proved",
   "theorems": [
    "Verif.XMapReduce.C103_order",
    "Verif.XMapReduce.C103_in_order",
    "Verif.XMapReduce.C103_node",
    "Verif.XMapReduce.C103_program",
    "Verif.XMapReduce.C103_panics"
   ],
   "note": "Without cancellation; with it, C15_no_duplicates, C16, C79 and C80 say what remains. With worker size 0 no mapping is ever started."
  },
  {
   "property": "C104",
   "status": "proved",
   "theorems": [
    "Verif.XSync.MapConc.C104_clear_linearizable",
    "Verif.XSync.MapConc.C104_clear_observed",
    "Verif.XSync.MapConc.C104_clear_runs"
   ],
   "note": "Linearizability in the strict sense without ComputeIfPresent, as in C21. When a Clear overlaps other calls, C24 applies."
  },
  {
   "property": "C105",
   "status": "proved",
   "theorems": [
    "Verif.XSync.SharedConc.C105_clear_linearizable",
    "Verif.XSync.SharedConc.C105_clear_effects",
    "Verif.XSync.SharedConc.C105_clear_no_panic",
    "Verif.XSync.SharedConc.C105_clear_runs"
   ],
   "note": "Linearizability in the strict sense for the operations on one key without ComputeIfPresent, as in C87; MStore, Range and ComputeIfPresent as in C88. When a Clear overlaps other calls, C24 and C119 apply."
  },
  {
   "property": "C106",
   "status": "partial",
   "theorems": [
    "Verif.XStream.C106_map_partial",
    "Verif.XStream.C106_map_refuted",
    "Verif.XStream.C106_agrees"
   ],
   "note": "Holds if the key function does not panic; after a panic later calls return the groups of the elements before it."
  },
  {
   "property": "C107",
   "status": "partial",
   "theorems": [
    "Verif.XSync.ResMan.C107_create",
    "Verif.XSync.ResMan.C107_error",
    "Verif.XSync.ResMan.C107_got",
    "Verif.XSync.ResMan.C107_stored",
    "Verif.XSync.ResMan.C107_nil",
    "Verif.XSync.ResMan.C107_close_panics",
    "Verif.XSync.ResMan.C107_close_partial",
    "Verif.XSync.ResMan.C107_no_deadlock_partial",
    "Verif.XSync.ResMan.C107_ends",
    "Verif.XSync.ResMan.C107_returns_partial",
    "Verif.XSync.ResMan.C107_nil_refuted",
    "Verif.XSync.ResMan.C107_close_refuted",
    "Verif.XSync.ResMan.C107_locked"
   ],
   "note": "Proved for a panicking create; refuted for nil resources and panicking Close methods; C107_locked says what is left of the manager after such a panic."
  },
  {
   "property": "C108",
   "status": "partial",
   "theorems": [
    "Verif.XStream.C108_left",
    "Verif.XStream.C108_drained_partial",
    "Verif.XStream.C108_leak_refuted"
   ],
   "note": "Proved for SplitSteam, Tail and Skip after any chain of operations; refuted for Split, Limit and Copy."
  },
  {
   "property": "C109",
   "status": "proved",
   "theorems": [
    "Verif.XString.C109_index",
    "Verif.XString.C109_index_any"
   ],
   "note": "strings.Index and strings.IndexAny of the standard library are modelled by their loops."
  },
  {
   "property": "C11",
   "status": "proved",
   "theorems": [
    "Verif.XBarrier.C11_write",
    "Verif.XBarrier.C11_late_write",
    "Verif.XBarrier.C11_never_false",
    "Verif.XBarrier.C11_C12_conservation"
   ],
   "note": "Includes unbuffered channels, closed channels (Write panics, nothing sent) and competing senders."
  },
  {
   "property": "C110",
   "status": "proved",
   "theorems": [
    "Verif.XStream.C110_source",
    "Verif.XStream.C110_pipeline",
    "Verif.XStream.C110_copy",
    "Verif.XStream.C110_copy_end"
   ],
   "note": "Exact for sources and copies. For a pipeline with operations a sufficient condition: the bound on what the chain can send has to fit."
  },
  {
   "property": "C111",
   "status": "proved",
   "theorems": [
    "Verif.XSync.Spinlock.C111_linearizable",
    "Verif.XSync.Spinlock.C111_memory",
    "Verif.XSync.Spinlock.C111_no_race",
    "Verif.XSync.Spinlock.C111_no_deadlock",
    "Verif.XSync.Spinlock.C111_tickets"
   ],
   "note": "Sequentially consistent interleavings; that race-free programs have no others is the Go memory model. The critical sections end; a session unlocks only what it has locked."
  },
  {
   "property": "C112",
   "status": "partial",
   "theorems": [
    "Verif.XMapReduce.C112_output",
    "Verif.XMapReduce.C112_only",
    "Verif.XMapReduce.C112_crash_partial",
    "Verif.XMapReduce.C112_end_refuted",
    "Verif.XMapReduce.C112_lost_refuted"
   ],
   "note": "Refuted: the end of the output can be seen before the panic ends the program, and after a cancellation the panic can be lost. Proved: without cancellation every execution ends with the panic; what is received; that nothing else ends the program."
  },
  {
   "property": "C113",
   "status": "proved",
   "theorems": [
    "Verif.XSync.ResManMem.C113_resman_atomic",
    "Verif.XSync.ResManMem.C113_resman_no_race",
    "Verif.XSync.ResManMem.C113_resman_exclusive",
    "Verif.XSync.ResManMem.C113_close",
    "Verif.XRing.Conc.C113_ring_no_race",
    "Verif.XSync.ResManMem.C113_resman_writes",
    "Verif.XSync.ResManMem.C113_resman_reads",
    "Verif.XRing.Conc.C113_ring_writes",
    "Verif.XRing.Conc.C113_ring_reads"
   ],
   "note": "Sequentially consistent interleavings of single accesses. With C113_resman_atomic the theorems on histories and logs of C30, C31, C32 and C81 carry over to the finer model; C113_close does it for C31. The theorems _writes and _reads show that the lists of accesses used in the race theorems are complete. The mutex and map inside singleflight are not split up."
  },
  {
   "property": "C114",
   "status": "partial",
   "theorems": [
    "Verif.XSync.ResManNest.C114_ends",
    "Verif.XSync.ResManNest.C114_got",
    "Verif.XSync.ResManNest.C114_removed",
    "Verif.XSync.ResManNest.C114_create_once",
    "Verif.XSync.ResManNest.C114_no_panic",
    "Verif.XSync.ResManNest.C114_no_deadlock_partial",
    "Verif.XSync.ResManNest.C114_returns_partial",
    "Verif.XSync.ResManNest.C114_own_key_refuted",
    "Verif.XSync.ResManNest.C114_cycle_refuted",
    "Verif.XSync.ResManNest.C114_close_remove_refuted",
    "Verif.XSync.ResManNest.C114_close_get_refuted"
   ],
   "note": "Refuted: a create that gets its own key, two creates that get each other's key, and a Close method that uses the manager dead-lock. Proved: every call returns if create functions get only keys that come before their own in some order and the manager is not closed (with Close: no dead-lock if Close methods do not use the manager and no Get has panicked); the other parts without conditions on the user functions."
  },
  {
   "property": "C115",
   "status": "proved",
   "theorems": [
    "Verif.XSync.MapConc.C115_ends",
    "Verif.XSync.MapConc.C115_returns",
    "Verif.XSync.SharedConc.C115_shared_ends",
    "Verif.XSync.SharedConc.C115_shared_returns",
    "Verif.XSync.MapMem.C115_mem_ends",
    "Verif.XSync.MapMem.C115_mem_returns"
   ],
   "note": "Proved for Map both with map values as atomic steps and access by access to memory. Functions given to the calls are total, so they return; they do not call the map (C91 is about those that do)."
  },
  {
   "property": "C116",
   "status": "proved",
   "theorems": [
    "Verif.XWorker.C116_ends",
    "Verif.XWorker.C116_accepted",
    "Verif.XWorker.C116_waits",
    "Verif.XWorker.C116_all_done"
   ],
   "note": "The hypotheses say that the program has not ended with a panic (C78 is about that), and C116_all_done that no run or deferFunc executes for ever or ends with runtime.Goexit (C77 is about that)."
  },
  {
   "property": "C117",
   "status": "partial",
   "theorems": [
    "Verif.XSync.Spinlock.C117_starves_refuted",
    "Verif.XSync.Spinlock.C117_overtaken",
    "Verif.XSync.Spinlock.C117_over",
    "Verif.XSync.Spinlock.C117_ends_partial",
    "Verif.XSync.Spinlock.C117_all_over",
    "Verif.XSync.Spinlock.C117_unfair_refuted"
   ],
   "note": "Refuted: an infinite fair execution in which a Lock is overtaken by every later session. Proved: this is the only way to starve; with finitely many sessions every fair execution ends with all sessions over, which needs fairness (C117_unfair_refuted)."
  },
  {
   "property": "C118",
   "status": "proved",
   "theorems": [
    "Verif.XSync.MapWords.C118_linearizable",
    "Verif.XSync.MapWords.C118_calm",
    "Verif.XSync.MapWords.C118_observed",
    "Verif.XSync.MapWords.C118_panics",
    "Verif.XSync.MapWords.C118_ends",
    "Verif.XSync.MapWords.C118_returns"
   ],
   "note": "The map of C21 with the two words of the atomic.Value of C24, and Clear as an operation that overlaps anything; memory is sequentially consistent although the assignment in Clear is not atomic. Linearizability in the strict sense without ComputeIfPresent, as in C21. That calls can panic is C24."
  },
  {
   "property": "C119",
   "status": "partial",
   "theorems": [
    "Verif.XSync.SharedConc.C119_atomic_refuted",
    "Verif.XSync.SharedConc.C119_effects",
    "Verif.XSync.SharedConc.C119_panics",
    "Verif.XSync.SharedConc.C119_key_partial",
    "Verif.XSync.SharedConc.C119_one_shard_partial",
    "Verif.XSync.SharedConc.C119_ends",
    "Verif.XSync.SharedConc.C119_returns"
   ],
   "note": "Refuted: on a map with two shards a Load finds a key removed by a Clear that has not returned, and a later Load still finds a key of the other shard. What is missing for atomicity is stated exactly by C119_effects: a Clear is one atomic removal per shard, in order. The shards are the maps of C118."
  },
  {
   "property": "C12",
   "status": "proved",
   "theorems": [
    "Verif.XBarrier.C12_read",
    "Verif.XBarrier.C12_late_read",
    "Verif.XBarrier.C11_C12_conservation"
   ],
   "note": ""
  },
  {
   "property": "C120",
   "status": "proved",
   "theorems": [
    "Verif.XMapReduce.C120_cut",
    "Verif.XMapReduce.C120_cut_in_order",
    "Verif.XMapReduce.C120_node",
    "Verif.XMapReduce.C120_no_wait",
    "Verif.XMapReduce.C120_ends",
    "Verif.XMapReduce.C120_complete",
    "Verif.XMapReduce.C120_program",
    "Verif.XMapReduce.C120_all_refuted"
   ],
   "note": "MapStream with a context as a component of the networks of C45, so that the theorems about programs hold for it too. mapFunc returns (C112 is about panics)."
  },
  {
   "property": "C121",
   "status": "proved",
   "theorems": [
    "Verif.XStream.C121_ends",
    "Verif.XStream.C121_shares",
    "Verif.XStream.C121_exactly_once",
    "Verif.XStream.C121_counts",
    "Verif.XStream.C121_foreach",
    "Verif.XStream.C121_whole_refuted"
   ],
   "note": "Readers are single operations and terminal operations; what is called on the result of an operation is another component of the program. Concat, Copy and MapStream as readers of a shared stream are not modelled. An element that a reader only drains (FindFirst, Limit, AnyMach) is part of its share."
  },
  {
   "property": "C122",
   "status": "proved",
   "theorems": [
    "Verif.XMapReduce.C122_multiset",
    "Verif.XMapReduce.C122_order",
    "Verif.XMapReduce.C122_in_order",
    "Verif.XMapReduce.C122_results",
    "Verif.XMapReduce.C122_accepted",
    "Verif.XMapReduce.C122_cut_in_order",
    "Verif.XMapReduce.C122_stops",
    "Verif.XMapReduce.C122_closed_once",
    "Verif.XMapReduce.C122_all_finished",
    "Verif.XMapReduce.C122_finite",
    "Verif.XMapReduce.C122_progress",
    "Verif.XMapReduce.C122_cancel_closes",
    "Verif.XMapReduce.C122_lists"
   ],
   "note": "mapFunc is any terminating program that chooses its next Write by the results of its earlier ones; it returns (C112 is about panics)."
  },
  {
   "property": "C123",
   "status": "partial",
   "theorems": [
    "Verif.XSync.MapConc.C123_map_history",
    "Verif.XSync.MapConc.C123_map_range",
    "Verif.XSync.MapConc.C123_map_ends",
    "Verif.XSync.MapConc.C123_map_returns_partial",
    "Verif.XSync.MapConc.C123_computeIfAbsent_refuted",
    "Verif.XSync.MapConc.C123_computeIfPresent_refuted",
    "Verif.XSync.SharedConc.C123_shared_history",
    "Verif.XSync.SharedConc.C123_shared_linearizable",
    "Verif.XSync.SharedConc.C123_shared_ends",
    "Verif.XSync.SharedConc.C123_shared_returns_partial",
    "Verif.XSync.SharedConc.C123_shared_same_refuted",
    "Verif.XSync.SharedConc.C123_shared_cross_refuted"
   ],
   "note": "Refuted for functions of ComputeIfAbsent and ComputeIfPresent. Proved: all calls return if only functions of Range make calls, or (SharedMap) if compute functions go up in an order of the shards. What a function returns is an arbitrary choice, so it may depend on the results of its calls. Without Clear; functions do not panic (C124)."
  },
  {
   "property": "C124",
   "status": "partial",
   "theorems": [
    "Verif.XSync.MapConc.C124_map_history",
    "Verif.XSync.MapConc.C124_map_effects",
    "Verif.XSync.MapConc.C124_map_strict",
    "Verif.XSync.MapConc.C124_map_ends",
    "Verif.XSync.MapConc.C124_map_returns_partial",
    "Verif.XSync.MapConc.C124_computeIfAbsent_refuted",
    "Verif.XSync.MapConc.C124_computeIfPresent_refuted",
    "Verif.XSync.SharedConc.C124_shared_history",
    "Verif.XSync.SharedConc.C124_shared_effects",
    "Verif.XSync.SharedConc.C124_shared_ends",
    "Verif.XSync.SharedConc.C124_shared_returns_partial",
    "Verif.XSync.SharedConc.C124_shared_refuted"
   ],
   "note": "Refuted for functions of ComputeIfAbsent and ComputeIfPresent: after the panic no call returns any more. Proved: panicked calls have no effect, executions end, and calls return that do not need a mutex left locked by a panic. Without Clear; user functions do not call the map (C123)."
  },
  {
   "property": "C125",
   "status": "partial",
   "theorems": [
    "Verif.XWorker.C125_worker",
    "Verif.XWorker.C125_no_crash",
    "Verif.XWorker.C125_made",
    "Verif.XWorker.C125_apart",
    "Verif.XWorker.C125_joined",
    "Verif.XWorker.C125_ends",
    "Verif.XWorker.C125_exact",
    "Verif.XWorker.C125_over_partial",
    "Verif.XWorker.C125_cancelled",
    "Verif.XWorker.C125_crowd_refuted",
    "Verif.XWorker.C125_deep_refuted"
   ],
   "note": "Refuted without a condition, for every size of the worker. Proved: how executions end (C125_exact), and that all calls are over if fewer functions that call Run are executing than there are slots, or if all contexts are done. Functions do not panic, deferFunc is not nil and makes no calls (deferFuncs that do: C144; both: C145; with panics: C146)."
  },
  {
   "property": "C126",
   "status": "partial",
   "theorems": [
    "Verif.XError.Heap.C126_values_partial",
    "Verif.XError.Heap.C126_stable_partial",
    "Verif.XError.Heap.C126_no_copy",
    "Verif.XError.Heap.C126_stable_refuted"
   ],
   "note": "Refuted for a BatchError that is copied and of which both copies are added to; proved if after a copy errors are added to one of the two only, in particular without copies. One goroutine."
  },
  {
   "property": "C127",
   "status": "partial",
   "theorems": [
    "Verif.XStream.Heap.C127_split",
    "Verif.XStream.Heap.C127_merge",
    "Verif.XStream.Heap.C127_group",
    "Verif.XStream.Heap.C127_apart",
    "Verif.XStream.Heap.C127_kept",
    "Verif.XStream.Heap.C127_value",
    "Verif.XStream.Heap.C127_of_partial",
    "Verif.XStream.Heap.C127_of_exact",
    "Verif.XStream.Heap.C127_map_exact",
    "Verif.XStream.Heap.C127_copy_refuted",
    "Verif.XStream.Heap.C127_of_refuted",
    "Verif.XStream.Heap.C127_map_refuted"
   ],
   "note": "Proved for Split, Merge and Group with one consumer. Refuted for the slices that Copy hands to several consumers, for Of called with a slice that is changed too early, and for the map of the collector; C127_of_exact and C127_map_exact say what happens then."
  },
  {
   "property": "C128",
   "status": "partial",
   "theorems": [
    "Verif.XSync.ResManMem.C128_no_wait_partial",
    "Verif.XSync.ResManMem.C128_slow_create_partial",
    "Verif.XSync.ResManMem.C128_slow_close_refuted"
   ],
   "note": "Refuted for slow Close methods of resources. Proved for create, if no Get has panicked (after a Close, C32). Together with C113_resman_ends: the other calls make only finitely many steps."
  },
  {
   "property": "C129",
   "status": "proved",
   "theorems": [
    "Verif.XSync.SharedConc.C129_waits",
    "Verif.XSync.SharedConc.C129_slow"
   ],
   "note": "Model of C87; together with C115 (finitely many steps). User functions do not call the map (C123) and do not panic (C124)."
  },
  {
   "property": "C13",
   "status": "partial",
   "theorems": [
    "Verif.XWorker.C13_bound_partial",
    "Verif.XWorker.C13_bound_not_cancelled",
    "Verif.XWorker.C13_bound_refuted",
    "Verif.XWorker.C13_unbounded_refuted"
   ],
   "note": "False under cancellation (refuted: the slot is given back while the function still runs). Proved: the bound holds for functions whose context is not done, hence for executions without cancellation."
  },
  {
   "property": "C130",
   "status": "proved",
   "theorems": [
    "Verif.XRing.Heap.C130_own",
    "Verif.XRing.Heap.C130_kept"
   ],
   "note": "Up to 2^63-1 Adds (C01). One goroutine; concurrent calls: C02."
  },
  {
   "property": "C131",
   "status": "proved",
   "theorems": [
    "Verif.XSync.MapConc.C131_panics",
    "Verif.XSync.MapConc.C131_history",
    "Verif.XSync.MapConc.C131_effects",
    "Verif.XSync.MapConc.C131_lock",
    "Verif.XSync.MapConc.C131_ends",
    "Verif.XSync.MapConc.C131_returns"
   ],
   "note": "User functions do not panic (C124) and do not call the map (C123); without Clear. Keys of SharedMap and ResourceManager are strings."
  },
  {
   "property": "C132",
   "status": "proved",
   "theorems": [
    "Verif.XSync.MapConc.C132_no_wait",
    "Verif.XSync.MapConc.C132_slow",
    "Verif.XSync.MapConc.C132_load_steps",
    "Verif.XSync.MapConc.C132_needed"
   ],
   "note": "Without Clear; user functions do not call the map (C123) and do not panic (C124). C132_slow together with C115: the calls make only finitely many steps."
  },
  {
   "property": "C133",
   "status": "proved",
   "theorems": [
    "Verif.XStream.C133_ends",
    "Verif.XStream.C133_left",
    "Verif.XStream.C133_nothing",
    "Verif.XStream.C133_distinct"
   ],
   "note": "Programs of C101: a panicked operation of these kinds does not receive any more. A channel is never closed after the end of the execution, so what is left then is left for ever."
  },
  {
   "property": "C134",
   "status": "proved",
   "theorems": [
    "Verif.XSync.MapConc.C134_map_history",
    "Verif.XSync.MapConc.C134_map_effects",
    "Verif.XSync.MapConc.C134_map_ends",
    "Verif.XSync.MapConc.C134_map_returns",
    "Verif.XSync.SharedConc.C134_shared_history",
    "Verif.XSync.SharedConc.C134_shared_effects",
    "Verif.XSync.SharedConc.C134_shared_ends",
    "Verif.XSync.SharedConc.C134_shared_returns"
   ],
   "note": "Combines C123 and C124, where the cases outside the conditions are refuted. Without Clear."
  },
  {
   "property": "C135",
   "status": "proved",
   "theorems": [
    "Verif.XMapReduce.C135_output",
    "Verif.XMapReduce.C135_same",
    "Verif.XMapReduce.C135_finite",
    "Verif.XMapReduce.C135_nothing_left"
   ],
   "note": "The remedy to the refuted C79. mapFunc neither panics (C112) nor hangs."
  },
  {
   "property": "C136",
   "status": "proved",
   "theorems": [
    "Verif.XMapReduce.C136_output",
    "Verif.XMapReduce.C136_open",
    "Verif.XMapReduce.C136_finite",
    "Verif.XMapReduce.C136_end",
    "Verif.XMapReduce.C136_cancelled"
   ],
   "note": "Consequence of the refuted part of C77 for Map. mapFunc does not panic (C112)."
  },
  {
   "property": "C137",
   "status": "proved",
   "theorems": [
    "Verif.XMapReduce.C137_comes_to_rest",
    "Verif.XMapReduce.C137_fits",
    "Verif.XMapReduce.C137_too_many",
    "Verif.XMapReduce.C137_cancelled",
    "Verif.XMapReduce.C137_watching"
   ],
   "note": "That executions are finite is C17_finite. A mapFunc that waits in Write when the context becomes done is freed by the panic of its send when the output is closed (C16). mapFunc itself neither panics (C112) nor hangs."
  },
  {
   "property": "C138",
   "status": "partial",
   "theorems": [
    "Verif.XSync.SpinlockFree.C138_linearizable",
    "Verif.XSync.SpinlockFree.C138_one_per_unlock",
    "Verif.XSync.SpinlockFree.C138_no_waiting",
    "Verif.XSync.SpinlockFree.C138_unlock_lets_in",
    "Verif.XSync.SpinlockFree.C138_owner_refuted"
   ],
   "note": "Refuted: the last sentence, if a third goroutine calls Unlock (C28 is the positive statement, for goroutines that unlock only what they have locked). All the rest is proved."
  },
  {
   "property": "C139",
   "status": "partial",
   "theorems": [
    "Verif.XSync.MapWords.C139_linearizable_partial",
    "Verif.XSync.MapWords.C139_observed",
    "Verif.XSync.MapWords.C139_panics",
    "Verif.XSync.MapWords.C139_ends",
    "Verif.XSync.MapWords.C139_returns_partial",
    "Verif.XSync.MapWords.C139_clear_refuted"
   ],
   "note": "Extends C123 to Clear and C118 to nested calls. C139_linearizable_partial: histories without ComputeIfPresent, which is not atomic (C22); with it C139_observed. Refuted: that every call returns, if the function of ComputeIfAbsent calls Clear (it waits for the lock of its own call); proved if only functions of Range make calls. A function sees the panic of a call that it has made as a result, that is, it recovers it (C140 has functions that do not)."
  },
  {
   "property": "C14",
   "status": "proved",
   "theorems": [
    "Verif.XWorker.C14_slots",
    "Verif.XWorker.C14_defer_once",
    "Verif.XWorker.C14_cancelled_before",
    "Verif.XWorker.C14_accept_iff",
    "Verif.XWorker.C14_release_never_blocks",
    "Verif.XWorker.C14_newWorker",
    "Verif.XWorker.C14_size_zero"
   ],
   "note": ""
  },
  {
   "property": "C140",
   "status": "partial",
   "theorems": [
    "Verif.XSync.MapWords.C140_linearizable_partial",
    "Verif.XSync.MapWords.C140_observed",
    "Verif.XSync.MapWords.C140_panics",
    "Verif.XSync.MapWords.C140_ends",
    "Verif.XSync.MapWords.C140_returns_partial",
    "Verif.XSync.MapConc.C124_computeIfAbsent_refuted",
    "Verif.XSync.MapWords.C139_clear_refuted"
   ],
   "note": "Joins C118, C123 and C124. C140_linearizable_partial: histories without ComputeIfPresent, which is not atomic (C22); with it C140_observed. Refuted: that every call returns, if functions of ComputeIfAbsent or ComputeIfPresent panic or make calls; proved if only functions of Range do."
  },
  {
   "property": "C141",
   "status": "partial",
   "theorems": [
    "Verif.XSync.SharedConc.C141_effects",
    "Verif.XSync.SharedConc.C141_key_partial",
    "Verif.XSync.SharedConc.C141_panics",
    "Verif.XSync.SharedConc.C141_ends",
    "Verif.XSync.SharedConc.C141_returns_partial",
    "Verif.XSync.SharedConc.C141_clear_refuted",
    "Verif.XSync.SharedConc.C123_shared_cross_refuted"
   ],
   "note": "Extends C119 to nested calls and C123 to Clear. Refuted: that every call returns, if the function of ComputeIfAbsent calls Clear, which waits for the lock of a shard that its own call holds; proved if the functions of ComputeIfAbsent and ComputeIfPresent use only later shards in some order, those of Range may do anything. C141_key_partial: keys without MStore and ComputeIfPresent (for these C141_effects). A function sees the panic of a call that it has made as a result."
  },
  {
   "property": "C142",
   "status": "partial",
   "theorems": [
    "Verif.XSync.SharedConc.C142_effects",
    "Verif.XSync.SharedConc.C142_key_partial",
    "Verif.XSync.SharedConc.C142_panics",
    "Verif.XSync.SharedConc.C142_ends",
    "Verif.XSync.SharedConc.C142_returns_partial",
    "Verif.XSync.SharedConc.C124_shared_refuted",
    "Verif.XSync.SharedConc.C141_clear_refuted"
   ],
   "note": "Joins C119, C123 and C124. Refuted: that every call returns, if functions of ComputeIfAbsent or ComputeIfPresent panic, or use the shard of their own key; proved if only functions of Range panic and the others use later shards only. C142_key_partial: keys without MStore and ComputeIfPresent (for these C142_effects)."
  },
  {
   "property": "C143",
   "status": "proved",
   "theorems": [
    "Verif.XSync.ResManNest.C143_failed",
    "Verif.XSync.ResManNest.C143_got"
   ],
   "note": "Model of C114. For panics read the error type as error or panic value: singleflight (trusted, its source is not in the repository) hands both on in the same way; its wrapping of panic values is left out. Panics of Close methods are in C107 only."
  },
  {
   "property": "C144",
   "status": "partial",
   "theorems": [
    "Verif.XWorker.C144_worker",
    "Verif.XWorker.C144_no_crash",
    "Verif.XWorker.C144_made",
    "Verif.XWorker.C144_apart",
    "Verif.XWorker.C144_joined",
    "Verif.XWorker.C144_ends",
    "Verif.XWorker.C144_exact",
    "Verif.XWorker.C144_over_partial",
    "Verif.XWorker.C144_forever",
    "Verif.XWorker.C144_crowd_refuted"
   ],
   "note": "Refuted without a condition, for every size of the worker, also if all contexts become done. Proved: how executions end (C144_exact), that a jam is for ever (C144_forever), and that all calls are over if fewer deferFuncs that call Run are executing than there are slots. The functions run return and make no calls (these are in C125, both in C145); deferFunc is not nil and does not panic."
  },
  {
   "property": "C145",
   "status": "proved",
   "theorems": [
    "Verif.XWorker.C145_worker",
    "Verif.XWorker.C145_no_crash",
    "Verif.XWorker.C145_made",
    "Verif.XWorker.C145_apart",
    "Verif.XWorker.C145_joined",
    "Verif.XWorker.C145_ends",
    "Verif.XWorker.C145_exact",
    "Verif.XWorker.C145_over",
    "Verif.XWorker.C145_cancelled",
    "Verif.XWorker.C145_mixed",
    "Verif.XWorker.C145_forever",
    "Verif.XWorker.C145_has_C125",
    "Verif.XWorker.C145_has_C144",
    "Verif.XWorker.C145_inside",
    "Verif.XWorker.C145_taken"
   ],
   "note": "Functions do not panic (those that do: C146) and deferFunc is not nil. The executions of C125 and C144 are among those of C145 (C145_has_C125, C145_has_C144). C145_mixed is a reachable state of a worker of size 2 that is held by one run and one deferFunc and cannot go on."
  },
  {
   "property": "C146",
   "status": "proved",
   "theorems": [
    "Verif.XWorker.C146_worker",
    "Verif.XWorker.C146_crash",
    "Verif.XWorker.C146_no_crash",
    "Verif.XWorker.C146_ends",
    "Verif.XWorker.C146_exact",
    "Verif.XWorker.C146_over",
    "Verif.XWorker.C146_cancelled",
    "Verif.XWorker.C146_has_C145",
    "Verif.XWorker.C146_lost",
    "Verif.XWorker.C146_panic",
    "Verif.XWorker.C146_inside",
    "Verif.XWorker.C146_taken",
    "Verif.XWorker.C146_made",
    "Verif.XWorker.C146_apart",
    "Verif.XWorker.C146_joined",
    "Verif.XWorker.C146_forever",
    "Verif.XWorker.C146_held"
   ],
   "note": "deferFunc is not nil and functions do not end with runtime.Goexit (C77). C146_lost and C146_panic are reachable states in which a run that has called Run has panicked: unseen, and with the program ended. The executions of C145 are among those of C146 (C146_has_C145)."
  },
  {
   "property": "C15",
   "status": "proved",
   "theorems": [
    "Verif.XMapReduce.C15_multiset",
    "Verif.XMapReduce.C15_no_duplicates",
    "Verif.XMapReduce.C15_writes_succeed"
   ],
   "note": "The consumer, all worker goroutines, Do and Write are modelled; mapFunc is the list of its writes."
  },
  {
   "property": "C16",
   "status": "partial",
   "theorems": [
    "Verif.XMapReduce.C16_closed_once",
    "Verif.XMapReduce.C16_all_finished_partial",
    "Verif.XMapReduce.C16_cancel_refuted"
   ],
   "note": "Closed at most once: proved always. Closed only after all mappings: proved without cancellation, false with cancellation (refuted: a running mapping then sends on the closed channel and panics inside Do)."
  },
  {
   "property": "C17",
   "status": "proved",
   "theorems": [
    "Verif.XMapReduce.C17_finite",
    "Verif.XMapReduce.C17_progress",
    "Verif.XMapReduce.C17_size_zero",
    "Verif.XMapReduce.C17_options"
   ],
   "note": "Explicit bound on the number of steps of every execution plus absence of stuck states."
  },
  {
   "property": "C18",
   "status": "proved",
   "theorems": [
    "Verif.XSync.Map.C18_ordinary_map"
   ],
   "note": "sequential refinement to a partial function, all operations incl. Range and Clear, user functions arbitrary; panics are none in the model and excluded"
  },
  {
   "property": "C19",
   "status": "proved",
   "theorems": [
    "Verif.XSync.Map.C19_range"
   ],
   "note": ""
  },
  {
   "property": "C20",
   "status": "proved",
   "theorems": [
    "Verif.XSync.Map.C20_absent",
    "Verif.XSync.Map.C20_present"
   ],
   "note": ""
  },
  {
   "property": "C21",
   "status": "proved",
   "theorems": [
    "Verif.XSync.MapConc.C21_linearizable"
   ],
   "note": "Every interleaving of single atomic loads, stores and compare-and-swaps of any number of calls (sequentially consistent, as Go's atomics are); accesses to dirty and misses are protected by the lock. Range may take part; Clear is treated in C24."
  },
  {
   "property": "C22",
   "status": "partial",
   "theorems": [
    "Verif.XSync.MapConc.C22_lost_update_refuted",
    "Verif.XSync.MapConc.C22_computeIfPresent_partial"
   ],
   "note": "False of the code: the function is applied once and the compare-and-swap is retried with the old result, so one of two concurrent increments can be lost. Proved: histories are linearizable if the replaced value may be another one; the argument of the function was the value of the key at an instant of the call, and it is the replaced value if no other writer of the key is concurrent."
  },
  {
   "property": "C23",
   "status": "proved",
   "theorems": [
    "Verif.XSync.MapConc.C23_range",
    "Verif.XSync.MapConc.C23_range_stops"
   ],
   "note": ""
  },
  {
   "property": "C24",
   "status": "partial",
   "theorems": [
    "Verif.XSync.MapClear.C24_clear_panics_refuted",
    "Verif.XSync.MapClear.C24_clear_panics_partial",
    "Verif.XSync.MapWords.C118_panics"
   ],
   "note": "False of the code: Clear overwrites the two words of the atomic.Value with a plain assignment, so that a concurrent operation can find the type word set and the data word nil and panics. Proved: an access to the read map panics only if a Clear overlaps it; C118_panics extends this to all calls of the full map."
  },
  {
   "property": "C25",
   "status": "proved",
   "theorems": [
    "Verif.XSync.Shared.C25_ordinary_map"
   ],
   "note": "for requested counts 1..2^31"
  },
  {
   "property": "C26",
   "status": "proved",
   "theorems": [
    "Verif.XSync.Shared.C26_shards",
    "Verif.XSync.Shared.C26_count",
    "Verif.XSync.Shared.C26_new",
    "Verif.XSync.Shared.C26_index",
    "Verif.XSync.Shared.C26_option"
   ],
   "note": ""
  },
  {
   "property": "C27",
   "status": "proved",
   "theorems": [
    "Verif.XSync.Shared.C27_range"
   ],
   "note": ""
  },
  {
   "property": "C28",
   "status": "proved",
   "theorems": [
    "Verif.XSync.Spinlock.C28_mutual_exclusion"
   ],
   "note": "Each compare-and-swap / store of the lock word is one atomic step."
  },
  {
   "property": "C29",
   "status": "proved",
   "theorems": [
    "Verif.XSync.Spinlock.C29_attempt_exact",
    "Verif.XSync.Spinlock.C29_tryLock_result",
    "Verif.XSync.Spinlock.C29_backoff"
   ],
   "note": ""
  },
  {
   "property": "C30",
   "status": "partial",
   "theorems": [
    "Verif.XSync.ResMan.C30_create_once",
    "Verif.XSync.ResMan.C30_removed_by",
    "Verif.XSync.ResMan.C30_got",
    "Verif.XSync.ResMan.C30_same",
    "Verif.XSync.ResMan.C30_error_partial",
    "Verif.XSync.ResMan.C30_error_refuted"
   ],
   "note": "All interleavings of any number of calls. At most one successful create between removals and one shared resource are proved. 'A failed create is not remembered' is false in a window (C30_error_refuted: a Get made after another Get has returned the error still joins the old flight); proved instead: an error is never older than the Get call that ran into it. With Removes, the 'same resource' clause is subject to C81. C30_create_once and C30_same are about managers that are not closed (a Get after Close creates its resource and then panics)."
  },
  {
   "property": "C31",
   "status": "proved",
   "theorems": [
    "Verif.XSync.ResMan.C31_close"
   ],
   "note": "Proved for concurrent histories, not only sequential ones; any iteration order of the map."
  },
  {
   "property": "C32",
   "status": "partial",
   "theorems": [
    "Verif.XSync.ResMan.C32_after_close_refuted",
    "Verif.XSync.ResMan.C32_panic_partial",
    "Verif.XSync.ResMan.C32_no_deadlock_partial",
    "Verif.XSync.ResMan.C32_ends",
    "Verif.XSync.ResMan.C107_locked",
    "Verif.XSync.ResMan.C32_returns_partial",
    "Verif.XSync.ResManMem.C113_resman_ends",
    "Verif.XSync.ResManMem.C113_resman_no_deadlock_partial",
    "Verif.XSync.ResManMem.C113_resman_returns_partial"
   ],
   "note": "False of the code: Get with a successful create after Close assigns to a nil map and panics with the lock held, later calls dead-lock. Proved: only after a Close call can Get panic; without new calls every execution ends, whatever the schedule, and if no Get has panicked every call has returned at the end. The same with single accesses as steps (model of C113)."
  },
  {
   "property": "C33",
   "status": "proved",
   "theorems": [
    "Verif.XBytes.C33_malloc",
    "Verif.XBytes.C33_mallocSize"
   ],
   "note": ""
  },
  {
   "property": "C34",
   "status": "proved",
   "theorems": [
    "Verif.XBytes.C34_live_disjoint",
    "Verif.XBytes.C34_double_free_aliases"
   ],
   "note": "C34_double_free_aliases shows that the ownership discipline is needed."
  },
  {
   "property": "C35",
   "status": "partial",
   "theorems": [
    "Verif.XMath.C35_exact_partial",
    "Verif.XMath.C35_iff",
    "Verif.XMath.C35_iff_amd64",
    "Verif.XMath.C35_relative_error_partial",
    "Verif.XMath.C35_commutative",
    "Verif.XMath.C35_maxInt_refuted",
    "Verif.XMath.C35_maxInt_wrong_sign_refuted"
   ],
   "note": "Property false beyond 2^53 (refuted); exact within ±2^53, relative error 2^-53 elsewhere; on amd64 right if and only if the true answer has at most 53 significant bits."
  },
  {
   "property": "C36",
   "status": "proved",
   "theorems": [
    "Verif.XMath.C36_maxFloat64",
    "Verif.XMath.C36_minFloat64",
    "Verif.XMath.C36_commutative64",
    "Verif.XMath.C36_maxFloat32",
    "Verif.XMath.C36_minFloat32",
    "Verif.XMath.C36_commutative32"
   ],
   "note": ""
  },
  {
   "property": "C37",
   "status": "partial",
   "theorems": [
    "Verif.XBinary.C37_roundtrip",
    "Verif.XBinary.C37_big_endian",
    "Verif.XBinary.C37_write",
    "Verif.XBinary.C37_chunked_refuted",
    "Verif.XBinary.C37_dataErr_refuted"
   ],
   "note": "Proved for readers that deliver what they have (bytes.Buffer etc.); false for readers that split the value, and for readers that return io.EOF together with the last bytes (both refuted)."
  },
  {
   "property": "C38",
   "status": "partial",
   "theorems": [
    "Verif.XBinary.C38_write",
    "Verif.XBinary.C38_roundtrip_partial",
    "Verif.XBinary.C38_sound",
    "Verif.XBinary.C38_long_refuted"
   ],
   "note": "Proved below 65536 bytes; false for every longer slice (refuted)."
  },
  {
   "property": "C39",
   "status": "proved",
   "theorems": [
    "Verif.XBinary.C39_sequences"
   ],
   "note": "Byte slices shorter than 65536; in-memory reader."
  },
  {
   "property": "C40",
   "status": "partial",
   "theorems": [
    "Verif.XBinary.C40_truncated_partial",
    "Verif.XBinary.C40_bytes",
    "Verif.XBinary.C40_bool_partial",
    "Verif.XBinary.C40_bool_refuted"
   ],
   "note": "Integers: every chunking. Byte strings: error or no return for every chunking, error for readers that make progress. ReadBool: false for readers returning (0, nil) (refuted), proved otherwise."
  },
  {
   "property": "C41",
   "status": "partial",
   "theorems": [
    "Verif.XIO.C41_reader_partial",
    "Verif.XIO.C41_read",
    "Verif.XIO.C41_wrap_refuted"
   ],
   "note": "Proved for sources that are not themselves a *bufio.Reader; false for those (refuted): the wrapped reader itself ends up in the pool."
  },
  {
   "property": "C42",
   "status": "proved",
   "theorems": [
    "Verif.XIO.C42_writer",
    "Verif.XIO.C42_flush"
   ],
   "note": "Destinations that are not themselves a *bufio.Writer; for those see C97 and C98."
  },
  {
   "property": "C43",
   "status": "proved",
   "theorems": [
    "Verif.XStream.C43_order_preserving",
    "Verif.XStream.C43_nodes",
    "Verif.XStream.C43_pipeline"
   ],
   "note": "Theorems range over all networks of stream nodes (sources, operations, Concat, Copy, terminals) and all interleavings; channels carry fewer than 2^63 values (FewValues, derived from the source sizes by program_few, concatNet_few, copyNet_few). User functions do not panic; sort.Slice and map iteration are assumed to meet their contracts."
  },
  {
   "property": "C44",
   "status": "proved",
   "theorems": [
    "Verif.XStream.C44_close_once"
   ],
   "note": "Theorems range over all networks of stream nodes (sources, operations, Concat, Copy, terminals) and all interleavings; channels carry fewer than 2^63 values (FewValues, derived from the source sizes by program_few, concatNet_few, copyNet_few). User functions do not panic; sort.Slice and map iteration are assumed to meet their contracts."
  },
  {
   "property": "C45",
   "status": "proved",
   "theorems": [
    "Verif.XStream.C45_no_deadlock"
   ],
   "note": "Theorems range over all networks of stream nodes (sources, operations, Concat, Copy, terminals) and all interleavings; channels carry fewer than 2^63 values (FewValues, derived from the source sizes by program_few, concatNet_few, copyNet_few). User functions do not panic; sort.Slice and map iteration are assumed to meet their contracts."
  },
  {
   "property": "C46",
   "status": "proved",
   "theorems": [
    "Verif.XStream.C46_distinct",
    "Verif.XStream.C46_first_per_key"
   ],
   "note": "Theorems range over all networks of stream nodes (sources, operations, Concat, Copy, terminals) and all interleavings; channels carry fewer than 2^63 values (FewValues, derived from the source sizes by program_few, concatNet_few, copyNet_few). User functions do not panic; sort.Slice and map iteration are assumed to meet their contracts."
  },
  {
   "property": "C47",
   "status": "proved",
   "theorems": [
    "Verif.XStream.C47_split",
    "Verif.XStream.C47_chunks",
    "Verif.XStream.C83_panics"
   ],
   "note": "Theorems range over all networks of stream nodes (sources, operations, Concat, Copy, terminals) and all interleavings; channels carry fewer than 2^63 values (FewValues, derived from the source sizes by program_few, concatNet_few, copyNet_few). User functions do not panic; sort.Slice and map iteration are assumed to meet their contracts."
  },
  {
   "property": "C48",
   "status": "proved",
   "theorems": [
    "Verif.XStream.C48_sort",
    "Verif.XStream.C48_witness"
   ],
   "note": "Theorems range over all networks of stream nodes (sources, operations, Concat, Copy, terminals) and all interleavings; channels carry fewer than 2^63 values (FewValues, derived from the source sizes by program_few, concatNet_few, copyNet_few). User functions do not panic; sort.Slice and map iteration are assumed to meet their contracts."
  },
  {
   "property": "C49",
   "status": "proved",
   "theorems": [
    "Verif.XStream.C49_walk",
    "Verif.XStream.C44_close_once"
   ],
   "note": "Theorems range over all networks of stream nodes (sources, operations, Concat, Copy, terminals) and all interleavings; channels carry fewer than 2^63 values (FewValues, derived from the source sizes by program_few, concatNet_few, copyNet_few). User functions do not panic; sort.Slice and map iteration are assumed to meet their contracts. ParallelFinish is the Walk of a function that sends nothing followed by Done."
  },
  {
   "property": "C50",
   "status": "proved",
   "theorems": [
    "Verif.XStream.C50_in_order",
    "Verif.XStream.C50_options"
   ],
   "note": "Theorems range over all networks of stream nodes (sources, operations, Concat, Copy, terminals) and all interleavings; channels carry fewer than 2^63 values (FewValues, derived from the source sizes by program_few, concatNet_few, copyNet_few). User functions do not panic; sort.Slice and map iteration are assumed to meet their contracts."
  },
  {
   "property": "C51",
   "status": "proved",
   "theorems": [
    "Verif.XStream.C51_concat",
    "Verif.XStream.C51_concat_program"
   ],
   "note": "Theorems range over all networks of stream nodes (sources, operations, Concat, Copy, terminals) and all interleavings; channels carry fewer than 2^63 values (FewValues, derived from the source sizes by program_few, concatNet_few, copyNet_few). User functions do not panic; sort.Slice and map iteration are assumed to meet their contracts."
  },
  {
   "property": "C52",
   "status": "proved",
   "theorems": [
    "Verif.XStream.C52_copy",
    "Verif.XStream.C52_channels"
   ],
   "note": "Theorems range over all networks of stream nodes (sources, operations, Concat, Copy, terminals) and all interleavings; channels carry fewer than 2^63 values (FewValues, derived from the source sizes by program_few, concatNet_few, copyNet_few). User functions do not panic; sort.Slice and map iteration are assumed to meet their contracts."
  },
  {
   "property": "C53",
   "status": "proved",
   "theorems": [
    "Verif.XStream.C53_group",
    "Verif.XStream.C53_group_by",
    "Verif.XStream.C53_map_again"
   ],
   "note": "Theorems range over all networks of stream nodes (sources, operations, Concat, Copy, terminals) and all interleavings; channels carry fewer than 2^63 values (FewValues, derived from the source sizes by program_few, concatNet_few, copyNet_few). User functions do not panic; sort.Slice and map iteration are assumed to meet their contracts."
  },
  {
   "property": "C54",
   "status": "proved",
   "theorems": [
    "Verif.XStream.C54_terminals",
    "Verif.XStream.C43_pipeline"
   ],
   "note": "Theorems range over all networks of stream nodes (sources, operations, Concat, Copy, terminals) and all interleavings; channels carry fewer than 2^63 values (FewValues, derived from the source sizes by program_few, concatNet_few, copyNet_few). User functions do not panic; sort.Slice and map iteration are assumed to meet their contracts."
  },
  {
   "property": "C55",
   "status": "proved",
   "theorems": [
    "Verif.XString.C55_sub",
    "Verif.XString.C55_sub_get",
    "Verif.XString.C55_left_right",
    "Verif.XString.C55_sub_valid"
   ],
   "note": ""
  },
  {
   "property": "C56",
   "status": "proved",
   "theorems": [
    "Verif.XString.C56_padLeft",
    "Verif.XString.C56_padRight",
    "Verif.XString.C56_padCenter",
    "Verif.XString.C56_width",
    "Verif.XString.C56_space"
   ],
   "note": ""
  },
  {
   "property": "C57",
   "status": "partial",
   "theorems": [
    "Verif.XString.C57_reverse_exact",
    "Verif.XString.C57_reverse_partial",
    "Verif.XString.C57_invalid_reported",
    "Verif.XString.C57_reverse_refuted"
   ],
   "note": "Reverse fails on valid strings containing U+FFFD (refuted); proved for all other valid strings."
  },
  {
   "property": "C58",
   "status": "partial",
   "theorems": [
    "Verif.XString.C58_is_rotation",
    "Verif.XString.C58_rotate_single_byte_partial",
    "Verif.XString.C58_rotate_small_shift_partial",
    "Verif.XString.C58_exact",
    "Verif.XString.C58_rotate_refuted"
   ],
   "note": "The shift is taken modulo the byte length; false for multi-byte text, proved for single-byte text and small shifts, and what the function does instead is stated exactly (C58_exact)."
  },
  {
   "property": "C59",
   "status": "partial",
   "theorems": [
    "Verif.XString.C59_removeChar",
    "Verif.XString.C59_deleteWhitespace_cases",
    "Verif.XString.C59_deleteWhitespace_ascii_partial",
    "Verif.XString.C59_exact",
    "Verif.XString.C59_deleteWhitespace_refuted"
   ],
   "note": "RemoveChar fully proved. DeleteWhitespace compares a byte count with a character count and returns the input unchanged whenever the two happen to agree (refuted); C59_exact says exactly for which texts it is right."
  },
  {
   "property": "C60",
   "status": "partial",
   "theorems": [
    "Verif.XString.C60_commonPrefix_partial",
    "Verif.XString.C60_capped",
    "Verif.XString.C60_huge_refuted"
   ],
   "note": "Proved for strings of up to 2^53 characters unless all agree on the first 2^33-1 characters and are longer; then a prefix of that length comes out (C60_capped, refutation)."
  },
  {
   "property": "C61",
   "status": "partial",
   "theorems": [
    "Verif.XString.C61_indexOfDifference_partial",
    "Verif.XString.C61_exact",
    "Verif.XString.C61_indexOfDifferenceTwo",
    "Verif.XString.C61_difference",
    "Verif.XString.C61_huge_refuted"
   ],
   "note": "Two-string versions proved without bound; the variadic one for strings of at most 2^33-1 characters, false beyond (refuted); C61_exact says what it returns for up to 2^53 characters."
  },
  {
   "property": "C62",
   "status": "proved",
   "theorems": [
    "Verif.XString.C62_regionMatches",
    "Verif.XString.C62_containsIgnoreCase"
   ],
   "note": ""
  },
  {
   "property": "C63",
   "status": "partial",
   "theorems": [
    "Verif.XString.C63_equalsIgnoreCase_exact",
    "Verif.XString.C63_equalsIgnoreCase_partial",
    "Verif.XString.C63_equalsIgnoreCase_refuted"
   ],
   "note": "Only a prefix is compared (refuted); exact behaviour proved; holds for equal lengths."
  },
  {
   "property": "C64",
   "status": "proved",
   "theorems": [
    "Verif.XString.C64_endsWith",
    "Verif.XString.C64_endsWithCase",
    "Verif.XString.C64_endsWithCase_valid",
    "Verif.XString.C64_endsWithAny"
   ],
   "note": ""
  },
  {
   "property": "C65",
   "status": "partial",
   "theorems": [
    "Verif.XString.C65_fits",
    "Verif.XString.C65_error",
    "Verif.XString.C65_error_small",
    "Verif.XString.C65_width_partial",
    "Verif.XString.C65_near_end",
    "Verif.XString.C65_width_exact",
    "Verif.XString.C65_width_refuted",
    "Verif.XString.C65_negative_offset_overflow",
    "Verif.XString.abbreviate_total"
   ],
   "note": "Offsets near the end of a long text exceed the width (refuted); proved in the remaining cases, and C65_width_exact says exactly when the width is kept."
  },
  {
   "property": "C66",
   "status": "partial",
   "theorems": [
    "Verif.XString.Joiner.C66_exact",
    "Verif.XString.Joiner.C66_joined_partial",
    "Verif.XString.Joiner.C66_grow_refuted",
    "Verif.XString.Joiner.C66_reset_refuted",
    "Verif.XString.Joiner.C66_no_panic",
    "Verif.XString.Joiner.C66_counts"
   ],
   "note": "Exact output for every call sequence; equals the joined text for joiners used without Grow/Reset in the middle; false with them (refuted)."
  },
  {
   "property": "C67",
   "status": "proved",
   "theorems": [
    "Verif.XString.Joiner.C67_len_cap",
    "Verif.XString.Joiner.C67_grow_room"
   ],
   "note": ""
  },
  {
   "property": "C68",
   "status": "proved",
   "theorems": [
    "Verif.XString.C68_shuffle_perm"
   ],
   "note": ""
  },
  {
   "property": "C69",
   "status": "proved",
   "theorems": [
    "Verif.XString.C69_classes",
    "Verif.XString.C69_variants",
    "Verif.XString.C69_equalsAny",
    "Verif.XString.C69_defaults"
   ],
   "note": ""
  },
  {
   "property": "C70",
   "status": "partial",
   "theorems": [
    "Verif.XString.C70_language",
    "Verif.XString.C70_isNumerical_partial",
    "Verif.XString.C70_isNumerical_refuted"
   ],
   "note": "The regexp's dot is unescaped (refuted); exact language proved."
  },
  {
   "property": "C71",
   "status": "proved",
   "theorems": [
    "Verif.XString.C71_removeString",
    "Verif.XString.C71_unchanged_iff",
    "Verif.XString.C71_not_repeated",
    "Verif.XString.C71_contains",
    "Verif.XString.C71_containsAny"
   ],
   "note": ""
  },
  {
   "property": "C72",
   "status": "proved",
   "theorems": [
    "Verif.XString.C72_roundtrip",
    "Verif.XString.C72_decode_total",
    "Verif.XString.C72_encoder_agrees_with_core"
   ],
   "note": ""
  },
  {
   "property": "C73",
   "status": "proved",
   "theorems": [
    "Verif.XString.C73_trim"
   ],
   "note": ""
  },
  {
   "property": "C74",
   "status": "proved",
   "theorems": [
    "Verif.XBinary.C74_write_errors"
   ],
   "note": ""
  },
  {
   "property": "C75",
   "status": "partial",
   "theorems": [
    "Verif.XIO.C75_size_partial",
    "Verif.XIO.C75_exact",
    "Verif.XIO.C75_size_refuted"
   ],
   "note": "The size is ignored when a pooled reader is reused (refuted); holds with an empty pool."
  },
  {
   "property": "C76",
   "status": "partial",
   "theorems": [
    "Verif.XBarrier.C76_blocked_refuted",
    "Verif.XBarrier.C76_ends",
    "Verif.XBarrier.C76_exact",
    "Verif.XBarrier.C11_late_write",
    "Verif.XBarrier.C12_late_read"
   ],
   "note": "False: the context is looked at only once, before the channel operation (refuted). Proved: calls made after the cancellation return at once; every execution ends, and which calls are then blocked is characterised exactly: the channel alone decides, and no wake-up is lost."
  },
  {
   "property": "C77",
   "status": "partial",
   "theorems": [
    "Verif.XTask.C77_returns_partial",
    "Verif.XTask.C77_ends",
    "Verif.XTask.C77_exact",
    "Verif.XTask.C77_goexit_refuted"
   ],
   "note": "False when do ends with runtime.Goexit (refuted); proved for return, panic and done contexts."
  },
  {
   "property": "C78",
   "status": "partial",
   "theorems": [
    "Verif.XWorker.C78_no_crash_partial",
    "Verif.XWorker.C78_exact",
    "Verif.XWorker.C78_panic_refuted"
   ],
   "note": "False: a panic of run is re-raised in an unprotected goroutine (refuted). Proved exactly: the program ends if and only if a deferFunc panics (a nil one does) or a run panics and its context was not done first."
  },
  {
   "property": "C79",
   "status": "partial",
   "theorems": [
    "Verif.XMapReduce.C79_generator_partial",
    "Verif.XMapReduce.C79_left",
    "Verif.XMapReduce.C79_generator_refuted"
   ],
   "note": "False: the generator goroutine is leaked (refuted for every continuation). Without cancellation the generator ends (C17)."
  },
  {
   "property": "C80",
   "status": "proved",
   "theorems": [
    "Verif.XMapReduce.C80_cancel_closes",
    "Verif.XMapReduce.C17_finite",
    "Verif.XMapReduce.C16_closed_once"
   ],
   "note": ""
  },
  {
   "property": "C81",
   "status": "partial",
   "theorems": [
    "Verif.XSync.ResMan.C81_stale_refuted",
    "Verif.XSync.ResMan.C81_stale_partial",
    "Verif.XSync.ResMan.C81_remBy"
   ],
   "note": "False of the code: a Get can join an older flight that read the map before the Remove. Proved: this is the only way."
  },
  {
   "property": "C82",
   "status": "partial",
   "theorems": [
    "Verif.XSync.Shared.C82_accepted_refuted",
    "Verif.XSync.Shared.C82_accepted_partial",
    "Verif.XSync.Shared.C82_exact"
   ],
   "note": "refuted for counts > 2^31 and negative ones: construction succeeds with zero shards and every keyed operation panics; proved for 1..2^31. C82_exact covers every list of options: only the requested count modulo 2^32 matters."
  },
  {
   "property": "C83",
   "status": "proved",
   "theorems": [
    "Verif.XStream.C83_panics"
   ],
   "note": "Panics at build time only; that the operations that panic leave (or drain) the source is not part of the statement."
  },
  {
   "property": "C84",
   "status": "partial",
   "theorems": [
    "Verif.XStream.C84_independent_refuted",
    "Verif.XStream.C84_ahead",
    "Verif.XStream.C84_exact",
    "Verif.XStream.C84_example",
    "Verif.XStream.C52_copy",
    "Verif.XStream.C110_copy",
    "Verif.XStream.C110_copy_end"
   ],
   "note": "False of the code: while a copy without buffer is not read no other copy gets more than one element (refuted for every source, capacities and schedule). What holds instead: no copy gets further ahead of another one than what that one has received, its buffer, and one; when some consumers stop, what every copy has been sent in the end is determined exactly (C84_exact); when all copies are consumed each gets the whole stream."
  },
  {
   "property": "C85",
   "status": "proved",
   "theorems": [
    "Verif.XSync.MapConc.C85_no_panic",
    "Verif.XSync.MapConc.C85_no_deadlock"
   ],
   "note": "Without Clear (C24)."
  },
  {
   "property": "C86",
   "status": "partial",
   "theorems": [
    "Verif.XSync.MapConc.C86_called_twice_refuted",
    "Verif.XSync.MapConc.C86_present_twice_refuted",
    "Verif.XSync.MapConc.C86_calls_partial",
    "Verif.XSync.MapConc.C86_alone_partial"
   ],
   "note": "False of the code: ComputeIfAbsent and ComputeIfPresent can call their function twice. Proved: at most twice, at most once if the call overlaps no other call, and at least once if the value was stored."
  },
  {
   "property": "C87",
   "status": "proved",
   "theorems": [
    "Verif.XSync.SharedConc.C87_linearizable"
   ],
   "note": "A SharedMap is a client of a family of maps of the model of C21: every call of a shard takes its own atomic steps, interleaved with all others. ComputeIfPresent (false of Map, C22), MStore and Range are covered by C88."
  },
  {
   "property": "C88",
   "status": "proved",
   "theorems": [
    "Verif.XSync.SharedConc.C88_effects",
    "Verif.XSync.SharedConc.C88_mstore_visible",
    "Verif.XSync.SharedConc.C88_range_stops",
    "Verif.XSync.SharedConc.C88_mstore_atomic_refuted"
   ],
   "note": "Explains, RangeOk and PresentOk in SharedConcSpec.lean say what the explanation of a history is. C88_mstore_atomic_refuted records that MStore as a whole is not atomic, which the property does not claim."
  },
  {
   "property": "C89",
   "status": "proved",
   "theorems": [
    "Verif.XSync.SharedConc.C89_no_panic",
    "Verif.XSync.SharedConc.C89_no_deadlock"
   ],
   "note": "Relative to user functions that return; the constructor is assumed to be given a positive shard count (see C26)."
  },
  {
   "property": "C90",
   "status": "proved",
   "theorems": [
    "Verif.XStream.C90_run_ahead",
    "Verif.XStream.C90_no_wait"
   ],
   "note": "The table of sizes is Node.room. For programs in which no channel carries 2^63 values or more."
  },
  {
   "property": "C91",
   "status": "partial",
   "theorems": [
    "Verif.XSync.MapConc.C91_unlocked_partial",
    "Verif.XSync.MapConc.C91_range_partial",
    "Verif.XSync.MapConc.C91_computeIfAbsent_refuted",
    "Verif.XSync.MapConc.C91_computeIfPresent_refuted"
   ],
   "note": "Proved for Range, and for the compute functions when the call does not hold the lock. Refuted for ComputeIfAbsent of a new key and ComputeIfPresent of a key that is only in the dirty map: a nested Load of a third key never returns."
  },
  {
   "property": "C92",
   "status": "proved",
   "theorems": [
    "Verif.XSync.MapMem.C92_no_race",
    "Verif.XSync.MapMem.C92_no_deadlock",
    "Verif.XSync.MapMem.C92_refines",
    "Verif.XSync.MapMem.C92_linearizable",
    "Verif.XSync.MapMem.C92_no_panic",
    "Verif.XSync.MapMem.C92_computeIfPresent",
    "Verif.XSync.MapMem.C92_range",
    "Verif.XSync.MapMem.C92_lost_update_refuted",
    "Verif.XSync.MapMem.C92_writes",
    "Verif.XSync.MapMem.C92_reads"
   ],
   "note": "A second, finer model of map.go: instruction trees that follow the Go text, one memory access per step, maps on a heap. C92_refines: its histories are histories of the model of C21. C92_lost_update_refuted records that the lost update of C22 also happens here. Clear is not included (C24 shows that it races). C92_writes and C92_reads: the list of accesses used in C92_no_race is complete."
  },
  {
   "property": "C93",
   "status": "partial",
   "theorems": [
    "Verif.XBinary.C93_end_partial",
    "Verif.XBinary.C93_number_partial",
    "Verif.XBinary.C93_bytes_partial",
    "Verif.XBinary.C93_eof_refuted"
   ],
   "note": "Which error is returned at every possible end of the data is proved exactly. As a property of EOF it is false: ReadBytes returns io.EOF for a stream that ends directly after a length."
  },
  {
   "property": "C94",
   "status": "proved",
   "theorems": [
    "Verif.XBinary.C94_write_errors"
   ],
   "note": "For every writer that keeps the contract of io.Writer (an error if fewer bytes are accepted)."
  },
  {
   "property": "C95",
   "status": "proved",
   "theorems": [
    "Verif.XSync.MapConc.C95_work",
    "Verif.XSync.MapConc.C95_amortized",
    "Verif.XSync.MapConc.C95_misses",
    "Verif.XSync.MapConc.C95_locks"
   ],
   "note": "Steps of the model of C21 are counted; each takes constant time in Go if a lookup in a built-in map does. ComputeIfPresent of an absent key always takes the lock and is not part of the last claim."
  },
  {
   "property": "C96",
   "status": "proved",
   "theorems": [
    "Verif.XIO.C96_get",
    "Verif.XIO.C96_read",
    "Verif.XIO.C96_session"
   ],
   "note": "Other users keep to their own readers."
  },
  {
   "property": "C97",
   "status": "proved",
   "theorems": [
    "Verif.XIO.C97_get",
    "Verif.XIO.C97_write",
    "Verif.XIO.C97_flush",
    "Verif.XIO.C97_session",
    "Verif.XIO.C97_agrees"
   ],
   "note": "C97_agrees: the model of C42 and this one agree on plain destinations. Other users keep to their own writers."
  },
  {
   "property": "C98",
   "status": "partial",
   "theorems": [
    "Verif.XIO.C98_reader_partial",
    "Verif.XIO.C98_writer_partial",
    "Verif.XIO.C98_reader_refuted",
    "Verif.XIO.C98_writer_refuted",
    "Verif.XIO.C98_reader_exact",
    "Verif.XIO.C98_writer_exact"
   ],
   "note": "False if the pool is empty and own has a big enough buffer: Get returns own itself and Put resets it (refuted). Proved if the reader or writer obtained is another one. The exact theorems say when Get returns own itself, and that own is then of no use after the Put."
  },
  {
   "property": "C99",
   "status": "proved",
   "theorems": [
    "Verif.XBytes.C99_private",
    "Verif.XBytes.C99_no_race",
    "Verif.XBytes.C99_no_wait"
   ],
   "note": "The discipline (no use after Free, no double Free) is built into the programs: they name buffers by handles, which Free takes away. Without it the property is false (C34_double_free_aliases)."
  }
 ]
}