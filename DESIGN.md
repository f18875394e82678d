# Formal model of service-control-client-cxx

Sources: `/repo` (read as text, never built or run).  Tool: Lean 4.33.0; Mathlib is imported one
module at a time and only for lemmas about lists, order and real numbers.

## Layout

* `lean/Verif/Model/*.lean` – the model, one file per C++ translation unit; every definition
  cites the file and lines it models and says what was simplified.
* `lean/Verif/Spec/*.lean` – small independent specifications used in theorem statements:
  histories of calls and quantities computed from histories alone.
* `lean/Verif/Lemmas/*.lean` – invariants and proof support.
* `lean/Verif/Props/*.lean` – the property theorems (`C01_…`), each with a concrete case that
  meets its hypotheses (evaluated by the kernel).
* `lean/Verif/Audit.lean` – prints the axioms of every theorem named in `MANIFEST.json`.
* `tools/` – scripts that write `properties.jsonl`, `MANIFEST.json`, `Audit.lean` and `Verif.lean`.
* `seeded/LOG.jsonl` – mutation experiments on the model (see the last section).

Naming: `Cxx_…` proves (a part of) property `Cxx`; `Cxx_…_partial` proves only the part that holds of
a property that fails in general or in part; `Cxx_false_…` proves the negation with a concrete witness.

## Modelling decisions

General

* Undefined behaviour, failed assertions, use of freed memory, a corrupted list, an empty
  `std::function` being called, self-deadlock and "did not return within the given number of steps" are
  distinct outcomes (`Fault`); functions return `Except Fault α`.  Assertions are checked when
  `Env.dbg` is true and skipped otherwise; theorems hold for both unless they say so.
* `int64`/`int32` are `Int`s with range predicates; a signed addition that leaves the range is
  `Fault.signedOverflow`.  Counters and sizes of the cache (`units_`, pins) and the client's
  statistics are unbounded.  Subtractions of clock readings are exact.
* `double` is an abstract type `D` with a record of operations (`DoubleOps D`) without laws;
  theorems about structure hold for every such record, hence for IEEE doubles.  Numeric theorems
  (C06–C08, C62) are stated for the real-number instance and say nothing about rounding; C99–C105
  are about the IEEE binary64 instance of `Model/Double.lean`: a value is NaN, an infinity or a rational, each operation is
  the exact one followed by rounding to nearest, ties to even, with overflow and subnormals.  The sign of zero is not
  modelled (the code never observes it), and `log2` is a parameter.
* MD5 is an arbitrary function `Bytes → Bytes`; injectivity theorems are about its input, and
  theorems about aggregators that need it assume that no collision occurred among the requests seen.
* `std::unordered_map` iteration order is an arbitrary permutation that depends on the keys and the order
  of their insertion but not on the values (`UMapOrder.natural`, `Env.order`).
* The clock (`gettimeofday`) is an arbitrary function of the number of readings so far; theorems that
  need it assume it is non-decreasing and non-negative (`Mono`).  The conversion of milliseconds to
  cycles by `SetTimeout`, which goes through `double`, is a parameter `cyc` of the configuration; `Ieee.timeoutCycles` models it,
  and C99 and C105 say what it means in milliseconds.
* Protobuf messages are records of the fields the code reads; the rest is one opaque field `rest`, so
  that "other fields are unchanged" is expressible.  Proto maps are association lists.

LRU cache (`Model/LruPointers.lean`, `Model/LruCache.lean`)

* `Model/LruPointers.lean` has the cache as it is in memory: a heap of elements with `next` and `prev`
  fields, the head, `table_` and `defer_` as maps to addresses, and every assignment of `Link`, `Unlink` and
  the operations.  Using a null or deleted element, or deleting twice, is `useAfterFree`.
* `Model/LruCache.lean` has lists instead of the chains.  C83 proves that the two agree for every history
  of calls within the pin protocol and deleters that act on their own state only; the aggregators are built
  on the lists.
* `Model/AggregatorPointers.lean` has the aggregators on the cache with chains, their cached objects on a heap
  with explicit `new` and `delete`.  C107 proves that they agree with the aggregators on the lists, including
  the quota aggregator, whose deleter calls the cache again.

In `Model/LruCache.lean`:

* The hash table and the LRU ring are one list `nodes` in ring order with a `linked` flag; the
  deferred table is a list.  Elements have explicit identities (`id` for the cache's element, `ptr`
  for the value); walking the ring with a saved cursor follows the code, and a cursor to an element that
  is gone is `useAfterFree`.  Linking a linked element or unlinking an unlinked one is `listCorrupt`.
* The deleter is a function on the whole world, so it may call the cache again; the quota aggregator's
  does.  `Env.extraFuel` bounds how much longer a walk may take than the ring was on entry.

Aggregators

* A method runs from acquiring the cache lock to its return; the items it passes to the flush callback
  are part of its result.  The callback's own effects are the client's (`Model/Client.lean`).
* The quota deleter re-inserts entries, which may evict and call the deleter again: the parameter
  `depth` bounds the nesting.  Non-termination is proved as "fails for every `depth`" (C48).

Client (`Model/Client.lean`)

* One operation at a time: calls, completions of transport calls, timer, destruction.  A transport
  completes in place or later, as decided by an arbitrary function `Setup.answer`.  Heap cells are
  explicit, so leaks and uses after free are expressible.  Each aggregator has its own clock, which
  covers a shared one.  User callbacks are recorded and do not call back into the client (they do in
  `Model/Threads.lean`).

Client and threads (`Model/Threads.lean`)

* `Model/ThreadTransports.lean` adds the transport argument of every call and says which transport a request is
  given to; a transport is an argument here, that it is called where the code calls it is read from the code.
* The client used by any number of threads.  A thread is a stack of pieces of code still to be run; a step
  runs the first piece of one thread: one aggregator method under its cache lock (C57 is why this is one step), one
  operation on `callback_mutex_`, one counter access, one call of a function of the user, one `new` or
  `delete`, one part of the timer's function or of the destructor.
* Functions of the user (transports, done callbacks) run for any time, and meanwhile their thread may do
  what any thread may: call the client with or without a done callback, complete any transport call, run the timer's
  function, destroy the client.  So in-place completion and re-entrance are executions of this model.
* The contract: the destruction begins when no call is running, and no call is made after that.  Completions
  and the timer's function may run at any time, as service_control_client_impl.cc:123-129 expects.
* `stops` says whether `Stop` of the timer waits for the function it is calling; the interface does not say.
* Calls without a done callback have explicit promises: a stack frame, a moved-from flag, a value.
* Memory is sequentially consistent.  The aggregators' own memory is not modelled, only who keeps them alive.

Concurrency (`Model/Concurrency.lean`, `Model/ConcurrentAggregators.lean`)

* Interleaving of single lock operations, single accesses to `stack_buffer_` and single steps of the
  code between them, for an arbitrary number of threads and any deterministic program under the lock;
  instantiated with the three aggregators.  Memory is sequentially consistent: the shared data is
  only touched under a mutex (this is what the invariant behind C57 shows), so data-race freedom makes
  this adequate.  Mutexes are not recursive.

Sample transport (`Model/HttpSample.lean`)

* libcurl, serialization and parsing are parameters; the model is the body of the detached thread.

Not modelled: `service_control_client_factory_impl.h` beyond the constructor it calls, logging, status
messages, `utils/thread.h`, `sample/transport/http_sample.cc` (a `main`), tests and mocks, the parts of
`utils/stl_util.h` the library does not use, the LRU cache's
`ResizeTable` and the text of `DebugOutput` and `Summary`, and the generated protobuf code.

## Properties

"Invariant" means an inductive invariant over all call sequences from construction (`Reach`), with no
bound on length or on data.  Exact theorem names and the status are in `MANIFEST.json`.

| Property | Modelled by | Method |
|---|---|---|
| C01 | `Money.validateMoney` | decision logic against a separate predicate `Valid` |
| C02–C04 | `Money.tryAdd`, `saturatedAdd` | value in nanos as one integer; case analysis and `omega`; C03 false (witness) |
| C05, C07 | `Dist.addSample` | induction over the samples; statistics of the list in ℝ |
| C06 | `Dist.bucketIndex` | real-number reasoning per layout; cast of a huge ratio is UB (witness) |
| C08, C09, C62 | `Dist.merge` | algebra of mean/variance in ℝ; frame properties for any doubles |
| C10 | `Dist.initLinear/Exponential/Explicit` | decision tables; three violations with witnesses |
| C11 | `Signature` | permutation invariance of sorted maps and sets |
| C12–C15 | `Signature` | unique parsing of NUL-delimited tokens; C13 ambiguous (witnesses) |
| C16–C22, C63 | `OperationAggregator` | induction over merged operations; refinement to sums, hulls, maxima |
| C23 | `QuotaOperationAggregator` | induction over merged operations |
| C24–C30, C80–C82 | `LruCache` | invariant over call sequences with a ghost history; reachability under the pin protocol; the limit and the eviction mode may be set anew whenever no pins are held (`Reach.again`), the history then starts with the insertion of what is in the cache; the limit alone may be set anew with pins held (`Reach.limit`), which is changing it and then removing what is expired |
| C83 | `LruPointers` on `LruCache` | representation relation (rings, maps, heap) kept by every operation; simulation both ways |
| C31–C37, C66–C69 | `CheckAggregator` on `LruCache` | refinement to a list of entries; invariant relating it to the history |
| C38–C43, C64, C65 | `ReportAggregator` on `LruCache` | conservation invariant; partition of accepted operations into groups |
| C44–C49, C70–C73 | `QuotaAggregator` on `LruCache` | refinement to a map of entries; ledger of tokens; bisimulation (C73); divergence for every depth (C48) |
| C50–C56, C74–C77 | `Client` | invariant over operations and events; books of heap cells, calls and sends |
| C84–C86 | `Client` and the aggregators | what the `Flush` of a tick does to what was there at an earlier moment, from the conservation theorems |
| C57, C58, C78 | `Concurrency` | simulation in lock-acquisition order; lock-order invariant; termination measure |
| C59 | `Client`, `Concurrency` | witness of self-deadlock at both levels; absence without in-place completion |
| C92 | `Threads` | pieces of code never lie above a held lock except harmless ones (shape of every stack); a blocked thread then has nothing pending; termination by a multiset order |
| C95, C96 | `Threads` | the same invariant with what the aggregator may return for a request, then counting (C87) |
| C97 | `Threads` | the histories of the aggregators only grow along a schedule; a function called by the timer has yet to flush the report aggregator or has done so; since a `Flush` no pending group is older than the interval was then |
| C98 | `Threads` | the answers of the three aggregators are, as multisets, those observed in the trace or still in the hands of a thread; the ledger of C35 then gives the conservation; the destructor empties the check aggregator and only `Check` puts operations into it. False at the end of the destructor: `C98_false_dropped` |
| C99, C105 | `Ieee.timeoutCycles` | error bound of two roundings; monotone rounding; C105 by C43, C85 and C97 |
| C100–C102 | `Ieee`, `Dist.bucketIndex` | rounding is monotone and exact on doubles, so each comparison and cast is bracketed; violations with witnesses |
| C103 | `Ieee`, `Dist.addSample`, `Dist.merge` | induction over the tree of calls with an error proportional to n(n+1) |
| C104 | `Ieee`, `Dist.addSample`, `Dist.merge` | a new mean never passes the new sample: the old mean is a rounded quotient, and rounding is nearest, so the two differences have the same sign |
| C115 | `Ieee`, `Dist.addSample`, `Dist.merge` | induction over the tree of calls with an error proportional to n²; `Merge` is compared with the exact combination of the computed means, whose error C103 bounds |
| C116 | `Ieee`, `Report`, `Threads` | every relation between values and those they were merged into that is additive and blind to order carries over to all accepted, flushed and cached operations (`Report.carry`, `Threads.carry`); for doubles the relation bounds the rounding error |
| C117 | same | the same carrier; the relation is equality of the number of samples, in total and for each bucket |
| C118 | same | the same carrier; the relation is a grouping in which every group's samples fill its distribution, to which C103 and C115 apply |
| C119 | `Ieee`, `Check`, `Threads` | the carrier of C116 for the groups of C36 (`Check.carry`), and the account of absorbed checks of C98 |
| C120 | `Report`, `Check`, `Threads` | what one aggregator says about its operations (`Summary`, from C16-C20), for the groups of C41 and C36, carried to threads as in C116 and C119 |
| C121 | `Ieee`, `Dist.exponentialIndex` | error analysis of the quotient of two logarithms in ℝ; the witness from the logarithm of 15 to 17 digits (partial sums of its series); existence of a correctly rounded log2 from the finiteness of the doubles |
| C122 | `Lru.Iter`, `Cache.ageOfLru` (`Model/LruIterator.lean`) | the list order of the invariant gives the oldest idle element; induction over the rest of the table for the loop |
| C123 | `Lru.Ptr.PCache.debugOutput` (`Model/LruIterator.lean`) | through the simulation of C83; induction along the rings of removed elements |
| C111 | `Ieee`, `Dist.merge` | layout and number of counters are kept along every tree of calls; a finite double is close to itself |
| C106 | `Threads` | the ledger of C46 for the history of the quota aggregator; answers and requests of the trace match it as multisets; the negative responses stored are among those received. False: nothing lost without a negative response, `C106_false_destroyed`, `C106_false_dropped` |
| C87–C91, C93, C94 | `Threads` | invariant over all pieces of code of all threads: books as for the client, lock holders, phases of the destructor, promises; histories of the aggregators |
| C107 | `AggregatorPointers` on the aggregators | simulation of each method, deleters that call the cache included (induction on the nesting); the heap is a permutation of the entries' pointers and values |
| C108 | `Threads` | along a schedule the check aggregator is asked about a signature only by code that began with a call or a completion of it; a function called by the timer has yet to flush or has done so; a `Flush` keeps only entries used within the expiration time (C85), and only calls about a signature add it |
| C109 | `Threads` | along a schedule every OK completion of a check is stored once its callback has run so far, and `FlushAll` only by the destructor; at the aggregator a stored response stays until it is idle for the expiration time or evicted (C66), which needs more signatures than fit; a transport is called only after the aggregator said not found |
| C124 | `Threads` | along a schedule whatever makes the entry of a signature fresh at the aggregator comes from a completion of a transport or makes the thread call one next; a call answered without a transport was answered by the aggregator after it was made; then C33 |
| C125 | `Threads` | at the aggregator requests without a response are at most those waiting (C45), because an entry does not disappear within the expiration interval of a request sent for it (as C70); along a schedule the requests sent and the responses stored are those of the trace and of the threads |
| C126 | `Threads`, `Given` | the schedules with the transport argument of every call; every schedule is one of these (`Reach.given`); the rest from C87 and C95 |
| C127 | `Quota` aggregator, `Threads` | where every entry after a call comes from (`step_age`: left alone, made by the call, or put back because it had not expired) and why a request is sent (`Sends`); induction over the calls since the moment of expiry; at the `Flush` every entry is younger than the flush interval; under every schedule with the links of C110 (`later_flushedQ`) |
| C110 | `Threads` | no response is stored before its request was passed on, at any earlier moment (by induction over the schedule, from the bookkeeping of transport calls); so the aggregator waits for no response when all requests are answered, and C86 applies to the `Flush` the timer has made; what is held is the sum of what was added since, all of it granted since |
| C112 | `Threads` | the books of C87: an answered call is not being worked on and no transport holds it; a call that waits for itself waits below all of its own code (invariant of the stacks) |
| C113 | `Threads` | what each outstanding transport call holds on the heap (invariant), and the books of C89 |
| C114 | `Threads`, `Spec/Threads.lean` (`getStatistics`) | the counters only grow along a schedule; C88 |
| C60 | `Signature.MD5` | state equations; injectivity of hex digits |
| C61, C79 | `HttpSample` | whole table of codes; C-string truncation |

No property was found inexpressible.  Restrictions under which a property is proved are stated in the
note of its claim in `MANIFEST.json` and in the theorem itself.

## Where the code does not do what the property says

For C16, C23, C29, C30, C42, C46, C69 and C106 the statement in `properties.jsonl` already carries the
restriction, so its status is `proved`; the witness shows the restriction is needed.  The others are `partial`.

Each has a theorem with a concrete witness (name in parentheses) and a `_partial` theorem, or a
theorem for the restricted claim, for what remains.

* C03 – adding sub-unit amounts of opposite sign near the extremes reports overflow although the sum
  is representable, and computes a signed overflow (`C03_false_spurious_overflow`, `C03_false_undefined`).
* C06 – an exponential layout casts an unbounded ratio to `int` (`C06_false_exponential_cast`).
* C10 – `num_finite_buckets + 2` overflows near `INT_MAX`; empty explicit bounds are accepted and the
  first bound is then read; a second `InitExplicit` appends to the bounds (`C10_false_size_overflow`,
  `C10_false_empty_explicit`, `C10_false_explicit_twice`).
* C13 – the check signature does not separate labels from metric names and of several metric
  sets with one name keeps the last (`C13_false_label_metric_confusion`, `C13_false_duplicate_metric`).
* C16 – whether a running total overflows depends on the order of operations (`C16_intermediate_overflow`).
* C23 – a quota metric without values reads element 0 of an empty field; values after the first are dropped
  (`C23_false_empty_metric`, `C23_extra_values_dropped`).
* C29 – in LRU mode a pinned entry is returned after its idle time (`C29_false_pinned`).
* C30 – mixing lookup options corrupts the ring, or leaves an entry stuck; a clock that goes backwards fails a debug
  assertion (`C30_false_mixed_options_corrupt`, `C30_false_mixed_options_stuck`, `C30_false_backwards_clock`).
* C35 – the expiration is renewed by every use: with a failing server and steady traffic a check
  response is served for ever (`C35_false_stale_response`).
* C42 – an operation that arrives with 100 or more log entries is cached unchecked (`C42_insert_unchecked`).
* C46 – pending tokens are discarded by a negative response or with the entry, e.g. when the next flush comes after the
  expiration interval (`C46_false_tokens_discarded`, `C46_false_late_flush`).
* C48 – a quota call for a new signature on a full cache never returns (`C48_false_full_cache`).
* C54 – the completion of a flushed allocation request uses the destroyed client (`C54_false_flushed_quota`).
* C56 – a flush calls an empty default transport (`C56_false`).
* C59 – a quota transport that completes in place deadlocks (`C59_false`, `C59_false_threads`).
* C61 – missing `break`s: no HTTP code gets its own status; a shadowed variable reports failed transfers
  as OK; the client lets the refused check through and caches it (`C61_false_codes`, `C61_false_transfer`, `C61_false_check`, `C61_false_cached`).
* C67 – a check that triggers a refresh is sent and also aggregated (`C67_false_counted_twice`).
* C69 – `flush_interval + 1` overflows at `INT_MAX` (part of `C69_options`).
* C71 – pending operations are sent without regard to the refresh interval (`C71_false_too_soon`).
* C72 – a refresh without pending operations re-sends the tokens of the first request (`C72_false_charged_twice`).
* C73 – `in_flush_all_` is never reset (`C73_false_after_flushAll`).
* C79 – the request body ends at the first zero byte (`C79_false_truncated`).
* C82 – changing the eviction mode while an entry is pinned corrupts the ring or leaves the entry in
  the cache for good (`C82_false_mode_switch`, `C82_false_mode_switch_stuck`).
* C89 – a completion of a flushed allocation request that is running when the client is destroyed goes on using
  it (`C89_false_running`).
* C92 – a transport called by a flush callback that calls the client waits for the lock its own thread
  holds (`C92_false_reentrant`).
* C96 – `CacheResponse` keeps the response to a check of high importance, although `Check` does not look such
  checks up; it answers later checks of low importance (`C96_false_kept`).
* C98 – a completion that has taken held operations out of the check cache loses them when another thread destroys
  the client before it passes them to the flush callback (`C98_false_dropped`).
* C99 – a limit of 1001 ms is one microsecond short; NaN seconds is an undefined conversion (`C99_false_one_short`, `C99_false_nan`).
* C100 – a linear layout converts infinity or NaN to `int` (`C100_false_overflow`, `C100_false_nan_width`);
  so does an exponential layout (`C100_false_exponential_overflow`), also for ordinary samples if the growth factor is next to one
  (`C100_false_exponential_growth`).
* C101 – samples are counted one bucket too high, or far off with large offsets (`C101_false_adjacent`, `C101_false_far`).
* C103 – the mean of equal samples can exceed their maximum (`C103_false_outside`).
* C104 – the sum of squared deviation can become minus infinity (`C104_false_overflow`, `C104_false_foreign`).
* C115 – equal samples can have a positive sum of squared deviation (`C115_false_equal`), different ones the sum zero (`C115_false_zero`).
* C117 – of two equal distributions, both answered OK, one is lost if their layout has an infinite bound (`C117_false_infinite`); see also C22 and C111.
* C121 – a sample at a bound is counted below it (`C121_false_bound`: 3375 with growth factor 15), for every correctly rounded log2.
* C122 – the age query ignores elements in use in LRU mode (`C122_false_in_use`) and multiplies by a million before dividing by a million, which overflows for elements not used for 107 days (`C122_false_overflow`).
* C125 – a server slower than the expiration interval gets a second allocation request of a signature before it has answered the first (`C125_false_slow`).
* C126 – while the quota cache is on, the per-request transport of a Quota call is never used: its request goes to the default transport
  (`C126_false_quota_general`, `C126_false_quota`).
* C111 – two messages with the same layout cannot be merged if a bound is infinite (`C111_false_infinite`); whether nearly equal
  layouts can be merged depends on the direction (`C111_false_direction`).
* C106 – granted quota tokens are given to nobody: the destructor discards the sums the cache holds (`C106_false_destroyed`),
  and drops a sum a completion has just taken out of the cache (`C106_false_dropped`).
* C112 – `Report` reads the caller's request again, to count its operations, after the transport may have completed the call
  (service_control_client_impl.cc:342-344, `C112_false_report`).
* C113 – the requests of flushed checks and reports and of `Report` calls are passed to the transport by reference and not copied: an
  asynchronous transport that reads them later reads freed memory (`C113_false_flushed`, `C113_false_report`).
* C114 – `GetStatistics` can report more checks sent for calls than calls made (`C114_false_snapshot`).
* C91 – a timer that does not wait in `Stop` loses the reports its function carries (`C91_false_timer`).

## Trusted base

* Lean's kernel.  Axioms: every theorem in `MANIFEST.json` depends on at most `propext`,
  `Classical.choice` and `Quot.sound`, as printed by `Audit.lean`; there are no axioms of our own, no
  `sorry`, no `native_decide`, no `bv_decide`.  Concrete cases use `decide +kernel`, which is checked by the kernel.
* The transcription of the C++ into the model (file and line comments on every definition).
* Protobuf accessors, `std::map`/`set`/`unordered_map`, `std::function`, `std::mutex` and libcurl behave
  as documented; OpenSSL's MD5 is a function of the bytes fed to it.

## Testing the theorems against wrong programs

`seeded/LOG.jsonl` has one line per experiment: in a copy of the project one definition of the model was
changed to a realistic bug, and everything was rebuilt.  "Failed" lists the theorems whose own proof, or
a lemma their proof uses, no longer checks.  This is evidence that a theorem is sensitive to
the edit, not a proof that its statement became false: a lemma can break because its proof script
did.  Modules that import a broken module are not rebuilt, so failures further up are found through
the recorded dependencies.  Where a claim that the bug makes false still had all its theorems checked, the
theorem was tightened; the line names it.
