{"id": "C01", "title": "Heap is a priority queue", "statement": "After any history of Heap operations (construction from a list, push, push_many, pop, pop_item, filter_map) the elements held are exactly the multiset obtained by performing the same insertions/removals on an abstract bag; pop returns a least element of the bag and removes exactly one occurrence of it, and raises IndexError exactly when the bag is empty; pop_item raises ValueError exactly when the element is absent.", "quantifier": "every initial list, every sequence of operations of any length, every total order of elements", "why_tests_cant": "the heap shape after an interleaving of pushes, removals and re-heapifications depends on the whole history; a test samples a few histories", "anchors": ["satella/coding/structures/heaps/base.py:Heap"]}
{"id": "C02", "title": "Heap iterators are sorted and non-destructive", "statement": "iter_ascending yields every element of the heap exactly once in non-decreasing order, iter_descending yields the same in the reverse order, and neither changes the heap.", "quantifier": "every heap reachable by any history", "why_tests_cant": "must hold for every content and shape of the heap, including duplicates", "anchors": ["satella/coding/structures/heaps/base.py:Heap.iter_ascending, Heap.iter_descending"]}
{"id": "C03", "title": "SetHeap holds each element at most once", "statement": "A SetHeap never holds two equal elements, `x in heap` answers exactly whether x is held, pushing a held element changes nothing, and pop never raises on a non-empty heap.", "quantifier": "every history of constructor, push, pop, push_many, pop_item and filter_map", "why_tests_cant": "the companion set and the list can get out of step only after particular histories", "anchors": ["satella/coding/structures/heaps/base.py:SetHeap"]}
{"id": "C04", "title": "TimeBasedHeap.pop_less_than is an exact cut", "statement": "pop_less_than(t) yields exactly the entries whose timestamp is strictly below t, in non-decreasing timestamp order, and leaves exactly the remaining entries in the heap.", "quantifier": "every heap content, every cut t", "why_tests_cant": "boundary (equal timestamps) and duplicate behaviour for every multiset of timestamps", "anchors": ["satella/coding/structures/heaps/time.py:TimeBasedHeap.pop_less_than, put, pop_timestamp, remove"]}
{"id": "C05", "title": "TimeBasedSetHeap keeps one timestamp per item, the latest", "statement": "At any time every item is present at most once; get_timestamp returns the timestamp of the last put of the item; re-putting moves the item; popping or removing an item makes it absent so that it can be put again.", "quantifier": "every history of put, pop_timestamp, pop_item, remove, pop_less_than", "why_tests_cant": "the item->timestamp index may go stale only after particular histories", "anchors": ["satella/coding/structures/heaps/time.py:TimeBasedSetHeap"]}
{"id": "C06", "title": "SortedList is always sorted", "statement": "After any history of add/extend/remove/pop/popleft the list is sorted by key and is a permutation of the elements added minus those removed; add returns the index at which the element now stands; popleft and pop return a least and a greatest element.", "quantifier": "every initial iterable, key function and history", "why_tests_cant": "sortedness after arbitrary interleavings of insertions and removals with equal keys", "anchors": ["satella/coding/structures/sorted_list.py:SortedList"]}
{"id": "C07", "title": "Ranking positions agree with the order", "statement": "After any history of add and remove, get_position_of(x) for an element held is its index in the sorted sequence and element at that position is x; positions are a bijection with 0..n-1.", "quantifier": "every history of add/remove and every key function", "why_tests_cant": "the position map is updated incrementally; a wrong start index shows up only for particular insert positions", "anchors": ["satella/coding/structures/ranking.py:Ranking"]}
{"id": "C08", "title": "LRU evicts the least recently used", "statement": "get_item_to_evict returns the held element whose last use (add of a new element, or mark_as_used) is the oldest, removes it, and raises KeyError exactly when nothing is held.", "quantifier": "every history of add/mark_as_used/remove/evict", "why_tests_cant": "depends on the whole history of uses", "anchors": ["satella/coding/structures/lru.py:LRU"]}
{"id": "C09", "title": "LRUCacheDict never exceeds max_size", "statement": "After any history of lookups, assignments, deletions and background refreshes an LRUCacheDict holds at most max_size values, making room always terminates without an exception, and the entry discarded is the least recently used one.", "quantifier": "every history, every max_size >= 1, every value getter", "why_tests_cant": "the bound must survive every interleaving of lookups, refreshes, deletions and failures", "anchors": ["satella/coding/structures/dictionaries/cache_dict.py:LRUCacheDict"]}
{"id": "C10", "title": "CacheDict serves only fresh data", "statement": "A lookup never returns a value older than expiration_interval; a value not older than stale_interval is returned without consulting the getter; between the two it is returned and exactly one refresh is scheduled; otherwise the getter is consulted synchronously and its value returned.", "quantifier": "every history of lookups/feeds/deletions at arbitrary increasing times, every getter behaviour", "why_tests_cant": "freshness is a property of every history and time, not of sampled sleeps", "anchors": ["satella/coding/structures/dictionaries/cache_dict.py:CacheDict.__getitem__, _on_cache_hit, get_value_block, feed"]}
{"id": "C11", "title": "CacheDict remembers failures", "statement": "When failures are cached, a key whose getter raised KeyError is not asked again within cache_failures_interval and every lookup in between raises KeyError or returns the default; after it the getter is asked again; a fed or successfully fetched value replaces the remembered failure.", "quantifier": "every history and time", "why_tests_cant": "negative caching interacts with feed, deletion and expiry in ways only long histories exhibit", "anchors": ["satella/coding/structures/dictionaries/cache_dict.py:CacheDict._on_failure, _on_cache_hit_empty, feed"]}
{"id": "C12", "title": "ExpiringEntryDict entries live exactly their lifetime", "statement": "A value set at time t with expiration e is visible (lookup, membership, iteration, length) until t+e and invisible afterwards unless set again; no sequence of operations raises anything but KeyError for absent keys.", "quantifier": "every history of set/get/contains/delete/len/cleanup at arbitrary non-decreasing times", "why_tests_cant": "the dictionary and the expiry heap drift apart only for particular histories and clock readings", "anchors": ["satella/coding/structures/dictionaries/expiring.py:ExpiringEntryDict"]}
{"id": "C13", "title": "SelfCleaningDefaultDict behaves as a total map", "statement": "Lookups return the last value assigned or the default; entries equal to the default occupy no storage after cleanup; iteration and length report exactly the keys with non-default values.", "quantifier": "every history of assignments, lookups, deletions and cleanups", "why_tests_cant": "must hold for every history", "anchors": ["satella/coding/structures/dictionaries/expiring.py:SelfCleaningDefaultDict"]}
{"id": "C14", "title": "ExclusiveWritebackCache refines the storage map", "statement": "Every lookup through the cache returns what a plain dictionary that received the same writes would return (KeyError for deleted/absent keys), no matter how the background writes are delayed or when the periodic clean-up runs; after sync() the underlying storage equals that dictionary.", "quantifier": "every history of operations, every delay of the write queue, every point of clean-up", "why_tests_cant": "delays and clean-up points give unboundedly many schedules", "anchors": ["satella/coding/structures/dictionaries/writeback_cache.py:ExclusiveWritebackCache"]}
{"id": "C15", "title": "SyncableDroppable never loses or reorders unsynced data", "statement": "Data accepted (strictly increasing timestamps, ValueError otherwise) is reported by on_sync_request in order, each item not yet confirmed exactly once, at most the requested amount at a time; dropping old data from memory moves it to the DB and no data inside the retention span disappears.", "quantifier": "every history of on_new_data, sync, cleanup, sync requests and confirmations", "why_tests_cant": "splits between memory and DB depend on the whole history", "anchors": ["satella/coding/structures/syncable_droppable.py:SyncableDroppable, DBStorage"]}
{"id": "C16", "title": "SparseMatrix is a finite map with exact bounding box", "statement": "After any history of single-cell, row, column and whole-matrix assignments and deletions a cell reads the last value assigned to it or None; columns and rows are the smallest box containing all cells ever set and not deleted; reading outside raises IndexError.", "quantifier": "every history of assignments/deletions at every coordinate", "why_tests_cant": "row/column counters are maintained incrementally; deleting the last cell of a row/column/matrix are corner cases in unbounded state space", "anchors": ["satella/coding/structures/sparse_matrix.py:SparseMatrix"]}
{"id": "C17", "title": "IDAllocator never allocates an identifier twice", "statement": "An identifier returned by allocate_int or reserved by mark_as_allocated is not returned again until it is freed by mark_as_free; identifiers lie in [start_at, top_limit); Empty is raised only when all of them are in use; freeing an unallocated id raises ValueError and changes nothing.", "quantifier": "every history of allocate/mark/free and every start_at/top_limit", "why_tests_cant": "uniqueness over every history of allocations and frees", "anchors": ["satella/coding/concurrent/id_allocator.py:IDAllocator"]}
{"id": "C18", "title": "SequentialIssuer is strictly increasing", "statement": "Successive issues are strictly increasing, also across no_less_than calls, whose results are not less than the bound; no identifier is issued twice under any thread interleaving.", "quantifier": "every history and every interleaving of calls from any number of threads", "why_tests_cant": "interleavings are unbounded", "anchors": ["satella/coding/concurrent/id_allocator.py:SequentialIssuer"]}
{"id": "C19", "title": "CallableGroup calls each callback once per call, in order", "statement": "Calling the group invokes each registered, uncancelled callback exactly once in registration order with the given arguments, results are gathered in that order, one-shot groups forget callbacks after the call and other groups keep them in the same order, and failures do not lose other callbacks.", "quantifier": "every list of callbacks, every pattern of failures, cancellations and registrations, any number of calls", "why_tests_cant": "the group empties and rebuilds its list during the call, so retention must be shown for each failure pattern", "anchors": ["satella/coding/concurrent/callablegroup.py:CallableGroup, CancellableCallback, CallNoOftenThan"]}
{"id": "C20", "title": "Atomic numbers and monitors do not lose updates", "statement": "When any number of threads perform in-place updates on an AtomicNumber under any interleaving, the final value equals performing all updates in the order of lock acquisition, every intermediate read is the value after a prefix of them, and at most one thread is inside a monitor at any time.", "quantifier": "every number of threads, programs and schedules", "why_tests_cant": "schedules cannot be enumerated by tests", "anchors": ["satella/coding/concurrent/atomic.py:AtomicNumber", "satella/coding/concurrent/monitor.py:Monitor"]}
{"id": "C21", "title": "PeekableQueue delivers each item once, in FIFO order", "statement": "Items are delivered by get in the order they were put, each to exactly one getter, peek returns the next item without removing it, and a blocked get is woken when an item becomes available.", "quantifier": "every number of producers/consumers and every interleaving of their steps", "why_tests_cant": "loss, duplication or lost wake-ups appear only under rare schedules", "anchors": ["satella/coding/concurrent/queue.py:PeekableQueue"]}
{"id": "C22", "title": "FutureCollection aggregates its members", "statement": "result() and exception() of the collection reflect all members in order; cancel() attempts to cancel every member and reports whether all were cancelled; set_running_or_notify_cancel and set_result reach every member.", "quantifier": "every collection of futures in every combination of states", "why_tests_cant": "short-circuit evaluation makes behaviour depend on positions of failures in lists of arbitrary length", "anchors": ["satella/coding/concurrent/futures/collection.py:FutureCollection"]}
{"id": "C23", "title": "CPManager never shares a connection", "statement": "A connection handed out by acquire_connection is not handed out again before it is released; idle connections never exceed max_number; a connection is torn down at most once and never used after; a connection is used at most max_cycle_no times; after close no connection is handed out and idle ones are torn down.", "quantifier": "every history of acquire/release/fail/invalidate/close", "why_tests_cant": "over all histories of acquire/release/failure", "anchors": ["satella/coding/resources/cp_manager.py:CPManager"]}
{"id": "C24", "title": "Deleters remove exactly the marked entries", "statement": "After leaving a ListDeleter/DictDeleter context, the container equals the original without exactly the entries that were current when delete() was called, in the original order; iteration visits each element exactly once in either direction.", "quantifier": "every list/dict, every subset of marked elements, both directions", "why_tests_cant": "index shifting during removal must be right for every subset", "anchors": ["satella/coding/deleters.py:ListDeleter, DictDeleter"]}
{"id": "C25", "title": "merge_dicts merges recursively with right bias", "statement": "merge_dicts(a,b) has the union of keys; on a common key two dictionaries are merged recursively, two lists are concatenated, otherwise the second value wins; the empty dictionary is neutral and merging is associative; the second argument is not changed.", "quantifier": "every pair (triple) of nested dictionaries of any depth", "why_tests_cant": "recursion depth and key overlap patterns are unbounded", "anchors": ["satella/coding/algos.py:merge_dicts"]}
{"id": "C26", "title": "Configuration sources compose predictably", "statement": "AlternativeSource provides the first source that does not fail and fails only if all do; OptionalSource never fails; MergingSource provides the merge of all sources in order with later ones overriding, fails per on_fail policy, and fails when none is correct if asked to; BuildObjectFrom nests.", "quantifier": "every tree of sources with any failure pattern", "why_tests_cant": "trees and failure patterns are unbounded", "anchors": ["satella/configuration/sources/derivative.py", "satella/configuration/sources/object_from.py"]}
{"id": "C27", "title": "merge_list is a sorted union that merges equal keys", "statement": "Given sorted input lists, merge_list yields a list sorted by key, with strictly increasing keys, whose keys are exactly the union of input keys and whose value for a key is the fold of the merge function over all input values under that key.", "quantifier": "every number of lists of any lengths", "why_tests_cant": "k-way merges have unbounded interleavings of equal keys", "anchors": ["satella/coding/transforms/__init__.py:merge_list"]}
{"id": "C28", "title": "merge_series aligns time series", "statement": "merge_series of sorted series yields, for each timestamp at which any series changes once all have started, the tuple of the latest values of each series at that timestamp, in increasing order of timestamps, each timestamp once.", "quantifier": "every number of series of every length and timestamp pattern", "why_tests_cant": "alignment over unboundedly many timestamp patterns", "anchors": ["satella/coding/transforms/merger.py:merge_series"]}
{"id": "C29", "title": "BinaryParser reads each byte once, never past its window", "statement": "Consecutive reads return consecutive, non-overlapping bytes of the window [offset, offset+length); a read that would cross the end raises NotEnoughBytes and leaves the parser unchanged; sub-parsers see exactly the n bytes requested and the parent continues after them; get_remaining_bytes returns the rest.", "quantifier": "every stream, window and sequence of reads", "why_tests_cant": "boundaries for all offsets, lengths and read sequences", "anchors": ["satella/parsing.py:BinaryParser"]}
{"id": "C30", "title": "Time strings mean what they say", "statement": "parse_time_string of a number returns it; of '<number><unit>' returns number times the unit's seconds for each documented unit letter; strings without unit are seconds; unparseable text raises ValueError.", "quantifier": "every numeric text and unit", "why_tests_cant": "the modifier search examines letters in a fixed order, so clashes appear for particular strings", "anchors": ["satella/time/parse.py:parse_time_string"]}
{"id": "C31", "title": "ExponentialBackoff is bounded and resets", "statement": "The waiting time after n consecutive failures is 0 while within the grace amount, then start, doubling on each failure but never above limit; success resets it to 0; available/ready_for_next_check and time_until_next_check agree.", "quantifier": "every history of failed/success calls, every start/limit/grace and times", "why_tests_cant": "sequence lengths and parameters are unbounded", "anchors": ["satella/time/backoff.py:ExponentialBackoff"]}
{"id": "C32", "title": "Chunking and pairing iterators lose nothing", "statement": "group_quantity(n, s) yields lists whose concatenation is s, all of length n but the last which is non-empty and not longer; is_last flags exactly the last element; add_next pairs each element with its successor; half_cartesian yields each unordered pair exactly once.", "quantifier": "every sequence and chunk size n >= 1", "why_tests_cant": "lengths around multiples of n for every n", "anchors": ["satella/coding/sequences/sequences.py:group_quantity, is_last, add_next, half_cartesian"]}
{"id": "C33", "title": "Slicing iterators agree with list slicing", "statement": "skip_first(s,n) yields s[n:], stop_after(s,n) yields s[:n], take_n(s,n,skip) returns s[skip:skip+n], n_th(s,i) returns s[i], even/odd yield elements at even/odd positions, shift rotates, for sequences shorter than the requested amount as well.", "quantifier": "every sequence and every n", "why_tests_cant": "short sequences and every n", "anchors": ["satella/coding/sequences/iterators.py:skip_first, stop_after, take_n, n_th, even, odd, shift, zip_shifted"]}
{"id": "C34", "title": "unique keeps first occurrences", "statement": "unique(s) yields each distinct element once, at its first position, preserving order.", "quantifier": "every sequence of hashable elements", "why_tests_cant": "duplicates at all distances", "anchors": ["satella/coding/sequences/iterators.py:unique"]}
{"id": "C35", "title": "walk visits every node once in the documented order", "statement": "walk visits all nodes of the tree below the root, each once; depth-first order is pre-order, breadth-first order is level by level; leafs_only yields just the leaves.", "quantifier": "every finite tree", "why_tests_cant": "tree shapes are unbounded", "anchors": ["satella/coding/sequences/iterators.py:walk, ConstruableIterator"]}
{"id": "C36", "title": "List adapters over iterators behave as the list", "statement": "ListWrapperIterator and IteratorListAdapter give the same elements for indexing, iteration, length and membership as the fully materialised list, no matter how much was already consumed.", "quantifier": "every underlying sequence and every history of accesses", "why_tests_cant": "depends on how far the underlying iterator was advanced by earlier accesses", "anchors": ["satella/coding/sequences/iterators.py:ListWrapperIterator, IteratorListAdapter"]}
{"id": "C37", "title": "retry calls at most `times` times", "statement": "A retried function is called until its first call that does not raise a listed exception, at most `times` times; its value is returned; an unlisted exception propagates at once; after `times` failures on_failure receives the last exception which is then swallowed or re-raised as configured; call_between_retries is called after each failed attempt, call_on_success with the number of failures.", "quantifier": "every sequence of outcomes of the function, every `times` including None and 0", "why_tests_cant": "outcome sequences of every length", "anchors": ["satella/coding/decorators/retry_dec.py:retry"]}
{"id": "C38", "title": "cache_memoize serves values not older than cache_duration", "statement": "A memoized call returns a value computed for the same positional arguments at most cache_duration ago, and recomputes only when there is none; memoize computes once per argument tuple in a sequential history.", "quantifier": "every history of calls at arbitrary times", "why_tests_cant": "histories and times are unbounded", "anchors": ["satella/coding/decorators/decorators.py:cache_memoize, memoize"]}
{"id": "C39", "title": "Counter, histogram and summary metrics account for every sample", "statement": "A counter's value is the sum of the deltas handled at an enabled level and, with labels, one sub-metric per label set receives exactly its samples while .sum/.count aggregate all; histogram buckets partition non-negative samples, .count and .sum cover all of them; a summary holds exactly the last last_calls samples.", "quantifier": "every history of samples, labels and levels", "why_tests_cant": "history-dependent aggregation with labels switching the metric into sub-metric mode", "anchors": ["satella/instrumentation/metrics/metric_types/counter.py", "satella/instrumentation/metrics/metric_types/histogram.py", "satella/instrumentation/metrics/metric_types/summary.py", "satella/instrumentation/metrics/metric_types/base.py"]}
{"id": "C40", "title": "Clicks-per-time-unit counts clicks in each window", "statement": "A cps metric reports for each period exactly the number of clicks within that period before the report.", "quantifier": "every history of clicks at non-decreasing times and every report time and set of periods", "why_tests_cant": "times are unbounded; entries are dropped on later clicks", "anchors": ["satella/instrumentation/metrics/metric_types/cps.py:ClicksPerTimeUnitMetric"]}
{"id": "C41", "title": "Linkfail detects exactly the configured runs", "statement": "A link goes offline exactly when a run of consecutive_failures_to_offline failures completes while online, and online when a run of consecutive_successes_to_online successes completes while offline; callbacks alternate offline/online and fire exactly on transitions; addresses are independent.", "quantifier": "every sequence of outcomes for every address and all thresholds >= 1", "why_tests_cant": "unbounded sequences of outcomes", "anchors": ["satella/instrumentation/metrics/metric_types/linkfail.py:LinkfailMetric"]}
{"id": "C42", "title": "MetricDataCollection is keyed by name and labels", "statement": "A collection has at most one entry per (name, labels); adding data overrides the entry under the same key with the right operand's and keeps the others; strict_eq holds exactly when both hold the same keys with the same values.", "quantifier": "every pair of collections", "why_tests_cant": "overlaps of key sets", "anchors": ["satella/instrumentation/metrics/data.py:MetricDataCollection"]}
{"id": "C43", "title": "Subqueue and PushIterable keep order", "statement": "A Subqueue keeps FIFO order per name independent of other names and get_any returns an item whenever one exists; PushIterable yields pushed-back items last-in-first-out before the rest of the underlying iterable, none lost.", "quantifier": "every history of puts/gets/pushes", "why_tests_cant": "histories are unbounded", "anchors": ["satella/coding/structures/queues.py:Subqueue", "satella/coding/structures/push_iterable.py:PushIterable"]}
{"id": "C44", "title": "MemoryPressureManager fires each transition once, level by level", "statement": "As long as no callback has raised (which ends the manager), on every check the severity moves to the highest level whose condition holds; moving up fires the entered-callbacks of every level passed, in increasing order, moving down fires the left-callbacks in decreasing order, memory-normal fires exactly on reaching 0 from above, and remaining fires otherwise.", "quantifier": "every sequence of severity readings, of stop and resume, and of objects registered for cleanup; callbacks that raise at any point", "why_tests_cant": "sequences of readings with arbitrary jumps", "anchors": ["satella/instrumentation/memory/memthread.py:MemoryPressureManager", "satella/instrumentation/memory/conditions.py"]}
{"id": "C45", "title": "PIDFileLock excludes concurrent holders", "statement": "At most one live process holds the lock at a time; a lock left by a dead process or containing garbage is taken over; release makes it acquirable again.", "quantifier": "every interleaving of acquire/release of any number of processes, including crashes", "why_tests_cant": "races between checking and unlinking appear only under rare schedules and crash points", "anchors": ["satella/os/pidlock.py:PIDFileLock"]}
{"id": "C46", "title": "Database transactions commit or roll back", "statement": "A transaction commits exactly when its body raises nothing and rolls back otherwise, never both; the cursor is always closed, the connection only when asked.", "quantifier": "every body outcome and every failure of commit/rollback/close", "why_tests_cant": "failure points at each step", "anchors": ["satella/db.py:transaction"]}
{"id": "C47", "title": "Copying a heap keeps its contents", "statement": "copy.copy of a heap holds exactly the elements of the original.", "quantifier": "every heap reachable by any history, of each heap class", "why_tests_cant": "must hold for every content", "anchors": ["satella/coding/structures/heaps/base.py:Heap.__copy__", "satella/coding/structures/heaps/time.py:TimeBasedHeap.__init__"]}
{"id": "C48", "title": "CallNoOftenThan keeps its interval", "statement": "However often and whenever the object is called, the wrapped function is called again no sooner than the interval after its previous call ended, and a call made after that is never suppressed (including the first).", "quantifier": "every sequence of call times", "why_tests_cant": "sequences of times are unbounded", "anchors": ["satella/coding/concurrent/callablegroup.py:CallNoOftenThan"]}
{"id": "C49", "title": "Comparing AtomicNumbers always returns", "statement": "A comparison between two AtomicNumbers returns in every thread that makes it, under every schedule.", "quantifier": "every number of threads, numbers and schedules", "why_tests_cant": "deadlocks appear only under particular schedules", "anchors": ["satella/coding/concurrent/atomic.py:AtomicNumber.__eq__"]}
{"id": "C50", "title": "wait_until_equal is woken", "statement": "wait_until_equal returns only after the number had the value awaited, it returns if the number gets that value and keeps it, and WouldWaitMore is raised only if the timeout expired without the number having the value.", "quantifier": "every schedule of the waiting thread and of the updates", "why_tests_cant": "a wake-up is lost only under particular schedules", "anchors": ["satella/coding/concurrent/atomic.py:AtomicNumber.wait_until_equal"]}
{"id": "C51", "title": "A pre-done callback transforms the outcome", "statement": "A Satella future presents the outcome it was given, as transformed by its pre-done callbacks in the order they were added; each done callback is called exactly once and sees the final outcome; a future that is done never changes again; exception() returns the exception presented.", "quantifier": "every list of pre-done callbacks, every outcome", "why_tests_cant": "callback lists of any length and any behaviour", "anchors": ["satella/coding/concurrent/futures/futures.py:Future"]}
{"id": "C52", "title": "on_success and on_failure follow the outcome", "statement": "A function given to on_success is called exactly if the future succeeded, with the result; one given to on_failure exactly if it failed, with the exception; one given to chain always, with whichever there is.", "quantifier": "every completed future", "why_tests_cant": "must hold for every outcome", "anchors": ["satella/coding/concurrent/futures/futures.py:Future.on_success", "satella/coding/concurrent/futures/futures.py:Future.on_failure", "satella/coding/concurrent/futures/futures.py:Future.chain"]}
{"id": "C53", "title": "A wrapping future follows its source", "statement": "A WrappingFuture presents the outcome of its source; a thread waiting for it returns once the source is done; its done callbacks are called exactly once; cancel() returns True exactly if it is cancelled.", "quantifier": "every schedule of construction, completion, cancellation and waiting", "why_tests_cant": "outcomes are lost only under particular schedules", "anchors": ["satella/coding/concurrent/futures/futures.py:WrappingFuture"]}
{"id": "C54", "title": "CPManager calls return", "statement": "Every call of acquire_connection, release_connection, fail_connection, invalidate and close on a pool returns (or raises) once its thread gets to run often enough, as long as creating and tearing down connections returns.", "quantifier": "every schedule of calls and thread steps", "why_tests_cant": "deadlocks and endless loops need particular interleavings or settings; a test cannot show that a call always returns", "anchors": ["satella/coding/resources/cp_manager.py:CPManager.acquire_connection", "satella/coding/resources/cp_manager.py:CPManager.invalidate", "satella/coding/concurrent/monitor.py:Monitor"]}
{"id": "C55", "title": "File and directory sources provide the merge of what can be loaded", "statement": "FileSource provides what the first format able to parse the file as a dictionary gives, and fails with ConfigurationError if the file cannot be read or no format is able; DirectorySource provides the merge, in listing order, of all accepted regular files, including those of subdirectories if asked for; with failures ignored it fails only if there are files and none can be loaded, otherwise the first failure makes it fail.", "quantifier": "every directory tree, every outcome of parsing every file, every list of formats", "why_tests_cant": "directory trees and outcomes are unbounded", "anchors": ["satella/configuration/sources/file.py:FileSource.provide", "satella/configuration/sources/file.py:DirectorySource", "satella/configuration/sources/format.py:FormatSource.provide"]}
{"id": "C56", "title": "measure is a stopwatch", "statement": "A measure shows the time for which it has run since it was created or reset (plus adjustments), stays constant while stopped, resumes when started again, is timed out exactly when the time shown reaches the timeout, and reports the time remaining as the difference, never negative; starting a running measure or stopping a stopped one raises TypeError.", "quantifier": "every history of start/stop/reset/adjust/with and readings, at every time", "why_tests_cant": "the interplay of started_on, elapsed and stopped_on shows only in particular orders of calls", "anchors": ["satella/time/measure.py:measure"]}
{"id": "C57", "title": "wait_until_available waits for the service, no longer than told", "statement": "ExponentialBackoff.wait_until_available returns only when the service is available, promptly after success() or when the wait after the last failure is over, and raises WouldWaitMore when, and not long after, the timeout is over with the service still not available.", "quantifier": "every schedule of the waiting thread and of threads calling failed() and success(), at every time", "why_tests_cant": "depends on when success() falls between the steps of the waiting thread", "anchors": ["satella/time/backoff.py:ExponentialBackoff.wait_until_available"]}
{"id": "C58", "title": "AlreadySeen tells first occurrences", "statement": "AlreadySeen.is_unique(x) returns True exactly when it has not been asked about x before, for hashable elements and for elements that can only be compared.", "quantifier": "every sequence of calls", "why_tests_cant": "depends on which kinds of elements were seen before, in any order", "anchors": ["satella/coding/sequences/iterators.py:AlreadySeen"]}
{"id": "C59", "title": "MetricData survives JSON", "statement": "from_json(to_json(x)) gives back the same name, value, labels, timestamp and internal flag, for entries and for collections.", "quantifier": "every entry and every collection", "why_tests_cant": "labels and names are unbounded, and share a namespace with the fields of the format", "anchors": ["satella/instrumentation/metrics/data.py:MetricData.to_json", "satella/instrumentation/metrics/data.py:MetricData.from_json", "satella/instrumentation/metrics/data.py:MetricDataCollection.to_json"]}
{"id": "C60", "title": "Internal metrics are not exported", "statement": "No entry of a metric created with internal=True is left after remove_internals(), nor rendered for Prometheus, whatever samples with whatever labels it received; all entries of the other metrics are left.", "quantifier": "every history of samples with and without labels, every kind of metric", "why_tests_cant": "depends on submetrics that are created as labels turn up", "anchors": ["satella/instrumentation/metrics/data.py:MetricDataCollection.remove_internals", "satella/instrumentation/metrics/metric_types/base.py:EmbeddedSubmetrics.clone", "satella/instrumentation/exporters/prometheus.py:metric_data_collection_to_prometheus"]}
{"id": "C61", "title": "Memory conditions mean what they say", "statement": "Each memory condition, and each combination of conditions with Any, All and Not, fires exactly when its description holds of the memory of the machine and the process; asking it raises nothing.", "quantifier": "every condition, however nested, every memory situation, with and without a maximum", "why_tests_cant": "conditions nest without bound, and memory takes any value", "anchors": ["satella/instrumentation/memory/conditions.py"]}
{"id": "C62", "title": "Exception translation is invisible otherwise", "statement": "A function decorated with rethrow_as, silence_excs or reraise_as returns what the function returns; an exception it raises is replaced as the first matching pair says (or swallowed, giving the value of returns), and an exception that matches no pair passes as it is.", "quantifier": "every mapping, every body including bodies that call the decorated function again, every outcome", "why_tests_cant": "the decorator keeps state across the calls, so nested calls of any depth matter", "anchors": ["satella/coding/recast_exceptions.py:rethrow_as", "satella/coding/recast_exceptions.py:silence_excs", "satella/coding/recast_exceptions.py:reraise_as"]}
{"id": "C63", "title": "Exception hooks are asked by priority, once each", "statement": "Whatever hooks are added to and removed from GlobalExcepthook, an exception goes to the registered hooks and the previous sys.excepthook in the order of priority, ties in the order of registration, each once, until one intercepts it; a hook that fails does not stop the others unless ignore_failed_hooks is off; functions are not asked about SystemExit; a thread still ends with its exception.", "quantifier": "every history of additions, removals and exceptions, every behaviour of the hooks", "why_tests_cant": "the set of hooks and their failures is unbounded", "anchors": ["satella/exception_handling/global_eh.py:GlobalExcepthook", "satella/exception_handling/exception_handlers.py"]}
{"id": "C64", "title": "A deferred value is set once and reaches every reader", "statement": "DeferredValue.value() returns only a value passed to set_value(); at most one set_value() succeeds, the others raise ValueError; all readers get the same value; once it is set, no reader waits for ever or times out.", "quantifier": "every schedule of any number of readers and setters", "why_tests_cant": "depends on the interleaving of readers and setters", "anchors": ["satella/coding/concurrent/value.py:DeferredValue"]}
{"id": "C65", "title": "A locked dataset is accessed only under its lock", "statement": "Of the threads using `with dataset`, at most one is in the body at a time; in the body access to attributes succeeds, outside it raises ResourceNotLocked; entering raises WouldWaitMore only when the caller asked for it.", "quantifier": "every schedule of any number of threads", "why_tests_cant": "depends on the interleaving of entering, leaving and accessing", "anchors": ["satella/coding/concurrent/locked_dataset.py:LockedDataset"]}
{"id": "C66", "title": "sync_threadpool waits for what was submitted", "statement": "sync_threadpool returns, and when it has returned every job submitted before the call is finished; the pool works on afterwards, also after a timeout.", "quantifier": "every schedule of the caller and of the workers, every number of jobs and workers", "why_tests_cant": "depends on the interleaving of the workers with the caller", "anchors": ["satella/coding/concurrent/sync.py:sync_threadpool"]}
{"id": "C67", "title": "The life of a terminable thread", "statement": "A TerminableThread calls prepare() first, then loop() until termination is requested or an exception is raised, and cleanup() once, last; SystemExit and the exceptions of terminate_on end it quietly, others with a traceback. An IntervalTerminableThread begins its loops at the interval, calling on_overrun() when late.", "quantifier": "every behaviour of prepare, loop and cleanup, every time of the request", "why_tests_cant": "the number of loops is unbounded, the request can come at any moment", "anchors": ["satella/coding/concurrent/thread.py:TerminableThread.run", "satella/coding/concurrent/thread.py:IntervalTerminableThread.run"]}
{"id": "C68", "title": "Interruptible sleep and wait", "statement": "safe_sleep(t) sleeps t seconds, or raises SystemExit at most wake_up_each after termination is requested; safe_wait_condition returns when notified, raises WouldWaitMore after its timeout, SystemExit after a request, and nothing else.", "quantifier": "every interval, every time of the request, every time of the notification", "why_tests_cant": "depends on when the request comes between naps, of which there is any number", "anchors": ["satella/coding/concurrent/thread.py:TerminableThread.safe_sleep", "satella/coding/concurrent/thread.py:TerminableThread.safe_wait_condition"]}
{"id": "C69", "title": "Timers run once, late, in order", "statement": "Each start of a Timer leads to exactly one execution of its function, not before the interval is over and not after the timer was cancelled; timers whose time has come run in the order of their deadlines; an exception in one does not keep the others from running.", "quantifier": "every schedule of starts, cancels and steps of the background thread", "why_tests_cant": "depends on interleaving and on time", "anchors": ["satella/coding/concurrent/timer.py:Timer", "satella/coding/concurrent/timer.py:TimerBackgroundThread"]}
{"id": "C70", "title": "Resources are cleaned up once", "statement": "close() of a Closeable gives True to exactly one of the calls made since it was initialised, however it is closed (explicitly, by with, by the destructor), so the resource is cleaned up once; an object that was not initialised counts as closed and is never cleaned up; closed tells whether close() was called.", "quantifier": "every schedule of calls by any number of threads", "why_tests_cant": "depends on the order of calls and on interleaving", "anchors": ["satella/coding/misc.py:Closeable"]}
{"id": "C71", "title": "Contexts are nested scopes", "statement": "Reading a variable of a Context gives the value on the nearest card that has it, deleting hides it, writing and push_up change only the cards concerned, and when a with block is left the context that was current before is current again.", "quantifier": "every sequence of operations on any number of contexts", "why_tests_cant": "the effect of an operation depends on the whole history and the depth of nesting", "anchors": ["satella/coding/environment.py:Context"]}
{"id": "C72", "title": "split reverses os.path.join", "statement": "split(path) ends, none of its parts contains a slash and joining them gives the path.", "quantifier": "every path", "why_tests_cant": "holds for all strings, of which tests try some", "anchors": ["satella/files.py:split"]}
{"id": "C73", "title": "A name that does not collide", "statement": "make_noncolliding_name gives a name for which the checker says that it does not exist: in the same directory, with the smallest number put before the extension for which that is so (no number if the name itself is free); it ends if only finitely many names exist.", "quantifier": "every path, every set of existing names", "why_tests_cant": "the number of names tried is unbounded", "anchors": ["satella/files.py:make_noncolliding_name"]}
{"id": "C74", "title": "Whole-file helpers", "statement": "After write_to_file or write_out_file_if_different has returned, the file holds the data and nothing else has changed, the latter telling whether the file was different; read_in_file gives what the file holds, the default if there is none; try_unlink tells whether the path is gone; a call that raises has changed nothing.", "quantifier": "every sequence of calls, every content, encoding and file system", "why_tests_cant": "holds for all contents, encodings and failures of the system", "anchors": ["satella/files.py:write_to_file", "satella/files.py:read_in_file", "satella/files.py:write_out_file_if_different", "satella/files.py:try_unlink"]}
{"id": "C75", "title": "find_files finds exactly the matching files", "statement": "find_files gives each file below the path that matches the wildcard exactly once and nothing else, with the prefix asked for; the wildcard is for the name or, if asked for, for the whole path; subdirectories are looked into if asked for.", "quantifier": "every tree of directories, every wildcard and combination of parameters", "why_tests_cant": "directories are nested to any depth", "anchors": ["satella/files.py:find_files"]}
{"id": "C76", "title": "jump_to_directory comes back", "statement": "When a with block of jump_to_directory is left, with an exception or without, the working directory is the one from before, whatever happened inside, including other blocks.", "quantifier": "every nesting of blocks, every program inside", "why_tests_cant": "blocks are nested to any depth", "anchors": ["satella/files.py:jump_to_directory"]}
{"id": "C77", "title": "AutoflushFile", "statement": "After each call the file holds all that was written, in order, for others to see, and is not held open; reading gives what is at the position; documented modes are accepted; after close each call is a ValueError.", "quantifier": "every sequence of calls, every content, changes by other processes in between", "why_tests_cant": "depends on the whole history of calls and of other processes", "anchors": ["satella/files.py:AutoflushFile"]}
{"id": "C78", "title": "A function in its own thread", "statement": "The future that a call_in_separate_thread or run_as_future function returns is resolved once, with what the function returned or raised; the function is called at most once, and never if the future was cancelled before.", "quantifier": "every schedule of the thread and of any number of calls of cancel()", "why_tests_cant": "depends on interleaving", "anchors": ["satella/coding/concurrent/thread.py:call_in_separate_thread", "satella/coding/concurrent/functions.py:run_as_future"]}
{"id": "C79", "title": "Parallel calls give results in order", "statement": "parallel_execute yields, in the order of the arguments, the value of each call or the exception it raised, in whatever order the calls end; parallel_construct gives the results that are not None in that order, or raises the first exception.", "quantifier": "every number and outcome of calls, every order in which they end", "why_tests_cant": "depends on the order in which the calls end", "anchors": ["satella/coding/concurrent/functions.py:parallel_execute", "satella/coding/concurrent/list_processor.py:parallel_construct"]}
{"id": "C80", "title": "ThreadCollection", "statement": "When start() has returned every thread of the collection was started, when join() has returned every one has ended; join() raises WouldWaitMore only if a thread was alive when its timeout was over; terminate() is called once on each thread that has it.", "quantifier": "every schedule of the caller, the threads and others", "why_tests_cant": "depends on interleaving", "anchors": ["satella/coding/concurrent/thread_collection.py:ThreadCollection"]}
{"id": "C81", "title": "get_arguments", "statement": "If a function can be called with some arguments, get_arguments gives exactly the local variables the function would have; if it cannot be called with them, TypeError is raised.", "quantifier": "every signature with any number of parameters of each kind, every positional and keyword arguments", "why_tests_cant": "there are infinitely many signatures and calls", "anchors": ["satella/coding/misc.py:get_arguments", "satella/coding/misc.py:_get_arguments"]}
{"id": "C82", "title": "call_with_arguments", "statement": "call_with_arguments calls the function so that every named argument reaches the parameter of that name and what is left out gets its default; a missing argument is a TypeError, an unknown one a ValueError; with the local variables of a call it repeats that call.", "quantifier": "every signature, every dictionary of arguments", "why_tests_cant": "there are infinitely many signatures and dictionaries", "anchors": ["satella/coding/misc.py:call_with_arguments"]}
{"id": "C83", "title": "Decorators that change arguments", "statement": "transform_arguments, transform_result, replace_argument_if, for_argument and attach_arguments change exactly the arguments they are told to change, in the way they are told to, however the arguments are given, and pass all others unchanged.", "quantifier": "every signature, every call, every operation", "why_tests_cant": "there are infinitely many signatures and calls", "anchors": ["satella/coding/decorators/arguments.py:transform_arguments", "satella/coding/decorators/arguments.py:transform_result", "satella/coding/decorators/arguments.py:replace_argument_if", "satella/coding/decorators/arguments.py:for_argument", "satella/coding/decorators/arguments.py:attach_arguments"]}
{"id": "C84", "title": "Preconditions and postconditions", "statement": "A function with preconditions is executed if and only if every condition holds for the argument it is for, and otherwise PreconditionError is raised; the value of a function with a postcondition is returned if and only if the condition holds for it.", "quantifier": "every number of conditions, every call", "why_tests_cant": "conditions and calls are arbitrary", "anchors": ["satella/coding/decorators/preconditions.py:precondition", "satella/coding/decorators/preconditions.py:postcondition"]}
{"id": "C85", "title": "queue_get and loop_while", "statement": "A method decorated with queue_get is executed once for each item taken, in order, the method for an empty queue exactly if no item came, and its value or exception comes out; loop_while executes its function while the predicate holds and as long as it does not raise.", "quantifier": "every schedule of threads that put and take; every predicate and function", "why_tests_cant": "depends on interleaving and on how many times the loop goes round", "anchors": ["satella/coding/decorators/flow_control.py:queue_get", "satella/coding/decorators/flow_control.py:loop_while"]}
{"id": "C86", "title": "cached_property", "statement": "The function of a cached property is executed at most once until the attribute is reset, and every reader gets the value it gave.", "quantifier": "every schedule of readers and resets", "why_tests_cant": "depends on interleaving", "anchors": ["satella/coding/decorators/arguments.py:cached_property"]}
{"id": "C87", "title": "chain_functions", "statement": "The next function is called with arguments and keyword arguments if the first returns a 2-tuple of a tuple and a dictionary, with keyword arguments if it returns a dictionary, with arguments if it returns any other tuple, and otherwise with the returned value.", "quantifier": "every value the first function may return", "why_tests_cant": "return values are unbounded", "anchors": ["satella/coding/decorators/decorators.py:chain_functions"]}
{"id": "C88", "title": "Configuration schemas", "statement": "A value that conforms to a schema made of descriptors gives what the schema makes of it, any other value raises ConfigurationValidationError and nothing else, and this does not depend on which values the same schema was used for before.", "quantifier": "every schema (any nesting of lists, dictionaries and unions), every sequence of values", "why_tests_cant": "schemas and values nest arbitrarily, and the history matters", "anchors": ["satella/configuration/schema/structs.py:List", "satella/configuration/schema/structs.py:Dict", "satella/configuration/schema/structs.py:Union", "satella/configuration/schema/structs.py:Caster", "satella/configuration/schema/base.py:Descriptor"]}
{"id": "C89", "title": "Regexp and IPv4 descriptors", "statement": "A descriptor given by a regular expression returns a value that matches it unchanged and raises ConfigurationValidationError for any other; IPv4 accepts exactly IPv4 addresses.", "quantifier": "every regular expression, every string", "why_tests_cant": "expressions and strings are unbounded", "anchors": ["satella/configuration/schema/basic.py:Regexp", "satella/configuration/schema/basic.py:IPv4"]}
{"id": "C90", "title": "descriptor_from_dict", "statement": "A schema written as Python data gives a descriptor to which exactly the configurations conform that the documentation says, and from which it makes what the documentation says; anything that is not such a schema raises ConfigurationSchemaError.", "quantifier": "every documented schema, every configuration", "why_tests_cant": "schemas nest arbitrarily", "anchors": ["satella/configuration/schema/from_json.py:descriptor_from_dict"]}
{"id": "C91", "title": "Predicate expressions", "statement": "Whatever expression is built from the predicate x with operators, attributes, items and the methods of predicates, the result can be called with a value, and gives what the expression gives with the value in place of x, or raises what that raises. Nothing is computed before the call.", "quantifier": "every expression, every value", "why_tests_cant": "expressions nest arbitrarily", "anchors": ["satella/coding/predicates.py:PredicateClass"]}
{"id": "C92", "title": "The predicate inside", "statement": "x.inside(value) gives whether its argument is inside the value.", "quantifier": "every value and every argument", "why_tests_cant": "containment is arbitrary", "anchors": ["satella/coding/predicates.py:PredicateClass.inside"]}
{"id": "C93", "title": "build_structure", "statement": "A structure of lists, tuples and dictionaries that contain predicates is built into the same structure with every predicate replaced by its value.", "quantifier": "every structure, nested arbitrarily, every argument", "why_tests_cant": "structures nest arbitrarily", "anchors": ["satella/coding/predicates.py:build_structure"]}
{"id": "C94", "title": "overload", "statement": "A call of an overloaded function executes the registered function that matches the types of the arguments, the most specific if there are several, and raises TypeError exactly if none matches. A signature can be registered once.", "quantifier": "every set of registered signatures, every class hierarchy, every call", "why_tests_cant": "hierarchies and signatures are unbounded, and so is the order of registration", "anchors": ["satella/coding/overloading.py:overload", "satella/coding/overloading.py:TypeSignature"]}
{"id": "C95", "title": "Small transforms", "statement": "clip returns the nearest value between its limits; pad_to_multiple_of_length appends as few elements as needed; split_shuffle_and_join loses and repeats no element and keeps the order of the others; unpack_dict, list_values_to_indices, hashables_to_int and is_subset return what their names say, and raise exactly when documented.", "quantifier": "every list, dictionary, order and argument", "why_tests_cant": "inputs are unbounded, and shuffles and the iteration order of sets are arbitrary", "anchors": ["satella/coding/transforms/__init__.py:clip", "satella/coding/transforms/__init__.py:pad_to_multiple_of_length", "satella/coding/transforms/__init__.py:split_shuffle_and_join", "satella/coding/transforms/__init__.py:unpack_dict", "satella/coding/transforms/misc.py:list_values_to_indices", "satella/coding/transforms/words.py:hashables_to_int", "satella/coding/transforms/predicates.py:is_subset"]}
{"id": "C96", "title": "Interpolation and percentiles", "statement": "linear_interpolate gives the value on the line between the two entries around a time, so the entries themselves at their times, never divides by zero, and refuses or clips exactly the times outside of the series. percentile reads a list at the given fraction of its length; for a sorted list it grows from the least to the greatest entry.", "quantifier": "every sorted series, time, list and fraction (exact arithmetic)", "why_tests_cant": "series are unbounded, with repeated times", "anchors": ["satella/coding/transforms/interpol.py:linear_interpolate", "satella/coding/transforms/percentile.py:percentile"]}
{"id": "C97", "title": "DirtyDict", "statement": "A DirtyDict is a dictionary whose flag is set exactly if its contents were changed since the flag was last cleared; storing a value equal to the one stored already changes nothing, and calls that raise change nothing.", "quantifier": "every sequence of calls, every key and value", "why_tests_cant": "histories are unbounded", "anchors": ["satella/coding/structures/dictionaries/objects.py:DirtyDict"]}
{"id": "C98", "title": "TwoWayDictionary is one-to-one", "statement": "A TwoWayDictionary and its reverse are at all times the same one-to-one mapping, read from the keys and from the values, whichever of the two is changed; a call that raises changes neither. Construction is refused exactly if a value repeats.", "quantifier": "every sequence of calls on the dictionary and its reverse", "why_tests_cant": "histories are unbounded, and overwriting touches both directions", "anchors": ["satella/coding/structures/dictionaries/objects.py:TwoWayDictionary"]}
{"id": "C99", "title": "TwoWayDictionary can be closed", "statement": "done(), and leaving the with block, removes the reference cycle between a TwoWayDictionary and its reverse, and lets the exception of the block out.", "quantifier": "every state and every exception of the block", "why_tests_cant": "every state", "anchors": ["satella/coding/structures/dictionaries/objects.py:TwoWayDictionary.done", "satella/coding/structures/dictionaries/objects.py:TwoWayDictionary.__exit__"]}
{"id": "C100", "title": "DictionaryView", "statement": "A view over several dictionaries reads a key from the first that has it, and iterates over and counts every key once. Setting and deleting change that key only, in the one dictionary that the arguments of the constructor say, and after setting a key the view gives that value.", "quantifier": "every list of dictionaries, setting of the switches and sequence of calls", "why_tests_cant": "numbers of dictionaries and histories are unbounded", "anchors": ["satella/coding/structures/dictionaries/objects.py:DictionaryView"]}
{"id": "C101", "title": "Copies of a DictionaryView", "statement": "A copy of a view behaves as the view does.", "quantifier": "every view, every call", "why_tests_cant": "every combination of switches", "anchors": ["satella/coding/structures/dictionaries/objects.py:DictionaryView.__copy__"]}
{"id": "C102", "title": "KeyAwareDefaultDict", "statement": "Indexing a KeyAwareDefaultDict gives what is stored, or what the factory gives for the key, which is then stored; the factory is called for nothing else.", "quantifier": "every factory, every sequence of calls", "why_tests_cant": "histories and factories are arbitrary", "anchors": ["satella/coding/structures/dictionaries/objects.py:KeyAwareDefaultDict"]}
{"id": "C103", "title": "MetrifiedThreadPoolExecutor executes every task once", "statement": "While the executor is referenced: a submitted task is executed once, or failed with BrokenThreadPool as an initializer failed, and tasks are begun in the order in which they were submitted. There are never more threads than max_workers, and no task waits without a free worker as long as there are fewer. If nothing more is submitted, every task is done after finitely many steps, whatever the schedule. The metrics are given the waiting time of every task begun and the executing time of every task ended.", "quantifier": "every schedule of the submitting thread, shutdown, and any number of workers; every set of workers whose initializer fails", "why_tests_cant": "schedules are unbounded", "anchors": ["satella/instrumentation/metrics/structures/threadpool.py:MetrifiedThreadPoolExecutor", "satella/instrumentation/metrics/structures/threadpool.py:_worker"]}
{"id": "C104", "title": "Tasks of an executor that is not referenced any more", "statement": "A task submitted to a MetrifiedThreadPoolExecutor is executed even if the executor is not referenced any more.", "quantifier": "every schedule", "why_tests_cant": "the executor may be lost at any point", "anchors": ["satella/instrumentation/metrics/structures/threadpool.py:_worker"]}
{"id": "C105", "title": "shutdown of a MetrifiedThreadPoolExecutor ends the workers", "statement": "After shutdown every worker ends, so that shutdown(wait=True) returns.", "quantifier": "every schedule, every set of workers whose initializer fails", "why_tests_cant": "schedules are unbounded", "anchors": ["satella/instrumentation/metrics/structures/threadpool.py:_worker", "satella/instrumentation/metrics/structures/threadpool.py:MetrifiedThreadPoolExecutor._initializer_failed"]}
{"id": "C106", "title": "getMetric keeps one tree of metrics", "statement": "For metrics of types that exist, with the root asked for as a base metric and nothing asked for below a leaf metric: getMetric with the same name always returns the same metric, and different names give different metrics. It raises MetricAlreadyExists exactly if the metric exists with another type, and then nothing changes. It makes the metric, with the level given, and those above it that are missing, as base metrics, and nothing else changes. Every metric is a child of the metric above it, exactly once, and its fully qualified name is the name it is asked for with.", "quantifier": "every sequence of calls, every set of types", "why_tests_cant": "names and sequences are unbounded", "anchors": ["satella/instrumentation/metrics/__init__.py:getMetric", "satella/instrumentation/metrics/metric_types/base.py:Metric.append_child", "satella/instrumentation/metrics/metric_types/base.py:Metric.get_fully_qualified_name"]}
{"id": "C107", "title": "Failed calls of getMetric and reset leave no trace", "statement": "A call of getMetric that raises registers nothing; a metric returned by getMetric is of the type asked for and is reported; a metric that was reset is not reported any more.", "quantifier": "every sequence of calls", "why_tests_cant": "names and sequences are unbounded", "anchors": ["satella/instrumentation/metrics/__init__.py:getMetric", "satella/instrumentation/metrics/metric_types/base.py:Metric.reset", "satella/instrumentation/metrics/metric_types/base.py:LeafMetric.append_child"]}
{"id": "C108", "title": "Equal objects have equal hashes", "statement": "For objects of classes with OmniHashableMixin, ComparableAndHashableBy, ComparableAndHashableByInt (among themselves and with integers), ComparableAndHashableByStr and StrEqHashableMixin (among themselves and with strings), for HashableWrapper and for frozendict: two are equal exactly if what they are compared by is equal, equality is symmetric and transitive and `!=` is its opposite, also if one is of a subclass; equal ones have the same hash; frozendicts regardless of the order of insertion; and the comparisons of ComparableAndHashableBy are a total order if the field has one.", "quantifier": "every class hierarchy, every choice of fields, every value with an equality and a hash that agree", "why_tests_cant": "values and classes are unbounded", "anchors": ["satella/coding/structures/mixins/hashable.py:OmniHashableMixin", "satella/coding/structures/mixins/hashable.py:ComparableAndHashableBy", "satella/coding/structures/mixins/hashable.py:ComparableAndHashableByInt", "satella/coding/structures/mixins/hashable.py:ComparableAndHashableByStr", "satella/coding/structures/mixins/strings.py:StrEqHashableMixin", "satella/coding/structures/immutable.py:frozendict", "satella/coding/structures/hashable_objects.py:HashableWrapper"]}
{"id": "C109", "title": "Objects compared by number or string agree with everything", "statement": "A ComparableAndHashableByInt and a ComparableAndHashableByStr can be compared with anything, are equal only to what has the same hash, and equality stays transitive.", "quantifier": "every operand", "why_tests_cant": "operands are unbounded", "anchors": ["satella/coding/structures/mixins/hashable.py:ComparableAndHashableByInt", "satella/coding/structures/mixins/hashable.py:ComparableAndHashableByStr"]}
{"id": "C110", "title": "Immutable objects do not change", "statement": "The constructor of an Immutable assigns and deletes attributes as that of any object; after it, every assignment and deletion of an attribute (other than assigning the lock itself) raises TypeError and changes nothing.", "quantifier": "every constructor, every sequence of operations", "why_tests_cant": "sequences are unbounded", "anchors": ["satella/coding/structures/immutable.py:Immutable", "satella/coding/structures/immutable.py:ImmutableMetaType"]}
{"id": "C111", "title": "A frozendict does not change", "statement": "No operation changes a frozendict.", "quantifier": "every sequence of operations", "why_tests_cant": "sequences are unbounded", "anchors": ["satella/coding/structures/immutable.py:frozendict"]}
{"id": "C112", "title": "Equality of ComparableEnum", "statement": "A member of a ComparableEnum is equal to a value (that is not an enumeration itself) exactly if that is its value, to a member of another enumeration exactly if their values are equal, whichever is the first operand; and equality is an equivalence among members of ComparableEnums and values.", "quantifier": "every set of enumerations, every value", "why_tests_cant": "enumerations and values are unbounded", "anchors": ["satella/coding/structures/mixins/enums.py:ComparableEnum"]}
{"id": "C113", "title": "Comparable enumerations as keys and operands", "statement": "Members of ComparableEnum and ComparableIntEnum can be keys of dictionaries, and can be compared for equality with anything; the comparisons of ComparableIntEnum are those of the numbers.", "quantifier": "every value", "why_tests_cant": "values are unbounded", "anchors": ["satella/coding/structures/mixins/enums.py:ComparableEnum", "satella/coding/structures/mixins/enums.py:ComparableIntEnum"]}
{"id": "C114", "title": "Equality of DictionaryEQAble", "statement": "Two objects with DictionaryEQAble are equal exactly if they are of the same type and have the same attributes; `!=` is the opposite.", "quantifier": "every pair of objects", "why_tests_cant": "objects are unbounded", "anchors": ["satella/coding/structures/mixins/eqable.py:DictionaryEQAble"]}
{"id": "C115", "title": "A Proxy behaves as the object it wraps", "statement": "Every binary operator other than %, every comparison and every unary operator, with Proxies and bare objects in any combination as operands, gives what it gives for the wrapped objects, possibly wrapped, and raises what it raises; in-place operators keep the Proxy; without wrap_operations results are bare.", "quantifier": "every type of objects with any operators, every nesting of Proxies", "why_tests_cant": "objects, operators and nestings are unbounded", "anchors": ["satella/coding/structures/proxy.py:Proxy", "satella/coding/structures/proxy.py:wrap_operation"]}
{"id": "C116", "title": "A Proxy supports every operator and wraps results", "statement": "A Proxy supports all operators of the wrapped object, and with wrap_operations the results are Proxies that wrap in turn.", "quantifier": "every type of objects", "why_tests_cant": "objects are unbounded", "anchors": ["satella/coding/structures/proxy.py:Proxy", "satella/coding/structures/proxy.py:wrap_operation"]}
{"id": "C117", "title": "One instance for the same arguments", "statement": "If constructors do not raise: a class decorated with SingletonWithRegardsTo(n) has one instance for each list of the first n positional arguments, initialized once, with the arguments of the first call, until it is removed by delete_singleton_for, which raises KeyError if there is none; get_instances_for_singleton lists exactly the arguments for which there is one; a Singleton has one instance, initialized once.", "quantifier": "every sequence of calls with any arguments", "why_tests_cant": "sequences are unbounded", "anchors": ["satella/coding/structures/singleton.py:Singleton", "satella/coding/structures/singleton.py:SingletonWithRegardsTo", "satella/coding/structures/singleton.py:get_instances_for_singleton", "satella/coding/structures/singleton.py:delete_singleton_for"]}
{"id": "C118", "title": "Singletons that are returned are initialized", "statement": "Whatever the constructor does and however arguments are given, an instance returned by a call was initialized by a constructor that returned, called with the same first n arguments.", "quantifier": "every constructor, every sequence of calls", "why_tests_cant": "sequences and constructors are unbounded", "anchors": ["satella/coding/structures/singleton.py:Singleton", "satella/coding/structures/singleton.py:SingletonWithRegardsTo"]}
{"id": "C119", "title": "The level in effect of a metric", "statement": "After any calls of getMetric and assignments of levels, the level of a metric is its own, or if that is INHERIT, that of the metric above; it is never INHERIT, and the root cannot be set to INHERIT; a metric takes a value given for RUNTIME exactly if its level is RUNTIME or DEBUG, and a value given for DEBUG exactly if it is DEBUG; no other metric is affected.", "quantifier": "every tree of metrics, every sequence of calls and assignments", "why_tests_cant": "trees and sequences are unbounded", "anchors": ["satella/instrumentation/metrics/metric_types/base.py:Metric", "satella/instrumentation/metrics/metric_types/base.py:MetricLevel", "satella/instrumentation/metrics/__init__.py:getMetric"]}
{"id": "C120", "title": "What the root metric reports", "statement": "The data of the root metric contains exactly the entries of those leaf metrics for which the level in effect does not rise on the way from the root, each under its full name joined by dots, with at most one entry per name and labels.", "quantifier": "every tree of metrics, every sequence of calls and assignments, all data of leaf metrics", "why_tests_cant": "trees and sequences are unbounded", "anchors": ["satella/instrumentation/metrics/metric_types/base.py:Metric.to_metric_data", "satella/instrumentation/metrics/__init__.py:getMetric", "satella/instrumentation/metrics/data.py:MetricDataCollection"]}
{"id": "C121", "title": "Metrics of a cache count its lookups", "statement": "A MetrifiedCacheDict gives the same results as a CacheDict; each lookup is counted once, as a hit or as a miss; refreshes are the answers of the value getter, exceptions included; if failures are not cached, or for as long as values, hits are exactly the lookups answered without the value getter, and every lookup counted as a miss asked it.", "quantifier": "every sequence of calls, answers of the getter and clock readings", "why_tests_cant": "sequences and interleavings are unbounded", "anchors": ["satella/instrumentation/metrics/structures/cache_dict.py:MetrifiedCacheDict", "satella/coding/structures/dictionaries/cache_dict.py:CacheDict.has_info_about"]}
{"id": "C122", "title": "Metrics of a cache tell hits, evictions and queue length apart", "statement": "For every configuration: hits are exactly the lookups answered without the value getter or storage; the counter of evictions of a MetrifiedLRUCacheDict is the number of entries that had to go; entries_waiting of a MetrifiedExclusiveWritebackCache reports the number of writes waiting.", "quantifier": "every sequence of calls, every configuration", "why_tests_cant": "sequences are unbounded", "anchors": ["satella/instrumentation/metrics/structures/cache_dict.py:MetrifiedCacheDict", "satella/instrumentation/metrics/structures/cache_dict.py:MetrifiedLRUCacheDict", "satella/instrumentation/metrics/structures/cache_dict.py:MetrifiedExclusiveWritebackCache"]}
{"id": "C123", "title": "Measuring does not change calls and measures each once", "statement": "A function decorated with measure() gives what it gave, and however its calls overlap, at the end of each the difference of value_getter between its own end and start is handled once, except that with include_exceptions=False calls that raise Exceptions are not handled; blocks with measure() objects not in use twice at the same time, and futures each measured once, likewise; a measured generator yields and raises the same for every sequence of messages, and the difference between its first resumption and its end is handled once.", "quantifier": "every interleaving of calls, blocks and futures, every outcome, every generator and sequence of messages", "why_tests_cant": "interleavings and generators are unbounded", "anchors": ["satella/instrumentation/metrics/metric_types/measurable_mixin.py:MeasurableMixin.measure", "satella/instrumentation/metrics/metric_types/measurable_mixin.py:MeasurableMixin.measure_future"]}
{"id": "C124", "title": "Measuring is transparent and exact in every use", "statement": "Whatever is measured, with any sharing of measure() objects and futures: results are unchanged, including the value returned by a generator, each use is measured from its own start, and with include_exceptions=False nothing that raises is measured.", "quantifier": "every interleaving, every outcome, every generator", "why_tests_cant": "interleavings and generators are unbounded", "anchors": ["satella/instrumentation/metrics/metric_types/measurable_mixin.py:MeasurableMixin.measure", "satella/instrumentation/metrics/metric_types/measurable_mixin.py:MeasurableMixin.measure_future"]}
{"id": "C125", "title": "What Prometheus reads is what was reported", "statement": "Reading the text that metric_data_collection_to_prometheus gives as the Prometheus text format says yields, in order, exactly one sample for each entry that is not internal: its name with dots turned into underscores, all its labels with their values, whatever quotes, backslashes, commas and braces they contain, its value and its timestamp in milliseconds.", "quantifier": "every collection whose names and labels are identifiers (with dots) and whose label values contain no newlines", "why_tests_cant": "label values are arbitrary strings", "anchors": ["satella/instrumentation/metrics/exporters/prometheus.py:metric_data_collection_to_prometheus", "satella/instrumentation/metrics/exporters/prometheus.py:RendererObject.render"]}
{"id": "C126", "title": "The Prometheus text is readable and tells metrics apart", "statement": "For every collection of reported data the text can be read, and different metrics give different samples.", "quantifier": "every collection, every string as value of a label", "why_tests_cant": "label values and names are arbitrary strings", "anchors": ["satella/instrumentation/metrics/exporters/prometheus.py:metric_data_collection_to_prometheus", "satella/instrumentation/metrics/exporters/prometheus.py:RendererObject.render"]}
{"id": "C127", "title": "assert_equal agrees with equality", "statement": "assert_equal(a, b) returns for equal values; for values with the same kinds of containers at the same places it raises Inequal exactly when they are not equal, however deep the difference is.", "quantifier": "all nested values of numbers, strings, None, lists, tuples, dictionaries, sets and objects", "why_tests_cant": "nesting is unbounded", "anchors": ["satella/coding/deep_compare.py:assert_equal"]}
{"id": "C128", "title": "assert_equal raises Inequal for all unequal values", "statement": "For any two values that are not equal assert_equal raises Inequal, in whichever order they are given.", "quantifier": "all pairs of values, also of different kinds", "why_tests_cant": "nesting and kinds are unbounded", "anchors": ["satella/coding/deep_compare.py:assert_equal"]}
{"id": "C129", "title": "jsonify gives the documented JSON", "statement": "Whenever the documented conversion of a value (enums to their values, JSONAble objects to what to_json gives, mappings and iterables element by element, other objects to strings) is JSON, jsonify returns it; it leaves JSON unchanged.", "quantifier": "all nested values", "why_tests_cant": "nesting is unbounded", "anchors": ["satella/coding/transforms/jsonify.py:jsonify"]}
{"id": "C130", "title": "jsonify always gives JSON with all entries", "statement": "jsonify returns JSON for every value, with one entry for each entry of a mapping.", "quantifier": "all nested values", "why_tests_cant": "nesting is unbounded", "anchors": ["satella/coding/transforms/jsonify.py:jsonify"]}
{"id": "C131", "title": "Recursive stringify gives the documented strings", "statement": "With recursively=True, stringify returns the documented value whenever its keys are different scalars; everything in a result is a string, or None if str_none is False; stringifying a result again changes nothing.", "quantifier": "all nested values, every stringifier", "why_tests_cant": "nesting is unbounded", "anchors": ["satella/coding/transforms/__init__.py:stringify"]}
{"id": "C132", "title": "stringify treats enums, None and keys the same at every level", "statement": "Enums become their names and None follows str_none also inside lists and dictionaries; no value makes stringify raise, and no entry is lost.", "quantifier": "all values, every stringifier", "why_tests_cant": "nesting is unbounded", "anchors": ["satella/coding/transforms/__init__.py:stringify"]}
{"id": "C133", "title": "Vectors, typed named tuples and zipped sets", "statement": "Sums and differences of vectors of the same length, and multiplication and division by numbers, are entry by entry and inverse to each other; typednamedtuple with no more positional arguments than fields returns a tuple exactly when each field has one value that can be converted and there are no other arguments, and then each field has its value, converted if it is not of the type already; a SetZip contains exactly what its sets do, and iteration gives exactly what it contains.", "quantifier": "all vectors, fields, arguments, conversions and sets", "why_tests_cant": "lengths are unbounded", "anchors": ["satella/coding/structures/tuples.py:Vector", "satella/coding/structures/typednamedtuple.py:typednamedtuple", "satella/coding/structures/zip_dict.py:SetZip"]}
{"id": "C134", "title": "Vectors, typed named tuples and zipped sets refuse what they cannot hold", "statement": "Vectors of different lengths cannot be added; typednamedtuple refuses excess positional arguments; a SetZip has the length of the union and gives each element once.", "quantifier": "all vectors, arguments and sets", "why_tests_cant": "lengths are unbounded", "anchors": ["satella/coding/structures/tuples.py:Vector", "satella/coding/structures/typednamedtuple.py:typednamedtuple", "satella/coding/structures/zip_dict.py:SetZip"]}
{"id": "C135", "title": "Tainting does not change values and spreads", "statement": "Within a tainting session, an expression of +, -, *, comparisons and items that evaluates gives, taints aside, what it would give without tainting; its value is tainted if it reads a tainted variable outside operands of !=, nothing is tainted if no variable is, and iterating over a tainted list gives its elements, tainted.", "quantifier": "every expression, all values of variables", "why_tests_cant": "expressions are unbounded", "anchors": ["satella/debug/tainting/tainteds.py:TaintedObject", "satella/debug/tainting/tainteds.py:taint", "satella/debug/tainting/tainteds.py:access_tainted"]}
{"id": "C136", "title": "A program runs under tainting as without", "statement": "Every expression of +, -, *, comparisons and items evaluates under tainting whenever it does without, and its value is tainted if it reads a tainted variable.", "quantifier": "every expression, all values of variables", "why_tests_cant": "expressions are unbounded", "anchors": ["satella/debug/tainting/tainteds.py:TaintedObject"]}
{"id": "C137", "title": "Tracebacks preserve frames and values", "statement": "A Traceback has the starting frame (or the one that raised) and all frames that called it, innermost first, each with its name, file, line and all variables; a variable keeps its repr up to the limit; load_value returns the value if pickling was enabled and succeeded, compressed or not, and raises ValueError otherwise; a Traceback read from its own JSON equals it, with the same text, places, reprs and types.", "quantifier": "every stack of frames, policy, values, pickling that loads what it dumped", "why_tests_cant": "stacks, values and limits are unbounded", "anchors": ["satella/instrumentation/trace_back/classes.py:StoredVariableValue", "satella/instrumentation/trace_back/classes.py:StackFrame", "satella/instrumentation/trace_back/trace_back.py:Traceback", "satella/instrumentation/trace_back/trace_back.py:frame_from_traceback"]}
{"id": "C138", "title": "Values survive JSON and failures are ValueError", "statement": "The value of a variable that can be loaded from a Traceback can also be loaded after the Traceback went through to_json and from_json; load_value raises nothing but ValueError; a Traceback can be made for all frames.", "quantifier": "every stack of frames, policy and values", "why_tests_cant": "all values and pickles", "anchors": ["satella/instrumentation/trace_back/classes.py:StoredVariableValue.from_json", "satella/instrumentation/trace_back/classes.py:StoredVariableValue.load_value", "satella/instrumentation/trace_back/classes.py:StoredVariableValue.__init__"]}
{"id": "C139", "title": "Sleeping that looks at the CPU", "statement": "sleep_cpu_aware with a positive check_each ends: after exactly the time asked for, returning False, if no factor read was past a threshold, and otherwise at the first factor that was, returning True; factors are read each check_each and it never sleeps longer than asked. A CPUTimeAwareIntervalTerminableThread sleeps between loops at most the rest of its interval and, unless terminated, at least that less max_sooner, and on_overrun is called exactly when a loop took longer than the interval.", "quantifier": "every time to sleep, checking interval, thresholds, and sequence of factors; every interval, max_sooner and moment of being awoken", "why_tests_cant": "factors and times are unbounded", "anchors": ["satella/instrumentation/cpu_time/collector.py:sleep_cpu_aware", "satella/instrumentation/cpu_time/concurrency.py:CPUTimeAwareIntervalTerminableThread"]}
{"id": "C140", "title": "All sleeping arguments work", "statement": "sleep_cpu_aware ends for every check_each that is not negative; the thread may be given a time string as its interval and any max_sooner, including 0, and is never called earlier than max_sooner allows.", "quantifier": "all arguments", "why_tests_cant": "arguments are unbounded", "anchors": ["satella/instrumentation/cpu_time/collector.py:sleep_cpu_aware", "satella/instrumentation/cpu_time/concurrency.py:CPUTimeAwareIntervalTerminableThread.__init__"]}
{"id": "C141", "title": "Statistics of CPU use", "statement": "In any history of calls one after another: each occupancy factor is the CPU time used since the previous factor, over CPUs and time passed, and is between 0 and 1 if CPU times are sane, and a call needs two attempts at most; a percentile asked for is that of the data of the last recalculation whatever was requested; get_own_cpu_usage gives the growth of each field between the last two measures over the time between them.", "quantifier": "every history of readings, requests, recalculations and measures", "why_tests_cant": "histories are unbounded", "anchors": ["satella/instrumentation/cpu_time/collector.py:_calculate_occupancy_factor", "satella/instrumentation/cpu_time/collector.py:calculate_occupancy_factor", "satella/instrumentation/cpu_time/collector.py:_CPUProfileBuilderThread"]}
{"id": "C142", "title": "Statistics of CPU use under threads", "statement": "Whatever the schedule of threads, occupancy factors are between 0 and 1, and percentile returns a percentile of collected data.", "quantifier": "every schedule of threads", "why_tests_cant": "schedules are unbounded", "anchors": ["satella/instrumentation/cpu_time/collector.py:_calculate_occupancy_factor", "satella/instrumentation/cpu_time/collector.py:_CPUProfileBuilderThread.percentile", "satella/instrumentation/cpu_time/collector.py:_CPUProfileBuilderThread._recalculate"]}
{"id": "C143", "title": "Helpers for iteration give what they are described to", "statement": "enumerate2, smart_enumerate and count number elements from start by step; append_sequence, smart_zip and iter_dict_of_list give the described rows in order; iterate_callable ends at the first exception; f_range with a step that is not zero gives exactly the numbers start + i\u00b7step before stop, and ends; is_empty, length, index_of, index_of_max, filter_out_* and unpack_dict answer as described; Multirun on a sequence does the operation on each element in order up to an exception.", "quantifier": "every sequence, start, stop, step, callable, predicate and dictionary", "why_tests_cant": "sequences are unbounded, f_range ranges over all numbers", "anchors": ["satella/coding/sequences/iterators.py:enumerate2", "satella/coding/sequences/iterators.py:smart_enumerate", "satella/coding/sequences/iterators.py:count", "satella/coding/sequences/iterators.py:append_sequence", "satella/coding/sequences/iterators.py:smart_zip", "satella/coding/sequences/iterators.py:iter_dict_of_list", "satella/coding/sequences/iterators.py:iterate_callable", "satella/coding/sequences/iterators.py:f_range", "satella/coding/sequences/iterators.py:is_empty", "satella/coding/sequences/iterators.py:length", "satella/coding/sequences/sequences.py:index_of", "satella/coding/sequences/sequences.py:index_of_max", "satella/coding/sequences/sequences.py:filter_out_nones", "satella/coding/sequences/sequences.py:filter_out_false", "satella/coding/sequences/sequences.py:Multirun", "satella/coding/transforms/__init__.py:unpack_dict"]}
{"id": "C144", "title": "Helpers for iteration in all cases", "statement": "f_range ends or raises for every step; count prefers start to start_at; unpack_dict gives None only for missing keys; Multirun works on each element of any iterable; zip_shifted gives an iterator for every shift.", "quantifier": "every sequence, step, shift and mapping function", "why_tests_cant": "sequences and shifts are unbounded", "anchors": ["satella/coding/sequences/iterators.py:f_range", "satella/coding/sequences/iterators.py:count", "satella/coding/sequences/iterators.py:zip_shifted", "satella/coding/sequences/sequences.py:Multirun", "satella/coding/transforms/__init__.py:unpack_dict"]}
{"id": "C145", "title": "Exceptions are logged and otherwise left, or caught as asked", "statement": "A function, generator or block under log_exceptions that ends normally or with an exception not of exc_types does as without it and nothing is logged; an exception of exc_types is logged exactly once, with each field of the format string replaced by what it stands for, if all do, and is then raised, or swallowed if so asked. reraise_as as a context manager, raises_exception and catch_exception decide as described.", "quantifier": "every function, exception, format string, locals_ and exc_types", "why_tests_cant": "format strings and what is raised are unbounded", "anchors": ["satella/coding/recast_exceptions.py:log_exceptions", "satella/coding/recast_exceptions.py:reraise_as", "satella/coding/recast_exceptions.py:raises_exception", "satella/coding/recast_exceptions.py:catch_exception"]}
{"id": "C146", "title": "Logging never replaces the exception", "statement": "The exception of a function under log_exceptions is logged and raised, whichever documented fields the format string has and whichever exc_types are given; catch_exception is equivalent to the code in its docs.", "quantifier": "every function, exception, format string and exc_types", "why_tests_cant": "format strings and what is raised are unbounded", "anchors": ["satella/coding/recast_exceptions.py:log_exceptions", "satella/coding/recast_exceptions.py:catch_exception"]}
{"id": "C147", "title": "Exceptions with codes are instances of classes with the code", "statement": "If exceptions with codes have single bases, an exception is an instance of one of their classes exactly if its class is that or below it, or both are in one hierarchy under CodedCustomException and it has the code of the class; the check always ends.", "quantifier": "every class hierarchy, every exception and code", "why_tests_cant": "hierarchies are unbounded", "anchors": ["satella/exceptions.py:CodedCustomExceptionMetaclass", "satella/exceptions.py:CodedCustomException", "satella/exceptions.py:get_base_of_bases"]}
{"id": "C148", "title": "Exceptions with codes in all hierarchies, texts of exceptions", "statement": "The check also works for a CodedCustomException itself and for classes with several bases, as the docs show; every CustomException has a str and a faithful repr.", "quantifier": "every class hierarchy, every exception", "why_tests_cant": "hierarchies are unbounded", "anchors": ["satella/exceptions.py:CodedCustomException", "satella/exceptions.py:CustomException"]}
{"id": "C149", "title": "Values are encoded to JSON as described", "statement": "None, booleans, numbers, strings, lists, tuples and dictionaries with different strings as keys are encoded as such; members of enumerations as their values, objects as dictionaries of their attributes or as their to_json gives, others as a text with the name of the class. Writing to a file if different leaves the file with the text and says whether it was written; it is not written if it has the text.", "quantifier": "every value, nested to any depth", "why_tests_cant": "values are unbounded", "anchors": ["satella/json.py:JSONEncoder", "satella/json.py:json_encode", "satella/json.py:write_json_to_file", "satella/json.py:write_json_to_file_if_different"]}
{"id": "C150", "title": "Everything is encoded, and a failed write leaves the file", "statement": "Every value, with any keys and any slots, can be encoded without losing entries; a write that fails leaves the file as it was.", "quantifier": "every value, nested to any depth", "why_tests_cant": "values are unbounded", "anchors": ["satella/json.py:JSONEncoder", "satella/json.py:json_encode", "satella/json.py:write_json_to_file"]}
{"id": "C151", "title": "Closing lets a generator complete, chaining gives all elements, hints give the length", "statement": "A SelfClosingGenerator gives the elements of the generator; closing it runs the generator to its end, once, and raises what it raises. chain gives elements of its arguments in order, elements themselves if they are not iterable; hint_with_length gives the elements and the length hinted.", "quantifier": "every generator, every number of elements taken before closing, every list of arguments", "why_tests_cant": "generators are unbounded and may be closed at any point", "anchors": ["satella/coding/iterators.py:SelfClosingGenerator", "satella/coding/iterators.py:exhaust", "satella/coding/iterators.py:chain", "satella/coding/iterators.py:hint_with_length"]}
{"id": "C152", "title": "Closing, chaining and hints for all generators and iterables", "statement": "send works on a SelfClosingGenerator; an exception of a generator, whichever it is, is not hidden by closing or chaining; hints work also for generator functions with length_factory.", "quantifier": "every generator, every list of arguments", "why_tests_cant": "generators are unbounded and may be closed at any point", "anchors": ["satella/coding/iterators.py:SelfClosingGenerator", "satella/coding/iterators.py:chain", "satella/coding/iterators.py:hint_with_length"]}
{"id": "C153", "title": "A process that is called gives all of its output", "statement": "Whatever the order in which the process, the reading thread and the caller act: call_and_return_stdout that returns gives all that the process wrote, in order; ProcessFailed is raised exactly if the return code is not the expected one; TimeoutError only if a timeout was given. If the output fits in the pipe, the call ends.", "quantifier": "every output, return code and arguments, every interleaving of the process, the thread and the caller", "why_tests_cant": "interleavings are unbounded", "anchors": ["satella/processes.py:call_and_return_stdout", "satella/processes.py:read_nowait"]}
{"id": "C154", "title": "Calling a process ends for every output and encoding", "statement": "A call ends once the process has nothing more to write, however much that is; text is decoded with the encoding given.", "quantifier": "every output and encoding, every interleaving", "why_tests_cant": "interleavings are unbounded", "anchors": ["satella/processes.py:call_and_return_stdout", "satella/processes.py:read_nowait"]}
{"id": "C155", "title": "Attributes of a DictObject are its items", "statement": "For every history of calls in which attributes that are read are not names of methods, attributes and items are two ways to one map, a missing one is AttributeError or KeyError. apply_dict_object gives the same value with dicts made into DictObjects, at every depth. DictObject of a dict is independent of it.", "quantifier": "every history of calls, every nested value", "why_tests_cant": "histories and nesting are unbounded", "anchors": ["satella/coding/structures/dictionaries/dict_object.py:DictObject", "satella/coding/structures/dictionaries/dict_object.py:apply_dict_object"]}
{"id": "C156", "title": "Every key, every dict and every copy of a DictObject", "statement": "Every string key can be read as an attribute; apply_dict_object applies to every dict inside; DictObject of a DictObject is a copy, as for dict.", "quantifier": "every key, every nested value", "why_tests_cant": "histories and nesting are unbounded", "anchors": ["satella/coding/structures/dictionaries/dict_object.py:DictObject", "satella/coding/structures/dictionaries/dict_object.py:apply_dict_object"]}
{"id": "C157", "title": "Data objects are created, compared and converted by their fields", "statement": "An object is created exactly if each field without a default is given, else ValueError; to_json has exactly the fields with their values, and from_json of that is equal to the object; objects of a class are equal exactly if all fields are, and equal objects have equal hashes.", "quantifier": "every class with fields and defaults, every arguments", "why_tests_cant": "fields and values are unbounded", "anchors": ["satella/json.py:JSONAbleDataObject"]}
{"id": "C158", "title": "Data objects with inherited fields, compared with anything", "statement": "Fields of base classes are fields; comparing with any value gives a boolean, the same both ways; an argument that is no field is refused.", "quantifier": "every class, every value", "why_tests_cant": "fields and values are unbounded", "anchors": ["satella/json.py:JSONAbleDataObject"]}
{"id": "C159", "title": "Importing gives exactly what modules list", "statement": "import_from puts into the locals given exactly the names that the modules of the package list, each with its value, the one of the module imported last if it is listed more than once, and creates or extends the list of all names; a module that cannot be imported makes it fail. import_class gives the attribute named after the last dot of the module before it.", "quantifier": "every tree of modules, every dictionary of locals", "why_tests_cant": "trees of modules are unbounded", "anchors": ["satella/imports.py:import_from", "satella/imports.py:import_class"]}
{"id": "C160", "title": "Importing skips what is asked for and imports what is there", "statement": "skip_single_underscores skips names that begin with one underscore; skip_not_having_all skips modules without a list of names; packages are imported whatever their names.", "quantifier": "every tree of modules", "why_tests_cant": "trees of modules are unbounded", "anchors": ["satella/imports.py:import_from"]}
{"id": "C161", "title": "Sleeping lasts for at least the interval in spite of interrupts", "statement": "sleep that returns True took at least the interval; it returns False only for negative intervals, at once, or when it was to abort on interrupts and there was one; however many interrupts there were, the first sleep that is not interrupted ends it.", "quantifier": "every interval, every timing, every sequence of interrupts", "why_tests_cant": "timings and sequences of interrupts are unbounded", "anchors": ["satella/time/misc.py:sleep"]}
{"id": "C162", "title": "Sleeping always lasts for the interval and is not interrupted", "statement": "sleep always takes the interval and raises no exception, whenever interrupts come and whatever the delays between instructions are.", "quantifier": "every interval, every timing", "why_tests_cant": "timings are unbounded", "anchors": ["satella/time/misc.py:sleep"]}
{"id": "C163", "title": "Hanging until a signal ends with it and restores handlers", "statement": "hang_until_sig returns after SIGTERM or one of the extra signals came, and only then; after it, with different extra signals, all handlers are as they were and a next call hangs again.", "quantifier": "every handlers, extra signals and sequence of signals", "why_tests_cant": "sequences of signals are unbounded", "anchors": ["satella/os/signals.py:hang_until_sig"]}
{"id": "C164", "title": "SIGINT ends hanging, handlers are always restored", "statement": "hang_until_sig returns after SIGINT; handlers are restored for any extra signals, also when an exception leaves the call.", "quantifier": "every handlers, extra signals and sequence of signals", "why_tests_cant": "sequences of signals are unbounded", "anchors": ["satella/os/signals.py:hang_until_sig"]}
{"id": "C165", "title": "The size of an object counts everything it consists of once", "statement": "get_size of an object made of plain dictionaries, containers, texts and instances ends and is the sum of sizes of all the objects that are reached from it, each counted once, however they are shared or cyclic.", "quantifier": "every finite graph of objects", "why_tests_cant": "graphs of objects are unbounded", "anchors": ["satella/instrumentation/memory/get_object_size.py:get_size"]}
{"id": "C166", "title": "The size counts every component and measuring changes nothing", "statement": "get_size counts attributes in slots, elements of containers with attributes and attributes of dictionaries, and leaves what is measured as it was.", "quantifier": "every finite graph of objects", "why_tests_cant": "graphs of objects are unbounded", "anchors": ["satella/instrumentation/memory/get_object_size.py:get_size"]}
{"id": "C167", "title": "A rolling average is the mean of the last samples", "statement": "For every history of calls, the average is the arithmetic mean of the last n samples inserted since the last clearing, ZeroDivisionError exactly if there are none, for every n greater than zero and every arithmetic in which sums of n of the samples are exact.", "quantifier": "every size and history of calls", "why_tests_cant": "histories are unbounded", "anchors": ["satella/coding/sequences/average.py:RollingArithmeticAverage"]}
{"id": "C168", "title": "A rolling average for every size and for floats", "statement": "An average of any size accepted can be used; with floats it is the mean of the last samples up to the rounding of these.", "quantifier": "every size and history of calls", "why_tests_cant": "histories are unbounded", "anchors": ["satella/coding/sequences/average.py:RollingArithmeticAverage"]}
{"id": "C169", "title": "A CountingDict counts", "statement": "For every history of calls, what is given for an element is the number of pieces counted since the last clearing, KeyError exactly if it was not; elements come in the order in which they were first counted, each once. A new one counts occurrences in the sequence given.", "quantifier": "every sequence and history of calls", "why_tests_cant": "histories are unbounded", "anchors": ["satella/coding/structures/dictionaries/counting.py:CountingDict"]}
{"id": "C170", "title": "Choosing gives the element that matches", "statement": "choose returns an element exactly if it is the first that matches, choose_one exactly if it is the only one, choose_with_index with the number of those before it; ValueError exactly if there are none, or many when checking.", "quantifier": "every iterable and filter, also one that raises", "why_tests_cant": "iterables are unbounded", "anchors": ["satella/coding/sequences/choose.py:choose", "satella/coding/sequences/choose.py:choose_one", "satella/coding/sequences/choose.py:choose_with_index"]}
{"id": "C171", "title": "Checking for many matches exhausts the iterator", "statement": "choose with check_multiple leaves nothing in the iterator, whatever it finds.", "quantifier": "every iterable and filter", "why_tests_cant": "iterables are unbounded", "anchors": ["satella/coding/sequences/choose.py:choose"]}
{"id": "C172", "title": "The action runs when an iterated generator completes", "statement": "Iterating a generator watched gives its values in order and runs the action exactly once, when StopIteration is raised; it is not run before, nor when the generator raises, nor after close.", "quantifier": "every generator, every number of values taken", "why_tests_cant": "generators are unbounded", "anchors": ["satella/coding/generators.py:RunActionAfterGeneratorCompletes", "satella/coding/generators.py:run_when_generator_completes"]}
{"id": "C173", "title": "The action runs once, however the generator completes", "statement": "For every history of calls the action is run exactly once if the generator completes, also in send or next, and not otherwise.", "quantifier": "every generator and history of calls", "why_tests_cant": "histories are unbounded", "anchors": ["satella/coding/generators.py:RunActionAfterGeneratorCompletes"]}
{"id": "C174", "title": "An Optional of None does nothing, others are as the object", "statement": "Any chain of attributes, calls and items of an Optional of None gives an empty Optional and changes nothing; it is false, empty and equals nothing. Supported operations on an Optional of an object are those on the object. extract_optional gives what was wrapped.", "quantifier": "every chain of operations, every object", "why_tests_cant": "chains and objects are unbounded", "anchors": ["satella/coding/optionals.py:Optional", "satella/coding/optionals.py:extract_optional", "satella/coding/optionals.py:iterate_if_nnone", "satella/coding/optionals.py:call_if_nnone"]}
{"id": "C175", "title": "All operations on an Optional", "statement": "All comparisons of an Optional of None are false, other operations do nothing; an Optional of an object can be hashed as the object.", "quantifier": "every operation and object", "why_tests_cant": "objects are unbounded", "anchors": ["satella/coding/optionals.py:Optional"]}
{"id": "C176", "title": "The process is killed exactly on MemoryError", "statement": "If writing to stderr works or fails with an I/O error, the handler kills the process exactly if the exception is a MemoryError and the custom hook did not give something true, also if the hook raised; the group exactly if asked for and led by the process; other exceptions are left to other hooks.", "quantifier": "every exception, hook and process", "why_tests_cant": "hooks are unbounded", "anchors": ["satella/exception_handling/memerrhandler.py:MemoryErrorExceptionHandler", "satella/os/misc.py:suicide"]}
{"id": "C177", "title": "Killing does not depend on stderr, installing twice is refused", "statement": "The process is killed also if stderr cannot be written to; installing the handler twice raises RuntimeError.", "quantifier": "every hook, every number of installations", "why_tests_cant": "numbers are unbounded", "anchors": ["satella/exception_handling/memerrhandler.py:MemoryErrorExceptionHandler"]}
{"id": "C178", "title": "An exception is dumped to all targets", "statement": "If no target fails, and neither a logger nor None is given for pickles: each stream and logger gets, after what they had, one piece for each time it was given; a file given holds the last piece written to it; nothing else changes.", "quantifier": "every lists of targets, every world", "why_tests_cant": "lists are unbounded", "anchors": ["satella/exception_handling/dump_to_file.py:DumpToFileHandler", "satella/exception_handling/dump_to_file.py:AsStream"]}
{"id": "C179", "title": "Every exception is kept, a failing target does not spoil others", "statement": "What was dumped about earlier exceptions stays; a target that fails does not prevent others; every target accepted can be written to.", "quantifier": "every lists of targets and exceptions", "why_tests_cant": "lists are unbounded", "anchors": ["satella/exception_handling/dump_to_file.py:DumpToFileHandler", "satella/exception_handling/dump_to_file.py:AsStream"]}
{"id": "C180", "title": "Classes made by metaclass_maker have a compatible metaclass", "statement": "At any moment of any program, a class made from existing classes has a metaclass deriving from those of all bases and from all asked for; other classes do not change; there is never a conflict of metaclasses; bases with the same metaclasses give the very same metaclass; a combined metaclass is made of exactly the metaclasses that are needed.", "quantifier": "every hierarchy of classes, every program of class definitions", "why_tests_cant": "hierarchies are unbounded", "anchors": ["satella/coding/metaclasses.py:metaclass_maker", "satella/coding/metaclasses.py:get_noconflict_metaclass", "satella/coding/metaclasses.py:skip_redundant", "satella/coding/metaclasses.py:remove_redundant"]}
{"id": "C181", "title": "Documentation is fetched from ancestors", "statement": "With DocsFromParent, a method without documentation gets that of its namesake in the first ancestor, breadth first, that has a documented one, and the class likewise; what was documented stays, and so do other functions.", "quantifier": "every tree of ancestors and every namespace with functions of its own", "why_tests_cant": "trees are unbounded", "anchors": ["satella/coding/metaclasses.py:DocsFromParent"]}
{"id": "C182", "title": "CopyDocsFrom documents all methods", "statement": "Every method without documentation gets that of its namesake in the source.", "quantifier": "every source and namespace", "why_tests_cant": "namespaces are unbounded", "anchors": ["satella/coding/metaclasses.py:CopyDocsFrom"]}
{"id": "C183", "title": "Fetching documentation leaves other classes alone and takes the nearest", "statement": "The documentation of other classes never changes, and the documentation taken is that of the nearest ancestor.", "quantifier": "every tree of ancestors and namespace", "why_tests_cant": "trees are unbounded", "anchors": ["satella/coding/metaclasses.py:DocsFromParent"]}
{"id": "C184", "title": "wrap_with wraps exactly the selected members", "statement": "A class is made exactly if no given function raises; it has the same names in the same order, with exactly the callables and properties wrapped that are selected and not marked with dont_wrap.", "quantifier": "every namespace and all functions given", "why_tests_cant": "namespaces are unbounded", "anchors": ["satella/coding/metaclasses.py:wrap_with", "satella/coding/metaclasses.py:dont_wrap"]}
{"id": "C185", "title": "Sources described by dictionaries are built as described", "statement": "Loading a description gives an object exactly if that is the object described, at any depth of nesting: the type named called with the arguments described, wrapped if optional. A list gives the merging of all.", "quantifier": "every description at any depth of nesting", "why_tests_cant": "descriptions are unbounded", "anchors": ["satella/configuration/sources/from_dict.py:load_source_from_dict", "satella/configuration/sources/from_dict.py:load_source_from_list", "satella/configuration/sources/from_dict.py:handle_import"]}
{"id": "C186", "title": "A dictionary with an unknown type is handed over", "statement": "An argument that is a dictionary with an unknown type is handed over as it is, with a warning.", "quantifier": "every description", "why_tests_cant": "descriptions are unbounded", "anchors": ["satella/configuration/sources/from_dict.py:load_source_from_dict"]}
{"id": "C187", "title": "Sources reading environment variables", "statement": "An EnvironmentSource provides one entry with the value after the cast, an EnvVarsSource the dictionary in the variable; what fails is a ConfigurationError, except for other exceptions of the cast.", "quantifier": "every environment and cast", "why_tests_cant": "casts are unbounded", "anchors": ["satella/configuration/sources/envvars.py:EnvironmentSource", "satella/configuration/sources/envvars.py:EnvVarsSource"]}
{"id": "C188", "title": "whereis finds programs in the order of PATH", "statement": "If the directories can be examined or do not exist, whereis gives one path for each directory having a file of the name that shows an x, in the order of PATH, and ends.", "quantifier": "every file system and PATH", "why_tests_cant": "file systems are unbounded", "anchors": ["satella/os/misc.py:whereis", "satella/os/misc.py:safe_listdir"]}
{"id": "C189", "title": "whereis gives exactly executable files", "statement": "whereis gives exactly the executable files of the name, whatever else is in the directories.", "quantifier": "every file system and PATH", "why_tests_cant": "file systems are unbounded", "anchors": ["satella/os/misc.py:whereis"]}
{"id": "C190", "title": "A daemon is detached and set up", "statement": "With the group given by number, not together with a user other than root, and run by root if any of them is given, daemonize clears the mask, forks, leads a session, forks again, goes to /, closes the standard streams, redirects them if asked and sets exactly the user and the group given.", "quantifier": "every user, group and database of users", "why_tests_cant": "databases are unbounded", "anchors": ["satella/os/daemon.py:daemonize"]}
{"id": "C191", "title": "Users and groups of daemons", "statement": "A group can be given by name, and a user together with a group.", "quantifier": "every user, group and database of users", "why_tests_cant": "databases are unbounded", "anchors": ["satella/os/daemon.py:daemonize"]}
{"id": "C192", "title": "An object is loaded before it is used", "statement": "In every schedule of threads, whatever fails, the body of a method decorated with must_be_loaded is executed only after a refresh succeeded; a failed refresh is raised and tried again in the next call; with one thread the object is loaded at most once.", "quantifier": "every schedule of any number of threads, every failure", "why_tests_cant": "schedules are unbounded", "anchors": ["satella/dao.py:Loadable", "satella/dao.py:must_be_loaded"]}
{"id": "C193", "title": "Loading in the constructor, once", "statement": "load_lazy=True loads in the constructor, as documented, and an object is loaded once.", "quantifier": "every schedule", "why_tests_cant": "schedules are unbounded", "anchors": ["satella/dao.py:Loadable", "satella/dao.py:must_be_loaded"]}
{"id": "C194", "title": "Small decorators call what they say, once", "statement": "default_return, return_as_list, short_none, call_method_on_exception, execute_before, the guards on attributes and has_keys: for every function, whatever it does and raises, it is called exactly when and with what is documented, once, and results and exceptions are those documented.", "quantifier": "every function with effects on any state, every generator", "why_tests_cant": "functions and generators are unbounded", "anchors": ["satella/coding/decorators/decorators.py:default_return", "satella/coding/decorators/decorators.py:return_as_list", "satella/coding/decorators/decorators.py:short_none", "satella/coding/decorators/decorators.py:call_method_on_exception", "satella/coding/decorators/decorators.py:has_keys", "satella/coding/decorators/arguments.py:execute_before", "satella/coding/decorators/arguments.py:execute_if_attribute_none", "satella/coding/decorators/arguments.py:execute_if_attribute_not_none"]}
{"id": "C195", "title": "Chained callables and parameters of execute_before", "statement": "chain_callables calls the second callable once, with the result if it takes an argument and else with none; a callable for execute_before can be given any parameters.", "quantifier": "every callable", "why_tests_cant": "callables are unbounded", "anchors": ["satella/coding/misc.py:chain_callables", "satella/coding/decorators/arguments.py:execute_before"]}
{"id": "C196", "title": "Functions given copies do not change the originals", "statement": "With deep_copy=True, whatever a function does with its arguments, no object that existed before the call changes; with plain copies none changes if the function writes into its arguments only.", "quantifier": "every heap, arguments and program", "why_tests_cant": "programs and heaps are unbounded", "anchors": ["satella/coding/decorators/arguments.py:copy_arguments"]}
{"id": "C197", "title": "Conditional updates, membership and length", "statement": "Dictionaries and attributes are updated exactly under the documented condition, to the last value not None; contains and length agree with comparing and counting, including what they raise.", "quantifier": "every dictionary, object, iterable and comparison", "why_tests_cant": "inputs are unbounded", "anchors": ["satella/coding/misc.py:update_key_if_true", "satella/coding/misc.py:update_key_if_not_none", "satella/coding/misc.py:update_attr_if_none", "satella/coding/misc.py:contains", "satella/coding/misc.py:length"]}
{"id": "C198", "title": "Sequences shuffled together stay together", "statement": "Given sequences of one length, shuffle_together gives as many, rearranged by one permutation: elements at one index stay together and each sequence keeps its elements. A random word has the length asked for and only what was to choose from.", "quantifier": "every number and length of sequences, every outcome of the generator of random numbers", "why_tests_cant": "outcomes are unbounded", "anchors": ["satella/random.py:shuffle_together", "satella/random.py:random_word"]}
{"id": "C199", "title": "Shuffling sequences of different lengths is refused", "statement": "Sequences of different lengths are not shuffled.", "quantifier": "every number and length of sequences", "why_tests_cant": "lengths are unbounded", "anchors": ["satella/random.py:shuffle_together"]}
{"id": "C200", "title": "An expected exception is swallowed, and missed when absent", "statement": "expect_exception ends normally exactly if the block raised one of the exceptions; others pass, and if there is none the other exception is raised. EmptyContextManager changes nothing. A wrapped callable makes, enters and leaves its manager once each, in every case.", "quantifier": "every block, manager and callable", "why_tests_cant": "blocks are unbounded", "anchors": ["satella/coding/expect_exception.py:expect_exception", "satella/coding/ctxt_managers.py:EmptyContextManager", "satella/coding/ctxt_managers.py:wrap_callable_in_context_manager"]}
{"id": "C201", "title": "A list of exceptions can be expected", "statement": "Exceptions expected can be given as a list.", "quantifier": "every block and list", "why_tests_cant": "blocks are unbounded", "anchors": ["satella/coding/expect_exception.py:expect_exception"]}
{"id": "C202", "title": "Sessions of tainting belong to threads", "statement": "In every history of calls by any number of threads each thread sees what it would alone: one session at most, the one entered last and not left, RuntimeError otherwise.", "quantifier": "every history of any number of threads", "why_tests_cant": "histories are unbounded", "anchors": ["satella/debug/tainting/environment.py:TaintingEnvironment"]}
{"id": "C203", "title": "An environment is enabled while in use", "statement": "The flag enabled of an environment tells whether a session with it is in progress.", "quantifier": "every history of any number of threads", "why_tests_cant": "histories are unbounded", "anchors": ["satella/debug/tainting/environment.py:TaintingEnvironment"]}
{"id": "C204", "title": "Statements on a LockedStructure do not overlap", "statement": "In every schedule, between a thread's entering and leaving only it operates, and the object is what the operations, one statement after another, make of it. A thread entering again waits for ever.", "quantifier": "every schedule of any number of threads and operations", "why_tests_cant": "schedules are unbounded", "anchors": ["satella/coding/concurrent/locked_structure.py:LockedStructure"]}
{"id": "C205", "title": "Basic descriptors give what they should", "statement": "Boolean takes exactly the strings true and false, in any case of letters, and the truth of anything else; File and Directory take exactly existing files and directories, and their objects are equal exactly if they name the same, with equal hashes; FileContents gives the decoded contents, stripped at the ends only; a value is taken exactly if it passes every checker and the maker, and refused with ConfigurationValidationError if a checker refuses it or the maker raises ValueError, TypeError or ConfigurationValidationError.", "quantifier": "every value, path, file system, encoding and set of checkers", "why_tests_cant": "values and checkers are unbounded", "anchors": ["satella/configuration/schema/basic.py:Boolean", "satella/configuration/schema/basic.py:FileObject", "satella/configuration/schema/basic.py:DirectoryObject", "satella/configuration/schema/basic.py:File", "satella/configuration/schema/basic.py:FileContents", "satella/configuration/schema/basic.py:Directory", "satella/configuration/schema/base.py:CheckerCondition", "satella/configuration/schema/base.py:must_be_type", "satella/configuration/schema/base.py:must_be_one_of", "satella/configuration/schema/base.py:Descriptor.__call__"]}
{"id": "C206", "title": "Descriptors keep checking, and refuse in one way", "statement": "A descriptor checks every value by all its checkers; an invalid value raises ConfigurationValidationError and nothing else; FileObject and DirectoryObject are equal to the strings of their paths.", "quantifier": "every value, path and history of values", "why_tests_cant": "histories are unbounded", "anchors": ["satella/configuration/schema/base.py:Descriptor.__call__", "satella/configuration/schema/basic.py:Integer", "satella/configuration/schema/basic.py:FileContents", "satella/configuration/schema/basic.py:FileObject.__eq__"]}
{"id": "C207", "title": "Traced functions", "statement": "Each call of a traced function opens one span, calls the function once with its arguments, and closes the span with what was raised; the tags are those given changed by those computed from the arguments of this call, never by those of earlier calls; if a tag cannot be computed the function is not called.", "quantifier": "every function, tags, callables for tags that raise no TypeError, and sequence of calls", "why_tests_cant": "sequences of calls are unbounded", "anchors": ["satella/opentracing/trace.py:trace_function"]}
{"id": "C208", "title": "Spans of futures, and tags computed from arguments", "statement": "A span is closed once its future ends in any way, with the exception attached if there was one; tags are computed by calling the callables with the arguments of the function.", "quantifier": "every future, ending and callable", "why_tests_cant": "endings and callables are unbounded", "anchors": ["satella/opentracing/trace.py:trace_future", "satella/opentracing/trace.py:trace_function"]}
{"id": "C209", "title": "Exceptions logged to spans", "statement": "trace_exception does nothing without a span or an exception; otherwise it logs the exception given, or the one being handled, once, with the beginning of its traceback, no longer than the maximum.", "quantifier": "every exception, traceback and maximum", "why_tests_cant": "texts are unbounded", "anchors": ["satella/opentracing/exceptions.py:trace_exception"]}
{"id": "C210", "title": "Missing tracebacks and maxima of zero", "statement": "A traceback that is not given is taken from the exception being handled, and the traceback logged is no longer than the maximum given.", "quantifier": "every exception and maximum", "why_tests_cant": "texts are unbounded", "anchors": ["satella/opentracing/exceptions.py:trace_exception"]}
{"id": "C211", "title": "Parallel queries and Cassandra futures", "statement": "parallel_for sends nothing until the first result is asked for, then all queries once and in order before waiting, and gives results in order up to the first failure. A wrapped Cassandra future ends with the outcome of the driver's future, whenever that ends, and cannot be cancelled.", "quantifier": "every query, arguments, outcomes and number of results asked for; every interleaving of the driver with the wrapping", "why_tests_cant": "schedules and inputs are unbounded", "anchors": ["satella/cassandra/parallel.py:parallel_for", "satella/cassandra/future.py:wrap_future"]}
{"id": "C212", "title": "Callable, labelled and uptime metrics", "statement": "Reading a callable metric calls every callable of it once, those of labelled metrics first in the order of registration, and gives one entry for each set of labels, the last of equal ones, or the first failure; a labelled metric passes every value on with its labels; uptime is the time since its making.", "quantifier": "every metric, labels, callables (which may fail or change the world) and clock", "why_tests_cant": "callables and numbers of labels are unbounded", "anchors": ["satella/instrumentation/metrics/metric_types/callable.py:CallableMetric", "satella/instrumentation/metrics/metric_types/uptime.py:UptimeMetric", "satella/instrumentation/metrics/labeled.py:LabeledMetric"]}
{"id": "C213", "title": "The HTTP exporter answers what it should", "statement": "Any path but /metrics is answered by 404 and counts no metric call; /metrics is answered with the rendered metrics with the extra labels over their own; once terminate() has returned, nothing more is served.", "quantifier": "every path, metrics, extra labels and interleaving of requests, termination and the server's loop", "why_tests_cant": "schedules and metrics are unbounded", "anchors": ["satella/instrumentation/metrics/exporters/prometheus.py:PrometheusHTTPExporterThread", "satella/instrumentation/metrics/exporters/prometheus.py:PrometheusHandler.do_GET", "satella/instrumentation/metrics/data.py:MetricDataCollection.add_labels"]}
{"id": "C214", "title": "Extra labels lose nothing, and terminate() returns", "statement": "With extra labels every value of the metrics is exported; terminate() of an exporter returns in any state.", "quantifier": "every metrics, extra labels and state of the exporter", "why_tests_cant": "schedules and metrics are unbounded", "anchors": ["satella/instrumentation/metrics/exporters/prometheus.py:PrometheusHTTPExporterThread.terminate", "satella/instrumentation/metrics/exporters/prometheus.py:PrometheusHandler.do_GET"]}
{"id": "C215", "title": "MonitorSet.insert_and_check is atomic", "statement": "Whatever threads call insert_and_check and whatever others do with the set directly meanwhile, every call is as if it were one operation between its call and its return: it adds the item and answers whether it was absent; of all calls for one item at most one answers True if nothing is removed.", "quantifier": "every schedule of any number of threads, items and other operations", "why_tests_cant": "schedules are unbounded", "anchors": ["satella/coding/concurrent/monitor.py:MonitorSet.insert_and_check"]}
{"id": "C216", "title": "Each pass of the maintaining thread cleans each dictionary", "statement": "A pass of the thread that maintains expiring dictionaries cleans each dictionary that was registered when it began and not garbage collected since, and no other; garbage collected ones are dropped.", "quantifier": "every program, schedule, garbage collection and raising dictionary", "why_tests_cant": "schedules are unbounded", "anchors": ["satella/coding/structures/dictionaries/expiring.py:ExpiringEntryDictThread", "satella/coding/structures/dictionaries/expiring.py:Cleanupable", "satella/coding/structures/dictionaries/expiring.py:SelfCleaningDefaultDict", "satella/coding/structures/dictionaries/expiring.py:ExpiringEntryDict"]}
{"id": "C217", "title": "Maintenance goes on and makes nobody wait forever", "statement": "No thread that uses maintained dictionaries waits forever, and the maintaining thread can always make another pass.", "quantifier": "every program and schedule", "why_tests_cant": "deadlocks need particular schedules", "anchors": ["satella/coding/structures/dictionaries/expiring.py:ExpiringEntryDictThread", "satella/coding/structures/dictionaries/expiring.py:ExpiringEntryDict", "satella/coding/structures/dictionaries/expiring.py:SelfCleaningDefaultDict"]}
{"id": "C218", "title": "The life of a mocked thread", "statement": "A mocked thread is alive exactly if start succeeded and it was not terminated; start succeeds at most once and never after terminate; join with a timeout always ends, with WouldWaitMore exactly if the mock is still not terminated.", "quantifier": "every sequence of calls, timeout, clock and moment of termination", "why_tests_cant": "histories and clocks are unbounded", "anchors": ["satella/coding/concurrent/thread.py:BogusTerminableThread"]}
{"id": "C219", "title": "A single-start thread is started once", "statement": "Whoever calls start and however the calls interleave, the thread is set running at most once, exactly one call says so, and once calls have ended it has been.", "quantifier": "every schedule of any number of callers", "why_tests_cant": "schedules are unbounded", "anchors": ["satella/coding/concurrent/thread.py:SingleStartThread"]}
{"id": "C220", "title": "Optional timeouts and no-op starts as documented", "statement": "join() of a mocked thread works without a timeout; further calls to start of a single-start thread are no-ops that return the thread.", "quantifier": "every state, clock and schedule", "why_tests_cant": "schedules are unbounded", "anchors": ["satella/coding/concurrent/thread.py:BogusTerminableThread.join", "satella/coding/concurrent/thread.py:SingleStartThread.start"]}
{"id": "C221", "title": "queue_iterator gives each thing once and never waits", "statement": "However iterations over one queue and those who put into it interleave, each thing that was put is given at most once and in order, an iteration never waits, and ends exactly when it finds the queue empty.", "quantifier": "every schedule of any number of iterations and puts", "why_tests_cant": "schedules are unbounded", "anchors": ["satella/coding/misc.py:queue_iterator"]}
{"id": "C222", "title": "Slices of a SliceableDeque are those of sequences, and live", "statement": "Iterating over a slice of a SliceableDeque gives exactly the elements that the same slice of a list of its contents has, in the same order, for every start, stop and step; a step of zero raises ValueError. While it is iterated over, each element is taken from the deque as it is at that moment, and IndexError is raised once if there is none, after which the slice is over.", "quantifier": "every deque, start, stop, step and change of the deque while iterating", "why_tests_cant": "slices, lengths and changes are unbounded", "anchors": ["satella/coding/structures/sorted_list.py:SliceableDeque"]}
{"id": "C223", "title": "Conditions notify those who wait, in order, and the notified return", "statement": "Whatever threads do with a Condition at the same time (wait with or without timeouts, notify, notify_all, with the condition itself taken or not): notify(n) notifies the n threads that have waited longest, or all if there are fewer, notify_all all of them, and nobody begins or ends to wait meanwhile. wait returns only if it was notified after it began to wait; only a wait with a timeout raises WouldWaitMore, or ResourceLocked, the latter only while somebody has the lock. A thread that waits without a timeout and was notified can always return.", "quantifier": "every schedule of every number of threads", "why_tests_cant": "schedules and numbers of threads are unbounded", "anchors": ["satella/coding/concurrent/thread.py:Condition.wait", "satella/coding/concurrent/thread.py:Condition.notify", "satella/coding/concurrent/thread.py:Condition.notify_all"]}
{"id": "C224", "title": "No notification of a Condition is lost", "statement": "A notification made while threads wait makes a wait return: each thread that was notified returns from wait. This fails when the notified thread's timeout is just over (it raises WouldWaitMore and nobody else is notified), and for notify_all of a condition over a lock that cannot be taken again, which never returns; it holds as long as nobody waits with a timeout.", "quantifier": "every schedule of every number of threads", "why_tests_cant": "the race is between a timeout and a notification; the deadlock is for every continuation", "anchors": ["satella/coding/concurrent/thread.py:Condition.wait", "satella/coding/concurrent/thread.py:Condition.notify", "satella/coding/concurrent/thread.py:Condition.notify_all"]}
{"id": "C225", "title": "Reading lines gives the stripped lines of the file", "statement": "read_lines gives the lines of the text of the file in order, where a line ends as for str.splitlines (\\n, \\r, \\r\\n taken as one, and the other separators of lines), each without the white space at its ends, and leaves out the empty ones exactly if delete_empty_lines is true; if the file is not there or its contents are not text in the encoding, the same exception is raised as by opening and reading it, and nothing changes.", "quantifier": "every file contents, encoding and value of delete_empty_lines", "why_tests_cant": "the contents and the mixture of line ends are unbounded", "anchors": ["satella/files.py:read_lines"]}
{"id": "C226", "title": "Substituting in a file changes what the pattern matches and nothing else", "statement": "read_re_sub_and_write writes to the file the result of substituting in its text; the rest of the file stays as it was, and if anything fails the file is unchanged. It fails for files with carriage returns, which become line feeds, and if the replacement cannot be encoded, when the file is left empty; it holds for files without carriage returns and replacements that can be encoded.", "quantifier": "every file contents and substitution", "why_tests_cant": "contents and substitutions are unbounded; the failure leaves a truncated file", "anchors": ["satella/files.py:read_re_sub_and_write"]}
{"id": "C227", "title": "A null file accepts everything and keeps nothing", "statement": "A DevNullFilelikeObject: writes accept any data of its kind (text, or bytes if binary) and give its length, reads give nothing (empty text or bytes), data of the other kind are a TypeError, seek, tell and truncate give zero, it says that it can be written and seeked; after close or the end of a with block, and only then, every such operation raises ValueError, but closing, entering and leaving still work.", "quantifier": "every sequence of operations on a file of either kind", "why_tests_cant": "sequences of operations are unbounded", "anchors": ["satella/files.py:DevNullFilelikeObject"]}
{"id": "C228", "title": "Validity of a schema tells whether an object can be converted", "statement": "DictObject.is_valid_schema says true exactly if the value conforms to the schema, for schemas given as descriptors, as dictionaries and as keywords. If keywords are given, the schema argument does not matter. Without any schema, AttributeError is raised, and what reading the schema raises is raised. It fails for a descriptor used again after a refusal, which may accept what it refused before; it holds for schemas written as dictionaries and for descriptors that have refused nothing.", "quantifier": "every object, schema and keywords", "why_tests_cant": "schemas and objects nest without bound", "anchors": ["satella/coding/structures/dictionaries/dict_object.py:DictObject.is_valid_schema"]}
{"id": "C229", "title": "A shallow copy of a monitored collection is separate", "statement": "copy.copy of a MonitorList or a MonitorDict holds the same items in the same order, has a lock of its own that nobody holds, whoever holds the lock of the original, and stays as it is whatever is later done to the original or any other older object; what is done to the copy's items (adding, removing) does not change the original.", "quantifier": "every heap of objects, every monitored collection in it, every later changes of the older objects or of the copy", "why_tests_cant": "heaps and sequences of changes are unbounded", "anchors": ["satella/coding/concurrent/monitor.py:MonitorList.__copy__", "satella/coding/concurrent/monitor.py:MonitorDict.__copy__"]}
{"id": "C230", "title": "A deep copy of a monitored collection is an equal separate structure", "statement": "copy.deepcopy of a MonitorList or a MonitorDict ends, gives a new object whose lock nobody holds, changes no older object, and the copy looks exactly as the original did, however deep, and keeps looking so whatever is later done to the older mutable objects. It holds for structures that do not contain themselves. A MonitorList that holds itself (which a list may) is copied wrongly: the copy holds another object, with only a part of the items.", "quantifier": "every heap, every acyclic structure of any depth in it, every later changes of the older objects", "why_tests_cant": "structures nest without bound and may share parts", "anchors": ["satella/coding/concurrent/monitor.py:MonitorList.__deepcopy__", "satella/coding/concurrent/monitor.py:MonitorDict.__deepcopy__"]}
{"id": "C231", "title": "A method that may be called on the class or an instance gets what it was called on", "statement": "A method decorated with class_or_instancemethod, called on an instance, gets that instance as its first argument; called on a class, it gets that very class, also if it is a subclass of the one that defines the method. The other arguments follow unchanged and its result is returned.", "quantifier": "every hierarchy of classes, every method, every receiver and list of arguments", "why_tests_cant": "hierarchies and arguments are unbounded", "anchors": ["satella/coding/overloading.py:class_or_instancemethod"]}
{"id": "C232", "title": "Decorators adapted to methods do not see the instance", "statement": "A stack of decorators made with auto_adapt_to_methods, put on a function that is defined in a class and called on an instance (or as a class or static method), each decorate the method already bound: they see the arguments of the call without the instance or the class, in the order they are written, and the method itself gets the instance or the class first. On plain functions they work as they were.", "quantifier": "every stack of adapted decorators of any height, every function, receiver and arguments", "why_tests_cant": "stacks of decorators are unbounded and decorators are arbitrary functions", "anchors": ["satella/coding/decorators/arguments.py:auto_adapt_to_methods"]}
{"id": "C233", "title": "An adapted decorator behaves as if the method were decorated once", "statement": "Calling a method under an adapted decorator gives what the decorator would give if it had been put on the bound method once. It holds for decorators without state. A decorator with memory (such as memoize) is put on anew at each call, so it forgets; and a method reached through the class and given the instance by hand lets the decorator see the instance.", "quantifier": "every decorator, every history of calls", "why_tests_cant": "decorators are arbitrary functions and histories unbounded", "anchors": ["satella/coding/decorators/arguments.py:auto_adapt_to_methods"]}
{"id": "C234", "title": "A printed traceback shows each frame with all its variables", "statement": "Traceback.pretty_print writes the traceback as Python formats it, a heading, and for each frame, innermost first, its name, file and line and each of its variables once in order, with its text, or with a note if and only if the stream refuses that text; it raises only if the stream refuses one of the lines that have no replacement. pretty_format gives what would be printed to a stream that takes everything. str() has a heading and, for each frame in order, its name, file and line, then its local and its global variables with their texts.", "quantifier": "every traceback: every list of frames, every dictionaries of variables, with or without an exception", "why_tests_cant": "stacks and dictionaries are unbounded", "anchors": ["satella/instrumentation/trace_back/trace_back.py:Traceback.pretty_print", "satella/instrumentation/trace_back/trace_back.py:Traceback.pretty_format", "satella/instrumentation/trace_back/trace_back.py:Traceback.__str__", "satella/instrumentation/trace_back/classes.py:StackFrame.__str__"]}
{"id": "C235", "title": "The repr of an object shows the listed fields in order", "statement": "repr of an object of a class that inherits from ReprableMixin is the name of the class, with the module if the class asks for it (unless that is builtins), and in brackets the reprs of the fields it lists, in that order, separated by commas; if getting or showing a field raises, the exception of the first such field is raised. If it can be told where the reprs of fields end, two objects of a class have equal reprs exactly if all the listed fields have.", "quantifier": "every class, every list of fields of any length, every values and exceptions", "why_tests_cant": "lists of fields and texts are unbounded", "anchors": ["satella/coding/structures/mixins/strings.py:ReprableMixin.__repr__"]}
{"id": "C236", "title": "Life of a CPU-time aware interval thread", "statement": "A CPUTimeAwareIntervalTerminableThread that ends has called prepare() first, then loop() some number of times, each followed by a sleep of what is left of the interval or, exactly if the loop took longer, by on_overrun(), and then cleanup() once and last. It begins no loop once termination was requested, and it ends at the latest when the round in which it was requested is over. It ends without a traceback if termination was requested or SystemExit was raised, or prepare() or loop() raised one of the terminate_on exceptions; else with what was raised. Each loop begins no later than the interval after the one before (or at its end, if that took longer), and no sooner than that by more than max_sooner.", "quantifier": "every behaviour of the methods, every duration of loops, every moment of the request, every length of sleeps that sleep_cpu_aware allows", "why_tests_cant": "numbers of rounds, durations and moments are unbounded", "anchors": ["satella/instrumentation/cpu_time/concurrency.py:CPUTimeAwareIntervalTerminableThread.run"]}
{"id": "C237", "title": "In-place operators of a Multirun work on each element", "statement": "m op= v on a Multirun (for += -= *= /= //= <<= >>= **=) does element op= v on each element in order, on each object as many times as it occurs, and m is still the same Multirun. If an element raises, that exception is raised, elements before it had the operation done and those after it did not. Elements that cannot be changed in place stay as they are. A Multirun of a list can be used again; of an iterator, the elements met are gone. The other operators are refused with TypeError and nothing is done. It is true exactly if the sequence is.", "quantifier": "every sequence of any length with any repetitions, every effect of the operators on objects, every exception", "why_tests_cant": "sequences are unbounded and the operators of elements arbitrary", "anchors": ["satella/coding/sequences/sequences.py:Multirun.__iadd__", "satella/coding/sequences/sequences.py:Multirun.__isub__", "satella/coding/sequences/sequences.py:Multirun.__imul__", "satella/coding/sequences/sequences.py:Multirun.__itruediv__", "satella/coding/sequences/sequences.py:Multirun.__ifloordiv__", "satella/coding/sequences/sequences.py:Multirun.__ilshift__", "satella/coding/sequences/sequences.py:Multirun.__irshift__", "satella/coding/sequences/sequences.py:Multirun.__ipow__", "satella/coding/sequences/sequences.py:Multirun.__bool__", "satella/coding/sequences/sequences.py:Multirun.__iter__"]}
{"id": "C238", "title": "wraps copies what can be copied and nothing else", "statement": "wraps(f)(g) returns g itself, whose __doc__, __name__, __module__ and __annotations__ are those of f if f has them, whose __signature__ is that of f if it has one, and whose __wrapped__ is f; attributes that g refuses to have set, and all others, are as they were. It raises exactly if getting an attribute raises something else than AttributeError, or setting one raises something else than AttributeError (or TypeError, for the name, annotations and signature, and ValueError or RecursionError for the signature). Of functions stacked to any height, each has all this from the innermost, and __wrapped__ leads one down.", "quantifier": "every wrapped object, every wrapping object with any refusals, stacks of any height", "why_tests_cant": "objects and stacks are arbitrary", "anchors": ["satella/coding/decorators/decorators.py:wraps"]}
{"id": "C239", "title": "A time series may be used by several threads", "statement": "When several threads add items to a SyncableDroppable, store it and clean it, at every moment each item accepted is in memory or in the database, in the order of keys; an item is accepted exactly if its key is greater than that of the last one accepted, otherwise ValueError is raised; cleaning and storing raise nothing, and afterwards everything is as if the calls had been made one after another.", "quantifier": "every schedule of any number of threads with any calls, every contents of the database", "why_tests_cant": "schedules and numbers of threads are unbounded", "anchors": ["satella/coding/structures/syncable_droppable.py:SyncableDroppable.on_new_data", "satella/coding/structures/syncable_droppable.py:SyncableDroppable.sync_to_db", "satella/coding/structures/syncable_droppable.py:SyncableDroppable.cleanup_keep_in_memory"]}
{"id": "C240", "title": "Generators and lists made of functions and items", "statement": "to_iterator, one_tuple and map_list apply the function to each item once, in order, the former only as values are asked for; an exception of the function is raised where its value would be, and nothing is called after it. filter_out_false keeps the items that are true. infinite_iterator and infinite_counter never stop, the former calls its factory once for each value. make_list makes n separate copies and leaves the element as it is.", "quantifier": "all sequences, functions (that may keep a state or raise), numbers of values asked for, and objects", "why_tests_cant": "sequences and numbers of values are unbounded", "anchors": ["satella/coding/sequences/sequences.py:infinite_iterator", "satella/coding/sequences/sequences.py:make_list", "satella/coding/sequences/sequences.py:filter_out_false", "satella/coding/sequences/iterators.py:infinite_counter", "satella/coding/sequences/iterators.py:map_list", "satella/coding/sequences/iterators.py:to_iterator", "satella/coding/transforms/__init__.py:one_tuple"]}
{"id": "C241", "title": "Conversion to whole numbers", "statement": "intify gives 0 for None, what int() makes of an object, failing that its length, and failing that ValueError; time_as_int, time_ms and time_us give the whole seconds, milliseconds and microseconds passed, and do not go back unless the clock does.", "quantifier": "every object, by what int() and len() do with it, and every time", "why_tests_cant": "objects and exceptions of conversions are unbounded", "anchors": ["satella/coding/transforms/__init__.py:intify", "satella/time/misc.py:time_as_int", "satella/time/misc.py:time_ms", "satella/time/misc.py:time_us"]}
{"id": "C242", "title": "Random words and bytes", "statement": "random_word joins exactly length items, each one of those to choose from, every such word can come out, and IndexError is raised only if there is nothing to choose from; random_binary gives exactly length bytes, however few the device gives at a time.", "quantifier": "every length, choice and outcome of the random generator and of reading the device", "why_tests_cant": "the generator's outcomes cannot be enumerated", "anchors": ["satella/random.py:random_word", "satella/random.py:random_binary"]}
{"id": "C243", "title": "Dump of memory", "statement": "dump_memory_on writes a line for each object with its size, and a breakdown that gives, for each type once, the bytes of its objects and their number, the largest first; the numbers add up to all objects.", "quantifier": "all lists of objects of any types and sizes, also of sizes that cannot be told", "why_tests_cant": "the objects of a program are unbounded", "anchors": ["satella/instrumentation/memory/dump_frames_on.py:dump_memory_on"]}
{"id": "C244", "title": "Parallel calls from several threads", "statement": "Several threads may call parallel_execute at the same time: each makes its calls with its own arguments, in order, each with an empty dict of its own as keyword arguments.", "quantifier": "every schedule of any number of threads, all arguments", "why_tests_cant": "schedules are unbounded", "anchors": ["satella/coding/concurrent/functions.py:parallel_execute", "satella/coding/sequences/sequences.py:infinite_iterator"]}
{"id": "C245", "title": "Repeating forever", "statement": "A function decorated with repeat_forever is called again and again, as long as it raises nothing; when it raises, that exception ends the call, and it is not called again.", "quantifier": "every function, every number of turns", "why_tests_cant": "an endless loop cannot be tested to its end", "anchors": ["satella/coding/decorators/flow_control.py:repeat_forever"]}
{"id": "C246", "title": "An expiring dict used by several threads", "statement": "While several threads use an expiring dict, a key assigned by one of them, once, is found with its value by every lookup and membership test that ends after the assignment has and before the timeout is over; never with another value; and not by any that begins later than the timeout. The assignment itself never raises.", "quantifier": "every schedule of any number of threads, with the clock going on between any two steps, and any calls with other keys, including cleanups", "why_tests_cant": "schedules are unbounded", "anchors": ["satella/coding/structures/dictionaries/expiring.py:ExpiringEntryDict.__getitem__", "satella/coding/structures/dictionaries/expiring.py:ExpiringEntryDict.__contains__", "satella/coding/structures/dictionaries/expiring.py:ExpiringEntryDict.__setitem__", "satella/coding/structures/dictionaries/expiring.py:ExpiringEntryDict.cleanup", "satella/coding/structures/heaps/time.py:TimeBasedSetHeap.put"]}
{"id": "C247", "title": "Tainting a structure in place", "statement": "taint(v) gives a tainted object, and all elements of all lists, dicts and objects that can be got at from it are tainted, in place; yet every value of the program is worth what it was. Objects that are no part of it are left as they are. It succeeds within a session if no object contains itself, and raises RuntimeError without a session. Elements read from and assigned to a tainted list are tainted.", "quantifier": "all memories of objects, with any sharing, and all values", "why_tests_cant": "object graphs are unbounded", "anchors": ["satella/debug/tainting/tainteds.py:taint", "satella/debug/tainting/tainteds.py:TaintedObject.__init__", "satella/debug/tainting/tainteds.py:TaintedObject.__getitem__", "satella/debug/tainting/tainteds.py:TaintedObject.__setitem__"]}
{"id": "C248", "title": "Tainting of any structure, for the time of the session", "statement": "Any structure can be tainted, and taints are invalidated at the end of the session.", "quantifier": "all memories of objects", "why_tests_cant": "object graphs are unbounded", "anchors": ["satella/debug/tainting/tainteds.py:taint", "satella/debug/tainting/tainteds.py:TaintedObject.__init__", "satella/debug/tainting/environment.py:TaintingEnvironment"]}
{"id": "C249", "title": "A counter used by threads shows nothing that was not counted", "statement": "While several threads call handle() of a counter with and without labels: what it shows for labels is the sum of deltas of some of the calls made with these labels, each counted at most once; the sum, or the value without labels, is that of some of the calls; the number of calls shown is between 0 and that of calls made; there is one entry for each labels. Labels are shown only if used, and all that were used are shown when no call is in progress. For labels that only one thread uses, the value shown while that thread is in no call is exact, whatever others do.", "quantifier": "all numbers of threads, calls, deltas, labels and interleavings", "why_tests_cant": "interleavings are unbounded", "anchors": ["satella/instrumentation/metrics/metric_types/counter.py:CounterMetric", "satella/instrumentation/metrics/metric_types/base.py:EmbeddedSubmetrics"]}
{"id": "C250", "title": "A counter counts all calls", "statement": "A counter shows the sum of the deltas of all calls of handle() that returned, whichever threads made them.", "quantifier": "all numbers of threads, calls, deltas, labels and interleavings", "why_tests_cant": "interleavings are unbounded", "anchors": ["satella/instrumentation/metrics/metric_types/counter.py:CounterMetric", "satella/instrumentation/metrics/metric_types/base.py:EmbeddedSubmetrics"]}
{"id": "C251", "title": "A summary used by threads is about the latest values", "statement": "While several threads call handle() of a summary without labels: every quantile shown is that of the latest k values recorded, for some k, which is either all of them or, with the calls running at that time, at least last_calls. No call raises unless more calls than last_calls are running at once.", "quantifier": "all numbers of threads, calls, values, values of last_calls and interleavings", "why_tests_cant": "interleavings are unbounded", "anchors": ["satella/instrumentation/metrics/metric_types/summary.py:SummaryMetric"]}
{"id": "C252", "title": "A summary is about the last last_calls values", "statement": "When no call is running, the quantiles shown are those of the last last_calls values handled, whichever threads handled them, and no call of handle() raises.", "quantifier": "all numbers of threads, calls, values, values of last_calls and interleavings", "why_tests_cant": "interleavings are unbounded", "anchors": ["satella/instrumentation/metrics/metric_types/summary.py:SummaryMetric"]}
{"id": "C253", "title": "Clicks per time unit used by threads are clicks made", "statement": "While several threads call handle() and to_metric_data() of a clicks-per-time-unit metric without labels: a report that is given has one number for each period, that of the clicks in the period of the latest k clicks made, for some k, so never more than were made. Each click has a time at which its call was running, the periods of a report end at a time at which it was running, and each call that ends has made one click.", "quantifier": "all numbers of threads, calls, times, periods and interleavings", "why_tests_cant": "interleavings are unbounded", "anchors": ["satella/instrumentation/metrics/metric_types/cps.py:ClicksPerTimeUnitMetric"]}
{"id": "C254", "title": "Clicks per time unit count all clicks", "statement": "A report of a clicks-per-time-unit metric is given and has, for each period, the number of all clicks made in it, whichever threads made them.", "quantifier": "all numbers of threads, calls, times, periods and interleavings", "why_tests_cant": "interleavings are unbounded", "anchors": ["satella/instrumentation/metrics/metric_types/cps.py:ClicksPerTimeUnitMetric"]}
{"id": "C255", "title": "Singletons used by threads settle", "statement": "While several threads call a class decorated with Singleton or SingletonWithRegardsTo: a call returns an object made for its first arguments, and objects returned for different first arguments are different. Once a Singleton class was called and no call is running, all later calls return the same object. The same holds for SingletonWithRegardsTo and given first arguments, once the class was used and no call was running, and it was then called with these arguments and again no call is running.", "quantifier": "all numbers of threads, first arguments, calls and interleavings", "why_tests_cant": "interleavings are unbounded", "anchors": ["satella/coding/structures/singleton.py:SingletonWithRegardsTo", "satella/coding/structures/singleton.py:Singleton"]}
{"id": "C256", "title": "There is one object for each list of first arguments", "statement": "All calls of a class decorated with Singleton or SingletonWithRegardsTo with the same first arguments return the same object, whichever threads make them, and it is initialised when they do.", "quantifier": "all numbers of threads, first arguments, calls and interleavings", "why_tests_cant": "interleavings are unbounded", "anchors": ["satella/coding/structures/singleton.py:SingletonWithRegardsTo", "satella/coding/structures/singleton.py:Singleton"]}
{"id": "C257", "title": "The thread that builds CPU profiles", "statement": "While several threads use the functions about CPU use for the first time: no thread that builds profiles begins to run twice. Once a call ended and none is running, there is a thread that builds profiles and it runs; all later calls use this one, do not raise and start no other.", "quantifier": "all numbers of threads, calls and interleavings", "why_tests_cant": "interleavings are unbounded", "anchors": ["satella/instrumentation/cpu_time/collector.py:_CPUProfileBuilderThread", "satella/coding/concurrent/thread.py:SingleStartThread"]}
{"id": "C258", "title": "There is one thread that builds CPU profiles", "statement": "At most one thread that builds CPU profiles runs, whichever threads use the functions about CPU use for the first time, all calls use it, it runs by then, and none raises.", "quantifier": "all numbers of threads, calls and interleavings", "why_tests_cant": "interleavings are unbounded", "anchors": ["satella/instrumentation/cpu_time/collector.py:_CPUProfileBuilderThread", "satella/coding/concurrent/thread.py:SingleStartThread"]}
{"id": "C259", "title": "Labelled values of a metric, given by several threads", "statement": "While several threads give a metric values with labels and ask for its data: for each labels and value, data never show it more often, in all entries with these labels together, than calls that ended before gave it. Once no call is running, data show all of what was given, as often as it was given, whoever asks; and after labels were used and no call is running, all later data have the same number of entries with these labels, at least one.", "quantifier": "all numbers of threads, labels, values, calls and interleavings", "why_tests_cant": "interleavings are unbounded", "anchors": ["satella/instrumentation/metrics/metric_types/base.py:EmbeddedSubmetrics"]}
{"id": "C260", "title": "Data have one entry for each labels, with all values given", "statement": "Data of a metric have exactly one entry for each labels with which a value was given by a call that ended before data were asked for, and it shows all these values, whichever threads give values.", "quantifier": "all numbers of threads, labels, values, calls and interleavings", "why_tests_cant": "interleavings are unbounded", "anchors": ["satella/instrumentation/metrics/metric_types/base.py:EmbeddedSubmetrics"]}
{"id": "C261", "title": "A group of callables used by several threads", "statement": "While several threads add callables to a group and call it: only callables that were added before are called; each call of the group calls each callable at most once; and a call that is left to go on ends, having called all that it had still to call, whatever other threads do.", "quantifier": "all numbers of threads, callables, calls and interleavings", "why_tests_cant": "interleavings are unbounded", "anchors": ["satella/coding/concurrent/callablegroup.py:CallableGroup"]}
{"id": "C262", "title": "Each call of a group calls all registered callables", "statement": "Each call calls everything that is registered and does not raise, whichever threads use the group: a callable stays registered until it is called if it is one-shot, and for ever otherwise, and a one-shot callable is called once.", "quantifier": "all numbers of threads, callables, calls and interleavings", "why_tests_cant": "interleavings are unbounded", "anchors": ["satella/coding/concurrent/callablegroup.py:CallableGroup"]}
{"id": "C263", "title": "A write-back cache used by several threads", "statement": "While several threads read, set and delete keys of a write-back cache whose executor has one worker: a value got for a key was in the storage at that key or a thread had begun to set the key to it; once everything submitted is done, the storage has at each key what the last set or deletion left there; and every operation can end if its thread and the worker go on.", "quantifier": "all numbers of threads, keys, operations and interleavings, with and without remembered key errors", "why_tests_cant": "interleavings are unbounded", "anchors": ["satella/coding/structures/dictionaries/writeback_cache.py:ExclusiveWritebackCache.__getitem__", "satella/coding/structures/dictionaries/writeback_cache.py:ExclusiveWritebackCache.__setitem__", "satella/coding/structures/dictionaries/writeback_cache.py:ExclusiveWritebackCache.__delitem__", "satella/coding/structures/dictionaries/writeback_cache.py:ExclusiveWritebackCache._operate"]}
{"id": "C264", "title": "A write-back cache answers as a dictionary, for several threads", "statement": "Whichever threads use a write-back cache: after a set or a deletion ended, each get gives what it left, and cache and storage agree once everything is written.", "quantifier": "all numbers of threads, keys, operations and interleavings, with and without remembered key errors", "why_tests_cant": "interleavings are unbounded", "anchors": ["satella/coding/structures/dictionaries/writeback_cache.py:ExclusiveWritebackCache.__getitem__", "satella/coding/structures/dictionaries/writeback_cache.py:ExclusiveWritebackCache.__setitem__", "satella/coding/structures/dictionaries/writeback_cache.py:ExclusiveWritebackCache.__delitem__", "satella/coding/structures/dictionaries/writeback_cache.py:ExclusiveWritebackCache._operate"]}
{"id": "C265", "title": "Waiting for a service fails by WouldWaitMore only", "statement": "While one thread calls failed() and success() of an ExponentialBackoff and others wait_until_available, each call of wait_until_available ends by returning or by WouldWaitMore, the latter only if its timeout is over.", "quantifier": "all numbers of waiting threads, calls, times and interleavings", "why_tests_cant": "interleavings are unbounded", "anchors": ["satella/time/backoff.py:ExponentialBackoff.wait_until_available", "satella/time/backoff.py:ExponentialBackoff.time_until_next_check", "satella/time/backoff.py:ExponentialBackoff.success", "satella/time/backoff.py:ExponentialBackoff.failed"]}
{"id": "C266", "title": "A failure that was told is not forgotten", "statement": "While one thread calls failed() and success() of an ExponentialBackoff and others wait_until_available, a call of wait_until_available returns only when there was no failure since the last success or the time to wait after the last failure is over.", "quantifier": "all numbers of waiting threads, calls, times and interleavings", "why_tests_cant": "interleavings are unbounded", "anchors": ["satella/time/backoff.py:ExponentialBackoff.wait_until_available", "satella/time/backoff.py:ExponentialBackoff.time_until_next_check", "satella/time/backoff.py:ExponentialBackoff.success", "satella/time/backoff.py:ExponentialBackoff.failed"]}
{"id": "C267", "title": "All threads are told the transformed outcome of a future", "statement": "While threads set the outcome of a Satella future, cancel it, add callbacks and call result(), every call of result() and every done callback is told the one outcome that was set first, transformed by all pre-done callbacks in the order they were added, or that the future was cancelled; other calls that set an outcome raise InvalidStateError.", "quantifier": "all numbers of threads, calls, callbacks, outcomes and interleavings", "why_tests_cant": "interleavings are unbounded", "anchors": ["satella/coding/concurrent/futures/futures.py:Future.set_result", "satella/coding/concurrent/futures/futures.py:Future.set_exception", "satella/coding/concurrent/futures/futures.py:Future.result", "satella/coding/concurrent/futures/futures.py:Future.add_pre_done_callback"]}
{"id": "C268", "title": "Done callbacks of a future are called once among threads", "statement": "While threads set the outcome of a Satella future, cancel it and add done callbacks, every done callback is called exactly once, and not before the future is done.", "quantifier": "all numbers of threads, calls, callbacks and interleavings", "why_tests_cant": "interleavings are unbounded", "anchors": ["satella/coding/concurrent/futures/futures.py:Future.set_result", "satella/coding/concurrent/futures/futures.py:Future.set_exception", "satella/coding/concurrent/futures/futures.py:Future.result", "satella/coding/concurrent/futures/futures.py:Future.add_pre_done_callback"]}
{"id": "C269", "title": "Nobody waits for a future that is done", "statement": "While threads set the outcome of a Satella future, cancel it and wait in result() without a timeout, no thread waits once the future is done or cancelled, each that is in result() then returns, and none raises TimeoutError.", "quantifier": "all numbers of threads, calls, callbacks and interleavings", "why_tests_cant": "interleavings are unbounded", "anchors": ["satella/coding/concurrent/futures/futures.py:Future.set_result", "satella/coding/concurrent/futures/futures.py:Future.set_exception", "satella/coding/concurrent/futures/futures.py:Future.result", "satella/coding/concurrent/futures/futures.py:Future.add_pre_done_callback"]}
{"id": "C270", "title": "Buckets of a histogram among threads", "statement": "While threads call handle() of one histogram with increasing limits, no bucket shows more than the number of calls that ended with a value within it, and a bucket shows exactly that number if calls with values within it are never made by two threads at once, whatever calls with other values are made.", "quantifier": "all limits, numbers of threads, calls, values and interleavings", "why_tests_cant": "interleavings are unbounded", "anchors": ["satella/instrumentation/metrics/metric_types/histogram.py:HistogramMetric._handle", "satella/instrumentation/metrics/metric_types/histogram.py:HistogramMetric.containers_to_metric_data"]}
{"id": "C271", "title": "A histogram counts every call of every thread", "statement": "After threads called handle() of one histogram, the numbers shown by its buckets add up to the number of calls that ended with a value not negative, and what a bucket shows never becomes less.", "quantifier": "all limits, numbers of threads, calls, values and interleavings", "why_tests_cant": "interleavings are unbounded", "anchors": ["satella/instrumentation/metrics/metric_types/histogram.py:HistogramMetric._handle", "satella/instrumentation/metrics/metric_types/histogram.py:HistogramMetric.containers_to_metric_data"]}
{"id": "C272", "title": "Configuration from a server", "statement": "HTTPJSONSource provides the dictionary that the server replies as JSON with a 200-esque code; if the request fails, the code is another, or the reply is not a JSON dictionary, it raises ConfigurationError, so that OptionalSource and AlternativeSource of it do without it.", "quantifier": "all replies, codes, bodies and exceptions", "why_tests_cant": "replies are unbounded", "anchors": ["satella/configuration/sources/file.py:HTTPJSONSource.provide", "satella/configuration/sources/derivative.py:OptionalSource", "satella/configuration/sources/derivative.py:AlternativeSource"]}
{"id": "C273", "title": "Calls of an expiring dictionary by threads end", "statement": "Whatever threads have done with one ExpiringEntryDict, and whichever calls of it are underway, every thread can end all calls it has to make, without time passing, once at most one other thread has gone on until its call has ended; the calls of each thread end in the order of its program.", "quantifier": "all timeouts, programs of all threads, interleavings and passing of time, at every point of them", "why_tests_cant": "interleavings are unbounded, and that a call cannot be stuck is about what comes after each of them", "anchors": ["satella/coding/structures/dictionaries/expiring.py:ExpiringEntryDict"]}
{"id": "C274", "title": "A self-cleaning default dictionary among threads is one map", "statement": "While threads assign, look up, delete and clean up a SelfCleaningDefaultDict, every call takes effect at one moment between its beginning and its end, as on a map that has the default for every key not assigned another value; and every call underway can still end once one other thread at most has ended its call.", "quantifier": "all defaults, both settings of background_maintenance, all threads, calls, keys, values and interleavings", "why_tests_cant": "interleavings are unbounded", "anchors": ["satella/coding/structures/dictionaries/expiring.py:SelfCleaningDefaultDict.__getitem__", "satella/coding/structures/dictionaries/expiring.py:SelfCleaningDefaultDict.__setitem__", "satella/coding/structures/dictionaries/expiring.py:SelfCleaningDefaultDict.__delitem__", "satella/coding/structures/dictionaries/expiring.py:SelfCleaningDefaultDict.cleanup"]}
{"id": "C275", "title": "Calls of a self-cleaning default dictionary do not raise", "statement": "Deleting a key of a SelfCleaningDefaultDict, whether it is there or not, and assigning to it does not raise KeyError, whatever other threads do.", "quantifier": "all defaults, both settings of background_maintenance, all threads, calls, keys, values and interleavings", "why_tests_cant": "interleavings are unbounded", "anchors": ["satella/coding/structures/dictionaries/expiring.py:SelfCleaningDefaultDict.__getitem__", "satella/coding/structures/dictionaries/expiring.py:SelfCleaningDefaultDict.__setitem__", "satella/coding/structures/dictionaries/expiring.py:SelfCleaningDefaultDict.__delitem__", "satella/coding/structures/dictionaries/expiring.py:SelfCleaningDefaultDict.cleanup"]}
{"id": "C276", "title": "Values of a cache among threads", "statement": "While threads look up, assign, delete, invalidate and refresh keys of a CacheDict, a value returned by a lookup was given for that key by the value getter or assigned to it before; and a lookup that asked the value getter gives exactly what it answered, the value or KeyError.", "quantifier": "all expiration intervals, threads, calls, keys, values, answers of the value getter, passing of time and interleavings", "why_tests_cant": "interleavings are unbounded", "anchors": ["satella/coding/structures/dictionaries/cache_dict.py:CacheDict.__getitem__", "satella/coding/structures/dictionaries/cache_dict.py:CacheDict.__setitem__", "satella/coding/structures/dictionaries/cache_dict.py:CacheDict.__delitem__", "satella/coding/structures/dictionaries/cache_dict.py:CacheDict.invalidate", "satella/coding/structures/dictionaries/cache_dict.py:CacheDict.get_value_block", "satella/coding/structures/dictionaries/cache_dict.py:CacheDict.schedule_a_fetch"]}
{"id": "C277", "title": "A cache among threads has the keys the value getter has", "statement": "A lookup in a CacheDict used by threads raises KeyError only if the value getter has not the key.", "quantifier": "all expiration intervals, threads, calls, keys, values, answers of the value getter, passing of time and interleavings", "why_tests_cant": "interleavings are unbounded", "anchors": ["satella/coding/structures/dictionaries/cache_dict.py:CacheDict.__getitem__", "satella/coding/structures/dictionaries/cache_dict.py:CacheDict.__setitem__", "satella/coding/structures/dictionaries/cache_dict.py:CacheDict.__delitem__", "satella/coding/structures/dictionaries/cache_dict.py:CacheDict.invalidate", "satella/coding/structures/dictionaries/cache_dict.py:CacheDict.get_value_block", "satella/coding/structures/dictionaries/cache_dict.py:CacheDict.schedule_a_fetch"]}
{"id": "C278", "title": "A cache among threads serves no expired values", "statement": "A value that a lookup in a CacheDict used by threads returns without asking the value getter was stored by a call that ended no longer than the expiration interval before the lookup began, or is still underway.", "quantifier": "all expiration intervals, threads, calls, keys, values, answers of the value getter, passing of time and interleavings", "why_tests_cant": "interleavings and delays are unbounded", "anchors": ["satella/coding/structures/dictionaries/cache_dict.py:CacheDict.__getitem__", "satella/coding/structures/dictionaries/cache_dict.py:CacheDict.__setitem__", "satella/coding/structures/dictionaries/cache_dict.py:CacheDict._on_cache_hit", "satella/coding/structures/dictionaries/cache_dict.py:CacheDict.get_value_block", "satella/coding/structures/dictionaries/cache_dict.py:CacheDict.schedule_a_fetch"]}
{"id": "C279", "title": "A cache that remembers failures makes up no values among threads", "statement": "While threads use a CacheDict that caches failures, a lookup either raises KeyError or returns a value that was given for that key by the value getter or assigned to it before; it does not return None instead.", "quantifier": "all expiration and failure intervals, threads, calls, keys, values, answers of the value getter, passing of time and interleavings", "why_tests_cant": "interleavings are unbounded", "anchors": ["satella/coding/structures/dictionaries/cache_dict.py:CacheDict.__getitem__", "satella/coding/structures/dictionaries/cache_dict.py:CacheDict.__setitem__", "satella/coding/structures/dictionaries/cache_dict.py:CacheDict.__delitem__", "satella/coding/structures/dictionaries/cache_dict.py:CacheDict._on_failure", "satella/coding/structures/dictionaries/cache_dict.py:CacheDict._on_cache_hit_empty"]}
{"id": "C280", "title": "The generator of pop_less_than among other calls", "statement": "A generator made by TimeBasedHeap.pop_less_than removes and yields, each time it is asked, a least entry of the heap as it then is, if that is below the limit; if there is none it stops, and it stops for ever. The limit is the one given, or the time when the generator is first asked; calling pop_less_than and passing time remove nothing, put with an item only puts it at the present time, and other calls behave as without generators.", "quantifier": "all histories of calls of a TimeBasedHeap, of any number of generators asked in any order among them, and of passing time; all heaps, items and limits", "why_tests_cant": "a generator may be suspended at any point of any history", "anchors": ["satella/coding/structures/heaps/time.py:TimeBasedHeap.pop_less_than", "satella/coding/structures/heaps/time.py:TimeBasedHeap.put"]}
{"id": "C281", "title": "The generator of pop_less_than of a set heap among other calls", "statement": "A generator made by TimeBasedSetHeap.pop_less_than removes and yields, each time it is asked, a least entry of the heap as it then is, if that is below the limit; if there is none it stops, and it stops for ever; it never raises KeyError. The limit is the one given, or the time when the generator is first asked. No item is ever in the heap twice, put with an item only is put with the present time, and calling pop_less_than and passing time change nothing.", "quantifier": "all histories of calls of a TimeBasedSetHeap, remove among them, of any number of generators asked in any order among them, and of passing time; all heaps, items and limits", "why_tests_cant": "a generator may be suspended at any point of any history", "anchors": ["satella/coding/structures/heaps/time.py:TimeBasedSetHeap.pop_less_than", "satella/coding/structures/heaps/time.py:TimeBasedSetHeap.put", "satella/coding/structures/heaps/time.py:TimeBasedSetHeap.pop", "satella/coding/structures/heaps/time.py:TimeBasedSetHeap.remove"]}
{"id": "C282", "title": "An ascending iterator of a heap among other calls", "statement": "An iterator of Heap.iter_ascending gives, each time it is asked, the next of the elements that the heap held when the iterator was first asked, in ascending order and each as often as it was there, and then stops for ever; what is done to the heap after it was first asked makes no difference. Making and asking iterators leaves the heap as it is, and other calls behave as without iterators.", "quantifier": "all histories of calls of a Heap, and of any number of iterators asked in any order among them; all elements and orders", "why_tests_cant": "an iterator may be suspended at any point of any history", "anchors": ["satella/coding/structures/heaps/base.py:Heap.iter_ascending"]}
{"id": "C283", "title": "An iterator of SyncableDroppable.get_archive among other calls", "statement": "An iterator of SyncableDroppable.get_archive(start, stop) that is served from memory gives items that were added, with ascending keys between start and stop, each time it is asked, whatever is called meanwhile, and then stops for ever; before it stops it has given every item between start and stop that was in memory when it was first asked.", "quantifier": "all histories of on_new_data, cleanups, sync_to_db and calls of the iterator in any order; all keys, values and spans", "why_tests_cant": "the iterator walks a list that other calls append to, cut from the beginning or replace, at any of its suspensions", "anchors": ["satella/coding/structures/syncable_droppable.py:SyncableDroppable.get_archive", "satella/coding/structures/syncable_droppable.py:SyncableDroppable.cleanup_keep_in_memory", "satella/coding/structures/syncable_droppable.py:SyncableDroppable.sync_to_db", "satella/coding/structures/syncable_droppable.py:SyncableDroppable.on_new_data"]}
{"id": "C284", "title": "CallNoOftenThan called by threads", "statement": "However threads call a CallNoOftenThan, the wrapped function is called no sooner than the interval after it last returned, and a call does not call it only if it returned less than the interval before.", "quantifier": "all histories of calls by any number of threads, interleaved between the reads of the clock, the comparison, the function and the assignment; all intervals and clocks", "why_tests_cant": "a race between the comparison and the assignment shows in few schedules", "anchors": ["satella/coding/concurrent/callablegroup.py:CallNoOftenThan.__call__"]}
