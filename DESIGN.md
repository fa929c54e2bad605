# Formal model of satella in Lean 4

## Layout

* `properties.jsonl` - the properties, in terms of the API.
* `lean/Verif/<Component>/Model.lean` - the model; every definition cites the file and lines of /repo it models.
* `lean/Verif/<Component>/Spec.lean` - (where needed) a small independent specification.
* `lean/Verif/<Component>/Lemmas.lean` - helper lemmas.
* `lean/Verif/<Component>/Props.lean` - the property theorems `Cnn_...`, each with an `example` that a
  concrete non-trivial case meets the hypotheses.
* `MANIFEST.json` maps properties to theorem names, `seeded/LOG.jsonl` records seeded-bug experiments.

## Modelling conventions

* Python exceptions are values (`Except`-like results with an explicit exception kind).
* A mutating method becomes a function returning the new state and an outcome.
* A Python dict is an association list in insertion order without duplicate keys; a set is a
  duplicate-free list.  Hash collisions, `__eq__`/`__hash__` inconsistencies are out of scope: keys come
  from a type with decidable equality.
* Comparison of elements is a total (pre)order given as a parameter; float NaN is out of scope.
* Times and numbers are `Int`/`Nat`/`Rat`; float rounding is out of scope.
* Calls to user functions (getters, callbacks, key functions) are parameters; their outcome may
  be any value or exception unless said otherwise.
* Threads: the model is a transition system over the atomic steps the code performs
  (lock acquire/release, queue operations are atomic); theorems quantify over every schedule.
  OS scheduling fairness, real time and the GIL are not modelled.

## Trusted base

* Lean's kernel and the axioms `propext`, `Classical.choice`, `Quot.sound`; `AXIOMS.md` lists the axioms of each property theorem (`#print axioms`).
* The reading of the Python source into the model (no code was run).
* Python's standard library behaves as documented: list, dict, OrderedDict, deque, heapq,
  sorted, bisect, queue.Queue, threading.Lock/Condition, concurrent.futures.Future.

## Plan per property

| id | model | proof |
|----|-------|-------|
| C01 | `Heap` over an arbitrary heapq satisfying its documented contract, plus CPython's sift algorithms as an instance | refinement to a bag, induction over the op list |
| C02 | iterators as repeated pop on a copy | induction on size |
| C03 | `SetHeap` = heap + set | invariant; negation witnesses for the histories that break it |
| C04 | `pop_less_than` loop | induction on size |
| C05 | heap + item map | invariant over ops; negation for `remove` |
| C06 | `SortedList.add` scan, remove, pop | invariant + permutation |
| C07 | `Ranking` position map | invariant over ops |
| C08 | OrderedDict as recency list | refinement to time-stamped set |
| C09 | LRU cache step function | invariant over ops |
| C10, C11 | CacheDict step function with time and getter outcome as inputs | step theorem + invariant relating stored timestamps to fetch history |
| C12 | ExpiringEntryDict step | refinement to `key -> (value, deadline)`; negation for the read-then-cleanup history |
| C13 | SelfCleaningDefaultDict step | refinement to total map; negation for iteration |
| C14 | cache + FIFO queue of writes + storage | refinement over all schedules; negation for two workers |
| C15 | memory list + DB list | invariants; negation witnesses |
| C16 | rows dict + column counts | refinement to `Int x Int -> Option` |
| C17 | free/allocated sets | invariant over ops |
| C18 | issuer | monotonicity over ops/interleavings |
| C19 | CallableGroup call as fold | functional spec; negation for failure retention |
| C20 | threads with lock | transition system, invariant |
| C21 | queue, lock, condition | transition system; negation for lost wake-up |
| C22 | list of future states | functional spec; negation for cancel |
| C23 | pool as a transition system of threads (idle queue, use counts, monitor), log of what happened to each connection | invariant over schedules: each connection is in exactly one place; life-cycle automaton over the log |
| C24 | index set + pop loop | functional spec |
| C25 | merge_dicts on a heap of dictionaries and lists (in place, aliasing); trees as plain values | refinement of the heap code to a pure merge for separated values, structural induction; laws of the pure merge; negations for associativity and for the second argument |
| C26 | provide() of source trees on the same heap | refinement to a value-level description by mutual induction; declarative corollaries; negations (OptionalSource, second provide) |
| C27 | k-way merge loop | induction on total length |
| C28 | merge_series with its SetHeap of timestamps | invariant between calls, induction on entries left; values of all outputs by invariant; negations for late starts |
| C29 | parser state | step spec; negation for offset default |
| C30 | string scan | case analysis over texts |
| C31 | backoff state | induction on failures |
| C32 | chunking and pairing generators as functions on lists, with what they give and whether they raise | induction on the list |
| C33 | slicing generators as functions on lists, with what they give and whether they raise | induction on the list; witnesses where they raise |
| C34 | `unique` as a function on lists with the set of elements already seen | induction on the list |
| C35 | `walk` over finite trees with its deque of nodes still to visit | induction on trees; a witness for a root without children |
| C36 | `ListWrapperIterator` and `IteratorListAdapter` as states: what was read and what is left of the iterator | refinement of the list, by induction over calls |
| C37 | retry loop | induction on outcomes |
| C38 | memo table | invariant over ops |
| C39 | counter, histogram and summary as states with one step for each sample, and with embedded metrics | induction over samples |
| C40 | clicks-per-time-unit as a deque of times with the clock as an input | invariant by induction over clicks and reads |
| C41 | linkfail as a state with its counts of consecutive successes and failures | induction over reports |
| C42 | keyed collections | list reasoning |
| C43 | Subqueue: threads, queue objects, event log; PushIterable over any source | invariant over schedules; refinement; negation for get_any under concurrent creation |
| C44 | severity loop | induction on distance |
| C45 | processes, file, crash steps | transition system; negation of exclusion for overlapping acquires, partial theorem when acquires do not overlap (crashes anywhere); solo-run theorems for takeover |
| C46 | transaction exit | case analysis over outcomes |
| C47 | `Heap.__copy__`, inherited constructors | functional; negation for time heaps |
| C48 | fold over call times | induction |
| C49 | several locks | transition system; negation witnesses; lock order gives progress |
| C50 | waiting thread + updates | transition system; negation for lost wake-up |
| C51, C52 | future with callbacks as functions of what it presents | functional spec; negation witnesses |
| C53 | source, wrapper, waiting thread | transition system, invariant; negation witnesses |
| C54 | as C23 | per-call bound on a thread's turns under every schedule without invalidate/close/with; negation witnesses (stuck states) |
| C55 | parse outcomes as parameters; directory trees | mutual structural induction |
| C56 | measure as a state machine with clock readings | refinement of a stopwatch; negation for resuming |
| C57 | waiting thread and others, schedules | case analysis on steps; negations for timeout and missed notification |
| C58 | None/set/list state machine | simulation; negation for mixed kinds |
| C59 | JSON values as trees | round trip by cases; negation for labels named like fields |
| C60 | reports of metrics with submetrics | by the report theorems of C39; negation for labelled and histogram metrics |
| C61 | condition trees | mutual structural induction; negation for LocalRelativeValue |
| C62 | a function body as a tree of calls through the same decorator, with the flag the decorator keeps | induction on the body; negation for recursion |
| C63 | registry of hooks as a priority list, hooks as an environment of outcomes | simulation by an abstract registry, over histories |
| C64 | DeferredValue with a thread per caller, one step per lock operation | invariants over schedules; negation for two overlapping setters |
| C65 | LockedDataset with its lock, flag and remembered arguments | invariants over schedules; negations for the flag cleared late and arguments left behind |
| C66 | the queue, the workers and the caller of sync_threadpool | invariants over schedules; negations for a late worker and a timeout |
| C67 | the run loops with prepare, loop and cleanup as environments | induction on the number of loops |
| C68 | sleeping and waiting loops with the times of request and notification as environments | induction on the remaining time |
| C69 | the timers' heap as its sorted content, the background thread, callers of start and cancel | invariants over schedules; negation for equal deadlines |
| C70 | the flag of a Closeable, calls of close in two steps (read, set), a log of results | invariant over schedules; negation for two threads |
| C71 | cards of variables with parents, the thread's current card, every operation of Context | refinement to nested scopes; negations |
| C72 | os.path.split and join on lists of characters, the loop of split | induction on the length; negation for absolute paths |
| C73 | the loop over numbered names with an arbitrary checker | induction, pigeonhole for termination |
| C74 | a file system of bytes, encodings as partial functions with an inverse, what the system forbids | step-wise specification over histories; negations for data that do not fit |
| C75 | trees of entries, wildcard as a predicate | induction on the tree; negations |
| C76 | programs of nested blocks, the working directory, prev_path | induction on the program; negation for an object inside its own block |
| C77 | the file, the open file object in append mode, changes by others | simulation over histories; negations for reading and modes |
| C78 | the future's states, the thread's steps, cancel by others | invariant over schedules; negation for BaseException |
| C79 | calls that end in any order, the consumer | invariant over schedules; negation for BaseException |
| C80 | lives of threads, the caller's loops | invariants over schedules |
| C81 | signatures with every kind of parameter, Python's binding rules as a specification, the three loops of get_arguments | refinement to the binding rules by induction over parameters; negations |
| C82 | the loop of call_with_arguments | refinement to the binding rules; negation for a gap in the defaults |
| C83 | the argument decorators over the binding model | refinement; negations for the ways of giving arguments they do not handle |
| C84 | conditions by place and by name that may give any truth value | induction over conditions; negations |
| C85 | threads taking from a queue, the loop as a fuelled recursion | invariants over schedules; exact characterisation of termination |
| C86 | the attribute, threads between reading and assigning | invariant over schedules; negations |
| C87 | return values as tuples, dictionaries or others | case analysis; negation for pairs |
| C88 | descriptor trees, with the checkers that Lists lose kept apart | call agrees with an inductive conformance relation, by mutual induction over the tree; negations with witnesses |
| C89 | regular expressions with the priorities of a backtracking matcher | soundness and completeness against the language, by induction; negations |
| C90 | schemas as data, the compiler to descriptor trees, documented schemas with a meaning of their own | correctness of the compiler by mutual induction; negations |
| C91 | a datatype of expressions, its meaning with a value in place of x, and the predicates that the overloaded operators build | by induction over the expression: the built predicate has the meaning of the expression |
| C92 | the method with its swapped operands | negation with a witness; a partial theorem for symmetric containment |
| C93 | the recursive function over trees, with the early return from the loop over dictionaries | by mutual induction over the structure; negations with witnesses |
| C94 | signatures, the ordering used to sort them, and the dispatch loop | by induction over the sorted list; negations with witnesses |
| C95 | each function over lists, shuffles as arbitrary permutations | characterisations of the results by induction |
| C96 | both functions over rational numbers, bisection as a search | linear arithmetic over rationals; monotonicity |
| C97 | every method as a step over the dictionary and the flag | refinement to a partial function with a flag, by induction over the calls |
| C98 | both dictionaries and the calls on either | refinement to a one-to-one relation, by induction over the calls |
| C99 | done and __exit__ with the property that cannot be set | the negation for every state |
| C100 | the master and the other dictionaries and every method | refinement to a specification over the list of dictionaries, by induction over the calls |
| C101 | copying as written | negation with a witness; the exact condition under which it holds |
| C102 | the methods, with those inherited from MutableMapping written out, and a log of the factory's calls | refinement to a specification by induction over the calls; negations for the inherited methods |
| C103 | the queue, the idle semaphore, the lock, and the position of every worker, with steps between the points at which threads interleave | an invariant that counts tasks and idle workers, by induction over the schedule; a decreasing weight for progress |
| C104 | losing the executor as an action, after which weak references give None | the negation for every such state; a partial theorem for tasks that were begun |
| C105 | the sentinel in the queue, passed on by every worker that ends | negation with a witness; an invariant that the sentinel is not lost if no initializer fails |
| C106 | the registry as a dictionary from paths to numbered nodes; the loop of getMetric over prefixes | refinement to a map from paths, and the tree as an invariant |
| C107 | the same model with reset and the metrics reached from the root | negations with witnesses; a partial theorem for reset of the root |
| C108 | the methods over abstract values with equality, order and a 64 bit hash; the choice of method by Python for subclasses | characterisation of equality, from which the rest follows; induction over dictionaries for frozendict |
| C109 | the same model with strings and fractions as operands | negations with witnesses |
| C110 | attributes with the lock as a dictionary | induction over the operations; refinement to an ordinary object in the constructor |
| C111 | the methods overridden and those inherited | negation with witnesses for each method inherited; a partial theorem for those overridden |
| C112 | enumerations as lists of values, the lookup by value, the choice of the method | characterisation by the values |
| C113 | Python's rule for __hash__; the comparisons, with int() as a partial function | negations with witnesses; a partial theorem for numbers |
| C114 | objects as dictionaries with the attributes of classes | negation with a witness; a partial theorem for the same names of attributes |
| C115 | operators over an abstract type with operators that may raise; Python's choice of the method or the reflected one | induction over the nesting of Proxies |
| C116 | the same model | negations for %, & and |, and the second operation; a partial theorem for the others |
| C117 | the dictionary with numbered instances and the list of initializations; strong references | refinement to a map from arguments to instances, over all histories |
| C118 | the same model, with a constructor that may raise | negations with witnesses for constructors that raise and for keyword arguments; a partial theorem |
| C119 | the registry of C106 with assignments of levels | refinement to a map from names to levels, over all histories; the level in effect is an inductive relation |
| C120 | the recursion of to_metric_data over the registry, with the collection of C42; data of leaf metrics is a parameter | induction over the tree; names from different children differ in their first part |
| C121 | counters beside the model of CacheDict | induction over histories, with the invariant that every entry has a time |
| C122 | the same model, the evictions of make_room, the write-back cache of C14 | negations with witnesses; partial theorems by induction over histories without failing getters, and for all but every 101st operation |
| C123 | events of starts and ends with readings, a place for the value at the start of each; generators as transition functions | induction over events with the calls that run; simulation of generators |
| C124 | the same model | negations with witnesses; a partial theorem for uses that do not share |
| C125 | rendering as functions on lists of characters; a separate reader of the text format | the reader recovers each escaped value, label list, line and text, by induction |
| C126 | the same model | negations with witnesses (newlines, underscores); a partial theorem: the export is injective without them |
| C127 | mutually recursive functions on an inductive type of values; equality of Python as an inductive relation | structural induction over the nested values |
| C128 | the same model | negations with witnesses; a partial theorem for values of the same kinds |
| C129 | mutually recursive functions on an inductive type of values; the documented conversion as an inductive relation | induction over the relation |
| C130 | the same model | negations with witnesses; a partial theorem: the result is JSON if values of enums are |
| C131 | mutually recursive functions on the values of C129 | induction over the documented conversion and over values |
| C132 | the same model, with recursively=False too | negations with witnesses; a partial theorem for lists of other values |
| C133 | functions on lists of rationals, arguments and sets | induction over the lists |
| C134 | the same model | negations with witnesses; a partial theorem for sets that are disjoint |
| C135 | expressions evaluated over values with taints; a plain evaluation as the specification | induction over expressions |
| C136 | the same model | negations with witnesses (!=, reflected operators, indices); a partial theorem for sums and comparisons |
| C137 | frames as an inductive type; repr, pickle, zlib and base64 as parameters; JSON as structures | induction over the chain of frames and the lists of variables; a relation says what preserving a frame is |
| C138 | the same model | negations for all values (JSON drops every pickle, a missing class, a raising repr); a partial theorem for values that were not pickled |
| C139 | the loops with fuel; factors, naps and the terminating flag as sequences that may be anything | induction over the number of checks; enough fuel exists by the Archimedean property |
| C140 | the same model | negations (check_each of 0 never ends, time strings raise TypeError, max_sooner of 0 is 10%); a partial theorem for other arguments |
| C141 | histories of readings, of operations of the profile thread, and of measures | induction over histories with invariants |
| C142 | steps of recalculation and of reading interleaved with other calls | negations with schedules (IndexError after a request during recalculation, a negative factor, guests counted twice); partial theorems for all schedules |
| C143 | each loop as a recursive function over the list of elements, generators with fuel | closed forms for the i-th element, by induction; termination of f_range by the Archimedean property |
| C144 | the same model | negations with witnesses; a partial theorem for zip_shifted with shifts within the length |
| C145 | format strings as lists of pieces, format_dict as the code builds it; calls by how they end | the text logged is characterised by an inductive relation, by induction over the format string |
| C146 | the same model | negations with witnesses; a partial theorem on when exactly the exception is replaced |
| C147 | classes numbered in the order of creation with their bases, loops with fuel | induction over the number of the class |
| C148 | the same model, texts as strings | negations with witnesses; a partial theorem on soundness for all hierarchies |
| C149 | values and JSON as trees, the encoder of the standard library with fuel, files as optional texts | the encoding is characterised by an inductive relation; induction over it |
| C150 | the same model | negations with witnesses; a partial theorem for regular values |
| C151 | generators as lists of what they give and how they end, with what they have done | induction over what the generator still gives |
| C152 | the same model | negations with witnesses; partial theorems for TypeErrors and hints |
| C153 | a process that writes byte by byte into a pipe of limited size, the thread and the caller as programs; any schedule | an invariant over schedules; a measure that decreases in each round in which all act |
| C154 | the same model; decoding of the parts that were read | an invariant that no schedule leaves: a deadlock; a witness for a character across a boundary; partial theorems for output that fits and for encodings of single bytes |
| C155 | the dictionary with calls by attribute and item, values as trees, objects by number | simulation of one map over histories, mutual induction over values |
| C156 | the same model | negations for all names of methods; exact partial theorems |
| C157 | classes as lists of fields with defaults, objects as dictionaries, loops as in the code | induction over the fields |
| C158 | the same model | negations with witnesses; a partial theorem for values that have all the fields |
| C159 | modules as lists of attributes and names exported, the walk over packages as a list | induction over modules and names |
| C160 | the same model | negations with witnesses; a partial theorem for the walk |
| C161 | the loop over a list of what the environment does in each round, with rational time | induction over the rounds |
| C162 | the same model | negations: for every interval a timing that raises ValueError, or KeyboardInterrupt; a partial theorem for other timings |
| C163 | handlers as a function, polls as a list with the signal that came in each | induction over polls and extra signals |
| C164 | the same model | negations: any number of SIGINTs does not release the call; witnesses for repeated signals and exceptions; a partial theorem for SIGINT as an extra signal |
| C165 | a heap of objects, depth-first search with the set of seen objects | mutual induction: what is newly seen is closed under components, without repetitions; a decreasing number of unseen objects |
| C166 | the same model, with iterators that can be iterated once | negations for all sizes; an exact partial theorem for components that are looked at |
| C167 | the queue and the sum, with rounding of additions as a parameter | simulation of the list of all samples over histories |
| C168 | the same model with a rounding | negations with witnesses; a partial theorem for small integers |
| C169 | the dictionary with its calls | simulation of the list of what was counted over histories |
| C170 | the loops over a list with a filter that may raise, giving what was not taken | the list is split at the first element that matches |
| C171 | the same model | a negation for any rest; a partial theorem when there are not many |
| C172 | generators as lists of what they do, calls of the wrapper | induction over values and calls |
| C173 | the same model | negations for all generators; an exact count as a partial theorem |
| C174 | values with Optionals nested at any depth, objects with arbitrary effects | induction over chains, cases over operations |
| C175 | the same model | negations for all objects; a partial theorem for present objects |
| C176 | the decisions of the handler, with what the hook and stderr do | cases, membership in sequences of any length |
| C177 | the same model | negations; a partial theorem about hooks |
| C178 | files, streams and loggers as a world; the loops over targets | induction over targets |
| C179 | the same model | negations for all worlds; a partial theorem for streams and loggers over all sequences of exceptions |
| C180 | a heap of classes with resolution orders, the merging of orders as a parameter, the memo of metaclasses | an invariant over all later worlds, induction over recursion of metaclasses |
| C181 | functions with mutable documentation, ancestors as trees walked as in walk | the breadth-first theorem of walk, induction over the namespace |
| C182 | the same model | a negation with a witness; an exact partial theorem about the first method |
| C183 | the same model | negations with witnesses; a partial theorem about functions that are not members |
| C184 | the loop over the namespace with partial functions | an equivalence by induction over the namespace |
| C185 | the recursion with fuel, constructors as partial functions | a relational specification, sound and complete |
| C186 | the same model | a negation for all such; a partial theorem for no type |
| C187 | the functions with the environment, cast and parser as parameters | cases, exact conditions for each outcome |
| C188 | the loops over directories and files, with the file system as a parameter | induction over PATH and over files |
| C189 | the same model | negations with witnesses; a partial theorem about what is given |
| C190 | the sequence of actions with failures | cases over users and groups |
| C191 | the same model | negations for all names; a partial theorem for unknown users |
| C192 | an interleaving of threads at the granularity of check, refresh and body | an invariant over schedules, with a log of events |
| C193 | the same model | negations; a partial theorem for calls after the object was loaded |
| C194 | functions as state transformers that may raise, generators as transitions | equivalences with relations on outcomes and states, induction over values of generators |
| C195 | the same model with exceptions and their texts | negations with witnesses; an exact partial theorem |
| C196 | a heap of objects with references, programs as sequences of reads, writes and creations, copying by what it promises | an invariant of confinement, induction over programs and arguments |
| C197 | dictionaries as association lists, objects as functions reading and setting | induction over items and elements |
| C198 | shuffling as any permutation, choosing as any draws | permutations of lists, induction over indices and sequences |
| C199 | the same model | a negation for all lengths; a partial theorem for a longer first sequence |
| C200 | the with statement over managers that may raise | a relational specification of all cases, equivalence |
| C201 | the same model | a negation for all; a partial theorem for blocks that do not raise |
| C202 | sessions of threads and flags of environments | projection of histories to a thread, by induction |
| C203 | the same model | negations with witnesses; a partial theorem for environments of one thread |
| C204 | the lock, waiting threads and a log | serialisation of the log, an invariant over schedules |
| C205 | values as a data type, file systems as functions, checkers as predicates kept in a group | equivalences, induction over strings and checkers |
| C206 | the same model, with the checkers as state | negations with witnesses for lost checkers, missing files, infinite numbers and strings; exact partial theorems |
| C207 | a call as a step that changes the shared tags, with a log of events at the tracer | induction over calls with an invariant of the shared tags |
| C208 | endings of futures and events at the span | negations with witnesses; an exact partial theorem |
| C209 | a decision function over what is given and handled | case analysis with lemmas on prefixes |
| C210 | the same model | negations with witnesses; a partial theorem |
| C211 | a generator as a state machine with a log; wrapping as two steps interleaved with the driver | induction over steps with an invariant |
| C212 | callables as functions of the world; labels as abstract dictionaries | induction over the callables with a relational specification of reading |
| C213 | a handler as a function; the server's loop as a state machine | case analysis; invariant over schedules |
| C214 | the same model | negations with witnesses (entries made equal by the extra labels; exporter not started or failed to bind); exact partial theorems |
| C215 | a state machine with a lock, a check step and an add step per call | linearizability: every run has a legal log with the same visible events; corollary by counting |
| C216 | a state machine of the maintaining thread, user threads and monitors, with a log | invariant over the log by induction over the schedule |
| C217 | the same state machine | negations with witnesses (iterating inside the monitor; making a dictionary inside a monitor; a cleaning that raises); partial theorem: after any history each flat program can be finished and another pass made |
| C218 | the two flags; join as a loop over a clock | induction over calls; a decreasing measure for join |
| C219 | a state machine: check, set, start | invariant by induction over the schedule |
| C220 | the same models | negations with witnesses; exact partial theorems |
| C221 | a state machine: looking at the size and getting are separate steps | invariant by induction over the schedule; case analysis of steps |
| C222 | slice.indices, the generator with its position, and the deque as it is at each call | induction over positions against a pointwise definition of slices; induction over calls of next() |
| C223 | the lock with its holder and depth, the waiters of the standard library in order, each thread's position in wait/notify/notify_all, timeouts at any moment | simulation of an event specification (queue, told, phase) for every schedule; possibility of return from every reachable state by freeing the lock |
| C224 | as for C223 | a witness schedule; an invariant of all continuations of the deadlock; counting of notifications and returns over the event specification |
| C225 | files as bytes, decoding as a parameter, universal newlines, iteration over lines, strip | induction over the text against a relational specification of lines |
| C226 | files as bytes, decoding and encoding as inverse parameters, opening for writing truncates before encoding | computation under the guards, witnesses of both failures |
| C227 | the closed flag, the kind of file, every method with its result | simulation against a specification by induction over operations |
| C228 | schemas as descriptors or JSON dictionaries with keywords, compilation to descriptors, validation with its exceptions | case analysis over the compilation and the outcome of validation; witnesses |
| C229 | a heap of numbered objects: immutable ones, containers, and monitors with a container and the holder of the lock; construction makes a new container | computation on the heap, induction over later changes |
| C230 | the same heap, deepcopy with its memo over containers and monitors | induction over the structure with an invariant of the memo; a witness for the structure that holds itself |
| C231 | lookup of an attribute along the classes, and binding of functions, class methods and class_or_instancemethod objects | case analysis over the receiver |
| C232 | decorators as functions on callables, adaptor objects with __get__ and __call__ | induction over the stack of decorators |
| C233 | decorators as functions that give a callable with a state; the adaptor applies the decorator at each access | induction over the history of calls for the decorators without state; witnesses for the two failures |
| C234 | the writes made to the output, as texts in order, and the buffer of pretty_format | induction over frames and variables |
| C235 | texts as lists of characters, the fields as a function that gives a text or raises | induction over the fields; unique decomposition of joined texts |
| C236 | the loop of run as a recursion over rounds that logs what was called and when loops begin; the sleep (C139) as a parameter between its proved bounds | induction over rounds |
| C237 | elements as references into a heap of objects, operators as functions on objects that may raise | induction over the sequence |
| C238 | objects as maps of attributes, with the exceptions that getting and setting them raise; the six statements of wraps in order | induction over the statements, and over the height of the stack |
| C239 | each access to an attribute as one step of a thread, the monitor, the loops of sync_to_db and cleanup_keep_in_memory item by item | invariant over schedules; schedules that lose items as witnesses |
| C240 | each next of the generators as a step, with the calls made; a memory of objects for make_list, with what copies as a parameter | induction on items and on the number of values asked for |
| C241 | an object is what int() and len() do with it | cases; arithmetic; int() raising OverflowError as a witness |
| C242 | the random generator and the reads of the device as parameters | induction on the length |
| C243 | the loop with its two dicts, the stable sort, the lines written | invariant of the dicts over the objects seen; a __repr__ that raises as a witness |
| C244 | the comprehension step by step in each thread, the generator of the default that is shared and can be executed by one thread at a time | invariant over schedules; two threads that meet in the generator as a witness |
| C245 | the loop, watched for any number of turns | induction on turns |
| C246 | each access to the heap, the timestamps and the data as a step of a thread; the monitor where it is taken | invariant over schedules that follows the only assignment of the key; two schedules of threads that assign the key again as witnesses |
| C247 | a memory of lists, tuples and tainted objects; the loop that replaces elements; nested calls counted | relation between memories before and after, closed under turns of the loop, by induction on the depth of calls |
| C248 | the same memory | a list that contains itself and a list used after the session as witnesses; what holds without them from C247 |
| C249 | threads calling handle(), with every reading and writing of an attribute, of the mapping and of the list of children as a step | invariant relating every stored and every read value to a set of calls; a second one for the labels of one thread |
| C250 | the same threads | schedules of two threads as witnesses, one of them with what is shown for labels stuck for ever, by an invariant; for one thread an invariant |
| C251 | threads calling handle(), with the comparison of the length, pop and appendleft as steps | invariant: the length of the queue and the number of threads which popped and did not append yet, together, never decrease |
| C252 | the same threads | for every last_calls and every longer list of values a schedule of two threads after which all of it is kept, built by induction; for one call at a time an invariant |
| C253 | threads calling handle() and to_metric_data(), with each reading of the clock, append, look at the oldest, popleft and step of the iteration as steps | invariants over all steps about the deque, iterations, times read and what is seen |
| C254 | the same threads | schedules of two threads as witnesses; for one call at a time an invariant: what was dropped is older than all periods |
| C255 | threads calling the class, with the look at __it__, its assignment, the look at the dictionary, creation, storing and initialising as steps | invariants over all steps |
| C256 | the same threads | schedules of two threads as witnesses; for one call at a time an invariant |
| C257 | threads getting the builder, with the look at the class attribute, its assignment and the three steps of start as steps | invariant: the builder in the class attribute runs, or a thread is on the way to start it |
| C258 | the same threads | for any two threads a schedule as witness; for one call at a time an invariant |
| C259 | threads in handle with labels and in to_metric_data, with each look at or change of the mapping and the list of children as a step; values given to a child are kept as a list | invariant: each metric made for labels is listed, or one thread is on the way to list it; values in all of them are those of calls that ended |
| C260 | the same threads | for two threads schedules as witnesses; for one call at a time an invariant |
| C261 | threads in add and in calls of the group, with the copying of the callables, the clearing, each call and each putting back as a step; iterating over the changed dictionary may raise | invariant: what a call has still to call has distinct callables, was added before and was not yet called by it; a thread on its own takes finitely many steps |
| C262 | the same threads | schedules as witnesses, with an invariant that what was lost is never called again; if nothing happens between copying and clearing, an invariant that each callable is registered or about to be put back |
| C263 | threads in __getitem__, __setitem__ and __delitem__ with each access to the cache, each body of the lock and each submission as a step, the worker, and the renewal of in_cache at any time | invariants on where values come from and on what the queue will leave in the storage; a measure for a thread with the worker |
| C264 | the same threads | schedules as witnesses, with an invariant that the wrong answer stays for ever; if operations on the key do not overlap, an invariant on what is remembered about the key at each step of its operation |
| C265 | threads in wait_until_available with each reading and setting of unavailable_until, reading the clock and waiting as steps; one thread calling failed and success | an invariant that there is something to look at while a thread looks, if nobody interferes; schedules as witnesses of TypeError otherwise |
| C266 | the same threads | an invariant relating what the object remembers to what it was told, if no failure is told while a thread sets unavailable_until to None; a schedule with an arbitrary wait as a witness otherwise |
| C267 | one Future shared by threads: the look at _state without the lock, what is done under the lock, each call of a callback as steps; set_result, set_exception, result, cancel, set_running_or_notify_cancel, add_pre_done_callback, add_done_callback | an invariant relating the log of events to what the future holds, if one thread sets; schedules as witnesses of an outcome told early, overwritten, and changed when done |
| C268 | the same threads | an invariant: each callback was called once, or is left to one thread, or the future is not done |
| C269 | the same threads | an invariant of the lock and the waiting threads; the steps left to a thread once the future is done |
| C270 | handle() of one histogram shared by threads: reading and writing the number of a bucket are steps | an invariant relating what is shown, and what threads have read, with the log of calls that ended |
| C271 | the same threads | the sum of what C270 tells of each bucket if calls within the same bucket are not made at once; schedules as witnesses of a lost call, and of a number which becomes less |
| C272 | provide() with what requests.request returns or raises as a parameter | cases, with what C26 tells of OptionalSource and AlternativeSource; replies as witnesses that lists and other codes are accepted |
| C273 | the threads of C246's model of expiring dictionaries: every access to the lock, the clock, the heap and the dictionaries is a step | an invariant (the lock is held by exactly the thread inside) and a number of remaining steps, bounded by the length of the heap, that each step of a thread that can take the lock makes less |
| C274 | the calls step by step: taking the monitor, and each access to the dictionary inside; deleting without the monitor | an invariant with the moments at which calls take effect (a linearization), and a number of steps left that each step makes less |
| C275 | the same threads | an invariant: before a key is removed it is there, or a call of another thread that may remove it was underway as well; schedules as witnesses of KeyError otherwise |
| C276 | every access to the values, to the timestamps and to the clock is a step, and so is the answer of the value getter; a refresh may happen at any time; failures are not cached and there is no default factory | an invariant over what happens, with the last that was seen of each thread |
| C277 | the same threads | an invariant: a value has a timestamp, unless a call that stores it is underway, for keys nobody removes; schedules as witnesses of KeyError otherwise, one of them for ever (induction over the lookups) |
| C278 | the same threads as for C276, with the time of everything that is seen | an invariant: the value in memory was stored by a call that is underway or ended no earlier than the timestamp in memory, if calls that store values for the key do not overlap; a schedule as witness otherwise |
| C279 | every access to the values, the timestamps, the set of missed keys and the clock is a step, and so is the answer of the value getter; there is no default factory | an invariant over what happens: a thread that found a key missed still does, or met another thread's call for the key; a schedule as witness of None |
| C280 | generators as states (not asked, suspended, over), their being asked as an action among the calls of the heap model and the passing of time | induction over what happened since the generator was made gives its state; the heap invariant gives the least entry |
| C281 | generators as states (not asked, suspended, over), their being asked as an action among the calls of the heap model and the passing of time | an invariant weaker than that of C05, that every entry has its timestamp, holds with remove too; induction over what happened since the generator was made gives its state |
| C282 | iterators as states (not asked, suspended with the copy, over), their being asked as an action among the calls of the heap model | induction over what happened since the iterator was made: what it gave and what it has still to give are together what was held, the former sorted and below the latter |
| C283 | the list in memory, the newest key, and the iterator as a state (not asked, suspended at an index of the list or of one replaced since, over) | induction over what happened since the iterator was made: what was given is below what is left of the list, and both together hold what was in memory; a witness shows that items are passed over after an ejection by cleanup, and the second part is proved without ejections |
| C284 | the clock, last_called, a program counter for each thread, and a log of what was seen | invariants by induction over the history: last_called is a time at which the function had returned; if calls are alone it is the latest one; witnesses for two calls at once and for the first call of all |

## What is modelled

Generated from the citations in the model. Lines of a listed file that are not cited (constructors of trivial attributes, `__repr__`, docstrings, methods not mentioned in any property) are not modelled.

<!-- coverage -->
| file | lines cited by the model | modules |
|---|---|---|
| satella/cassandra/future.py | 6-23 | Db/Cassandra |
| satella/cassandra/parallel.py | 7-54 | Db/Cassandra |
| satella/coding/algos.py | 6-26 | Merge/Model |
| satella/coding/concurrent/atomic.py | 11-282 | Conc/Monitor, Conc/Wait |
| satella/coding/concurrent/callablegroup.py | 44-46, 48-52, 84-215 | Group/Model, Group/OftenThreads, Group/Threads, Schema/Basic, Schema/Model |
| satella/coding/concurrent/functions.py | 29-30, 32-36, 38-39, 44-65 | Conc/Parallel, Conc/ParallelThreads, Conc/ThreadFuture |
| satella/coding/concurrent/futures/collection.py | 8-154 | Futures/Model |
| satella/coding/concurrent/futures/futures.py | 16-19, 22-173, 176-213 | Futures/Model, Futures/Threads, Futures/Wrapping |
| satella/coding/concurrent/id_allocator.py | 8-50, 53-141 | Ids/AllocThreads, Ids/Model, Ids/Threads |
| satella/coding/concurrent/list_processor.py | 40-44 | Conc/Parallel |
| satella/coding/concurrent/locked_dataset.py | 9-98 | Conc/LockedDataset |
| satella/coding/concurrent/locked_structure.py | 8-44 | Conc/LockedStructure |
| satella/coding/concurrent/monitor.py | 10-167, 179-232, 235-255 | Conc/Monitor, Conc/MonitorCopy, Conc/MonitorSet, Conc/Wait, Expiring/Maintenance, Pool/Model |
| satella/coding/concurrent/queue.py | 12-117 | PQueue/Model |
| satella/coding/concurrent/sync.py | 12-20, 23-30, 32-70 | Conc/SyncPool |
| satella/coding/concurrent/thread.py | 16-71, 74-143, 146-226, 229-451, 488-524 | Conc/Bogus, Conc/Condition, Conc/SafeSleep, Conc/Terminable, Conc/ThreadFuture, Instr/Builder, Memory/Pressure, Time/BackoffThreads, Time/BackoffWait |
| satella/coding/concurrent/thread_collection.py | 8-175 | Conc/ThreadCollection |
| satella/coding/concurrent/timer.py | 15-90 | Conc/Timer |
| satella/coding/concurrent/value.py | 10-61 | Conc/Deferred |
| satella/coding/ctxt_managers.py | 4-26, 29-48 | Exn/Expect |
| satella/coding/decorators/arguments.py | 20-44, 47-76, 79-125, 128-168, 171-197, 200-211, 214-240, 246-277, 280-375, 388-396, 409-417, 431-433, 449-456 | Args/Decorators, Deco/AdaptMethods, Deco/CachedProperty, Deco/CopyArgs, Deco/Small |
| satella/coding/decorators/decorators.py | 25-28, 54-66, 73-137, 140-187, 224-267, 289-293, 314-321, 324-362 | Deco/CachedProperty, Deco/Memo, Deco/Small, Deco/Wraps |
| satella/coding/decorators/flow_control.py | 15-18, 25-98, 131-137 | Deco/Flow, Deco/Forever |
| satella/coding/decorators/preconditions.py | 19-90, 104-110 | Args/Precondition |
| satella/coding/decorators/retry_dec.py | 9-84 | Deco/Retry |
| satella/coding/deep_compare.py | 4-22, 25-63 | Misc/DeepCompare |
| satella/coding/deleters.py | 12-80, 83-84, 87-238 | Deleter/Model |
| satella/coding/environment.py | 14-110 | Misc/Context |
| satella/coding/expect_exception.py | 6-40 | Exn/Expect |
| satella/coding/generators.py | 15-26, 28-51 | Seq/Choose |
| satella/coding/iterators.py | 7-20, 23-33, 52-54, 62-88, 108-117, 119-120, 134-138 | Seq/Closing |
| satella/coding/metaclasses.py | 15-84, 87-151, 185-188, 215-224 | Meta/Docs, Meta/NoConflict |
| satella/coding/misc.py | 11-60, 63-128, 131-142, 156-177, 200-228, 238-254, 257-272, 276-341, 344-384, 418-423 | Args/Bind, Conc/Closeable, Deco/Small, Misc/Updates, Pool/Model, Queue/Iterator |
| satella/coding/optionals.py | 10-19, 22-37, 66-67, 69-109, 115-123 | Struct/Optional |
| satella/coding/overloading.py | 11-29, 32-57, 83-92, 123-142, 144-158 | Deco/AdaptMethods, Deco/Overload |
| satella/coding/predicates.py | 16-46, 63-67, 74-231, 237-284 | Pred/Build, Pred/Exprs |
| satella/coding/recast_exceptions.py | 48-55, 64-76, 81-126, 169-181, 187-193, 197-293, 298-307, 310-347 | Deco/Rethrow, Exn/LogExceptions |
| satella/coding/resources/cp_manager.py | 16-142 | Pool/Model |
| satella/coding/sequences/average.py | 4-45 | Seq/Rolling |
| satella/coding/sequences/choose.py | 5-18, 21-33, 35-72 | Seq/Choose |
| satella/coding/sequences/iterators.py | 23-27, 47-50, 68-90, 108-111, 114-143, 146-204, 221-250, 253-269, 272-283, 286-297, 300-325, 335-337, 340-355, 366-382, 385-418, 421-458, 461-477, 502-605, 608-626, 629-643, 661-666, 674-680, 682-687, 702-722, 725-734, 737-760, 781-788, 800-803, 828-834, 837-857 | Seq/Adapters, Seq/Helpers, Seq/Slices, Seq/Small, Seq/Unique, Seq/Walk |
| satella/coding/sequences/sequences.py | 10-24, 27-46, 51-71, 74-105, 108-136, 139-171, 181-185, 188-199, 202-217, 229-234, 237-351 | Conc/ParallelThreads, Seq/Chunks, Seq/Helpers, Seq/Multirun, Seq/Small |
| satella/coding/structures/dictionaries/cache_dict.py | 48-249, 252-320 | Cache/FailuresThreads, Cache/Metrified, Cache/Model, Cache/Threads |
| satella/coding/structures/dictionaries/counting.py | 13-16, 18-52 | Seq/Rolling |
| satella/coding/structures/dictionaries/dict_object.py | 9, 15-16, 25-30, 38-47, 49-76, 79-96 | Dicts/DictObject, Schema/Valid |
| satella/coding/structures/dictionaries/expiring.py | 14-58, 61-136, 139-226 | Expiring/Maintenance, Expiring/Model, Expiring/SelfCleaningThreads, Expiring/Threads |
| satella/coding/structures/dictionaries/objects.py | 20-79, 91-111, 140, 142-149, 151-161, 166-168, 170-202, 231-232, 237-245, 247-292 | Dicts/Dirty, Dicts/KeyAware, Dicts/TwoWay, Dicts/View |
| satella/coding/structures/dictionaries/writeback_cache.py | 11-123 | Writeback/Model, Writeback/Props, Writeback/Threads |
| satella/coding/structures/hashable_objects.py | 4-33 | Mixins/Hash |
| satella/coding/structures/heaps/base.py | 10-175 | Conc/Timer, Heap/Ascending, Heap/Heapq, Heap/Model |
| satella/coding/structures/heaps/time.py | 10-133, 136-271 | Conc/Timer, Expiring/Threads, Heap/Generators, Heap/Model, Heap/SetGenerators |
| satella/coding/structures/immutable.py | 5-8, 11-46, 67-83 | Mixins/Hash, Mixins/Immutable |
| satella/coding/structures/lru.py | 7-37 | Cache/Model, LRU/Model |
| satella/coding/structures/mixins/enums.py | 4-88 | Mixins/Enums |
| satella/coding/structures/mixins/eqable.py | 4-10, 12-18, 20-26 | Mixins/Enums |
| satella/coding/structures/mixins/hashable.py | 19, 25-203 | Mixins/Hash |
| satella/coding/structures/mixins/strings.py | 22-59 | Mixins/Reprable |
| satella/coding/structures/proxy.py | 15-23, 26-390 | Struct/Optional, Struct/Proxy |
| satella/coding/structures/push_iterable.py | 7-67 | Queue/PushIter |
| satella/coding/structures/queues.py | 9-58 | Queue/Subqueue |
| satella/coding/structures/ranking.py | 8-81 | Sorted/Model |
| satella/coding/structures/singleton.py | 19-36, 68-117 | Struct/Singleton, Struct/SingletonThreads |
| satella/coding/structures/sorted_list.py | 20, 22-26, 28-91, 94-144 | Sorted/Model, Sorted/SliceableDeque |
| satella/coding/structures/sparse_matrix.py | 10-19, 22-339 | Matrix/Model |
| satella/coding/structures/syncable_droppable.py | 10, 22-31, 33-46, 73-79, 82-402 | Syncable/ArchiveIter, Syncable/Model, Syncable/Threads |
| satella/coding/structures/tuples.py | 17-21, 23-27, 32-36, 38-42 | Struct/Tuples |
| satella/coding/structures/typednamedtuple.py | 9-13, 47-60 | Struct/Tuples |
| satella/coding/structures/zip_dict.py | 17-19, 21-22, 24-25, 27-28, 30-32 | Struct/Tuples |
| satella/coding/transforms/__init__.py | 25-52, 67-80, 83-107, 117-129, 132-156, 159-190, 220-236 | Misc/Numbers, Seq/Helpers, Seq/Jsonify, Seq/Small, Seq/Transforms |
| satella/coding/transforms/interpol.py | 7-47 | Seq/Interpolate |
| satella/coding/transforms/jsonify.py | 7-41 | Seq/Jsonify |
| satella/coding/transforms/merge_list.py | 7-75 | MergeList/Model |
| satella/coding/transforms/merger.py | 11-116 | MergeSeries/Model |
| satella/coding/transforms/misc.py | 6-24 | Seq/Transforms |
| satella/coding/transforms/percentile.py | 7-23 | Seq/Interpolate |
| satella/coding/transforms/predicates.py | 4-18 | Seq/Transforms |
| satella/coding/transforms/words.py | 6-18 | Seq/Transforms |
| satella/configuration/schema/base.py | 8, 26-28, 42-88 | Schema/Basic, Schema/FromJson, Schema/Model |
| satella/configuration/schema/basic.py | 11-54, 57-101, 104-132, 135-140, 153-175, 178-183, 210-213, 215-223, 234 | Schema/Basic, Schema/Model, Schema/Regexp |
| satella/configuration/schema/from_json.py | 10-16, 19-59, 62-72, 75-104 | Schema/FromJson |
| satella/configuration/schema/registry.py | 1-27 | Schema/FromJson |
| satella/configuration/schema/structs.py | 10-148 | Schema/FromJson, Schema/Model |
| satella/configuration/sources/base.py | 7-20, 23-33 | Config/Model |
| satella/configuration/sources/derivative.py | 10-24, 26-38, 41-56, 59-81, 83-105 | Config/FromDict, Config/Model |
| satella/configuration/sources/envvars.py | 16-44, 53-61 | Config/FromDict |
| satella/configuration/sources/file.py | 42-58, 61-120, 142-149 | Config/Files, Config/Http |
| satella/configuration/sources/format.py | 28-60 | Config/Files, Config/FromDict |
| satella/configuration/sources/from_dict.py | 26-31, 34-81, 84-88 | Config/FromDict |
| satella/configuration/sources/object_from.py | 6-15, 17-23 | Config/Model |
| satella/dao.py | 8-34, 46-52 | Misc/Loadable |
| satella/db.py | 7-62 | Db/Transaction |
| satella/debug/tainting/environment.py | 13, 18-92 | Misc/TaintEnv |
| satella/debug/tainting/tainteds.py | 19-26, 33-172, 175-183, 186-192 | Misc/TaintHeap, Misc/Tainting |
| satella/exception_handling/dump_to_file.py | 20-24, 27-80, 108-125 | Exn/Dump |
| satella/exception_handling/exception_handlers.py | 24-58, 74-80, 83-110 | Exn/Hooks |
| satella/exception_handling/global_eh.py | 16-108 | Exn/Dump, Exn/Hooks |
| satella/exception_handling/memerrhandler.py | 25-36, 38-68 | Exn/Dump |
| satella/exceptions.py | 28-36, 38-50, 53-57, 60-92, 177-189 | Exn/Coded, Schema/Basic, Schema/Model |
| satella/files.py | 25-35, 41-67, 69-152, 155-160, 163-179, 182-205, 208-219, 222-239, 246-277, 280-300, 303-324, 327-332, 335-377, 380-408, 411-422, 425-551 | Exn/Dump, Files/Autoflush, Files/Find, Files/Jump, Files/Lines, Files/Path, Files/Whole |
| satella/imports.py | 17-22, 25-91 | Misc/Imports |
| satella/instrumentation/cpu_time/collector.py | 35, 43-47, 51-57, 59-83, 85-114, 150-184, 187-219, 235-239 | Instr/Builder, Instr/CpuSleep, Instr/CpuStats |
| satella/instrumentation/cpu_time/concurrency.py | 28-31, 33, 54-59, 61-66, 68-93 | Instr/CpuSleep, Instr/CpuThread |
| satella/instrumentation/memory/conditions.py | 34-138 | Memory/Conditions |
| satella/instrumentation/memory/dump_frames_on.py | 7-42 | Memory/Dump |
| satella/instrumentation/memory/get_object_size.py | 7-33 | Instr/ObjectSize |
| satella/instrumentation/memory/memthread.py | 19-235 | Memory/Pressure |
| satella/instrumentation/metrics/__init__.py | 17, 34-58, 62-101 | Metrics/Levels, Metrics/Registry |
| satella/instrumentation/metrics/data.py | 7-11, 14-68, 71-198 | Metrics/CounterThreads, Metrics/Data, Metrics/Exporter, Metrics/Json, Metrics/Prometheus |
| satella/instrumentation/metrics/exporters/prometheus.py | 12-92, 102-112, 115-132 | Metrics/Exporter, Metrics/Prometheus |
| satella/instrumentation/metrics/labeled.py | 8-38 | Metrics/Leaves |
| satella/instrumentation/metrics/metric_types/base.py | 9-13, 26-148, 151-243 | Metrics/Counter, Metrics/CounterThreads, Metrics/Embedded, Metrics/EmbeddedThreads, Metrics/Levels, Metrics/Registry |
| satella/instrumentation/metrics/metric_types/callable.py | 11-48 | Cache/Metrified, Metrics/Leaves |
| satella/instrumentation/metrics/metric_types/counter.py | 9-60 | Metrics/Counter, Metrics/CounterThreads, Metrics/Embedded |
| satella/instrumentation/metrics/metric_types/cps.py | 25-32, 34-78 | Metrics/Cps, Metrics/CpsThreads |
| satella/instrumentation/metrics/metric_types/histogram.py | 26-31, 34-38, 40-55, 57-71, 73-84 | Metrics/Histogram, Metrics/HistogramThreads |
| satella/instrumentation/metrics/metric_types/linkfail.py | 9-85 | Metrics/Linkfail |
| satella/instrumentation/metrics/metric_types/measurable_mixin.py | 16, 31-36, 84-93, 98-114, 116-117 | Metrics/Measure |
| satella/instrumentation/metrics/metric_types/simple.py | 20-23, 25-30 | Metrics/Summary |
| satella/instrumentation/metrics/metric_types/summary.py | 28-35, 38-45, 47-58, 60-91, 93-104 | Metrics/Summary, Metrics/SummaryThreads |
| satella/instrumentation/metrics/metric_types/uptime.py | 22-26, 31-36 | Metrics/Leaves |
| satella/instrumentation/metrics/structures/cache_dict.py | 25-63, 66-124, 138-139, 141-147 | Cache/Metrified |
| satella/instrumentation/metrics/structures/threadpool.py | 21-185 | ThreadPool/Model |
| satella/instrumentation/trace_back/classes.py | 30-39, 69-82, 85-199, 206, 208-218, 220-231, 233-236, 238-246, 248-255 | Instr/PrettyPrint, Instr/Traceback |
| satella/instrumentation/trace_back/trace_back.py | 18-27, 48, 50-54, 56-78, 80-81, 110-114, 116-121, 123-132, 134-150 | Instr/PrettyPrint, Instr/Traceback |
| satella/json.py | 34-59, 62-68, 83-84, 101-102, 127, 133-139, 148-149, 151-155, 157-167, 169-174, 176-178 | Misc/DataObject, Misc/JsonEncode |
| satella/opentracing/exceptions.py | 22-57 | Instr/Trace |
| satella/opentracing/trace.py | 20-68, 71-93 | Instr/Trace |
| satella/os/daemon.py | 23-94 | Os/Whereis |
| satella/os/misc.py | 10-73, 76-91 | Exn/Dump, Os/Whereis |
| satella/os/pidlock.py | 8-85 | Os/PidLock |
| satella/os/signals.py | 6, 9-11, 14-47 | Os/Signals |
| satella/parsing.py | 9-180 | Parser/Model |
| satella/processes.py | 14-93 | Os/Stdout |
| satella/random.py | 11-31, 34-46, 49-71 | Misc/Numbers, Misc/Shuffle |
| satella/time/backoff.py | 10-178 | Time/Backoff, Time/BackoffThreads, Time/BackoffWait |
| satella/time/measure.py | 16-285 | Time/BackoffThreads, Time/BackoffWait, Time/Measure |
| satella/time/misc.py | 10-34, 37-44, 56-57, 71-72 | Misc/Numbers, Os/Signals |
| satella/time/parse.py | 3-9, 12-36 | Time/Parse |

Not modelled at all: satella/cassandra/common.py, satella/coding/concurrent/futures/call_in_future.py, satella/coding/concurrent/futures/wrapped_executor.py, satella/coding/fun_static.py, satella/coding/structures/dictionaries/default.py, satella/coding/transforms/base64.py, satella/coding/typing.py, satella/instrumentation/dump_frames_on.py, satella/instrumentation/memory/default.py, satella/instrumentation/metrics/aggregate.py, satella/instrumentation/metrics/metric_types/empty.py, satella/instrumentation/metrics/metric_types/registry.py, satella/posix.py, satella/warnings.py.
<!-- end coverage -->

## Where the code disagrees with a property

Each is a theorem about the model of the unchanged code; the part of the property that does hold is the `_partial` theorem of the same property.

<!-- findings -->
* `C03_constructor_duplicates_violate`: by the constructor: `SetHeap([a, a])` holds `a` twice, and the second `pop` raises KeyError although the heap is not empty
* `C03_filter_map_violates`: by `filter_map` with a map that sends two elements to one
* `C03_full_statement_is_false`: false in full: the unrestricted statement does not hold (for any heapq)
* `C03_pop_item_violates`: by `pop_item`: after `pop_item(a)` the element is still reported as held, and pushing it again is silently ignored
* `C05_remove_violates`: by `remove`: the removed item still has a timestamp, and putting it again raises ValueError
* `C07_removed_element_keeps_rank_violates`: An element that was removed keeps its old rank in `calculate_ranking_for` instead of raising KeyError
* `C101_copy_violates`: a copy of a view does not behave as the view: the switches are lost, and as the copy is of the same dictionaries, deleting a key through it, which the view refuses, deletes it from the dictionary
* `C102_lookups_violates`: by `in`, `get`, `pop` and `setdefault`: for a key that is not there they call the factory. So, if it does not raise, `in` is true and adds the key, `get` and `setdefault` ignore the default, and `pop` gives what was never stored
* `C104_dropped_violates`: , a state that meets the hypotheses: a task is submitted, and the executor is not kept. The worker dies with the task
* `C104_lost_violates`: once the executor is not referenced any more, no task is begun, and none fails: those that wait in the queue never complete, whatever happens
* `C105_shutdown_violates`: if the initializer of a worker fails after `shutdown`, draining the queue removes the sentinel as well, and the other worker waits for ever; `shutdown` that waits for the threads does not return
* `C107_leaf_violates`: below a leaf: asking for a metric below a leaf metric raises TypeError, but registers it; asked again, it is returned, although it is not in the tree, so it is never exported
* `C107_reset_violates`: a metric that is reset is removed from the registry, but stays a child of the metric above. So it is still reported; and if it is asked for again, it is there twice, and the old data is reported together with the new
* `C107_root_violates`: at the root: asked for a counter, getMetric('') gives a base metric, the first time
* `C109_mixed_violates`: a ComparableAndHashableByInt is equal to the string '5' and to the number 5.5 if its number is 5; comparing it with a string that is no number raises ValueError; and a ComparableAndHashableByStr is equal to the number 5 if it is written 5. As these are not equal to one another, equality is not transitive, and the hashes differ (`hn` and `hs` are any that distinguish 5, 5.5 and '5')
* `C10_custom_time_getter_violates`: The code breaks C10 when a `time_getter` other than `time.monotonic` is given: lookups read `time.monotonic()`. A value stored when the user's clock showed `t` is served when it shows any later `t'`, however far beyond the expiration, whenever the monotonic clock happens to show `t`
* `C10_feed_timestamp_zero_violates`: The code breaks C10 for `feed(key, value, timestamp=0)`: the timestamp is replaced by the current time, so a value declared to be of time 0 is served at any time up to the expiration counted from the feed
* `C111_frozendict_violates`: every way of changing a dictionary except assigning to an item and update changes a frozendict: del, pop, popitem, clear, setdefault and `|=`
* `C113_equal_raises_violates`: for ComparableIntEnum: `==` with None, or a string that is no number, raises; so `x in [...]` can raise
* `C113_unhashable_violates`: for ComparableEnum: its members cannot be keys of a dictionary or be in a set
* `C114_more_attributes_violates`: an object is equal to another of the same class that has more attributes, but not the other way round
* `C116_and_or_violates`: for wrap_operations: the results of `&` and `|` are not wrapped
* `C116_mod_violates`: for %: a Proxy has no `%`, so it raises TypeError whatever the objects do
* `C116_second_violates`: for results of wrapped operations: the wrapped result does not wrap in turn, so the result of the second operation is bare
* `C118_keywords_violates`: for keyword arguments: they are not considered, so that all calls that give the argument by keyword get the same instance
* `C118_raises_violates`: if the constructor raises: the instance was stored before it was initialized, so the next call, for which the constructor would not raise, returns the instance that is not initialized
* `C118_single_raises_violates`: for Singleton likewise
* `C11_feed_is_masked_violates`: The code breaks C11: a value fed for a key with a remembered failure is not returned: whatever the cache's intervals, the lookup right after `feed` still raises KeyError (or gives the default), and does not ask
* `C11_invalidate_keeps_failure_violates`: The code breaks the documented effect of `invalidate` ("remove all information about given key"): after a remembered failure, `invalidate` changes nothing and the lookup still raises KeyError without asking the getter
* `C122_entries_waiting_violates`: (violation), entries_waiting: it never reports the number of waiting entries: it reports nothing if the queue was empty when the cache was made, and raises TypeError otherwise
* `C122_evictions_violates`: (violation), evictions: one assignment to a full cache counts two evictions, as a key whose lookup failed has a place among the used ones
* `C122_failures_miss_violates`: (violation), cached failures: with failures cached for longer than values, a lookup answered from memory is counted as a miss
* `C122_failures_violates`: (violation), cached failures: with failures cached for a shorter time than values, a lookup that has to ask the getter again is counted as a hit
* `C122_writeback_violates`: (violation), write-back cache: at the 101st operation a lookup of a key known to be absent is counted as a hit, and still reads the storage
* `C124_base_exception_violates`: (violation), exceptions left out: with include_exceptions=False a function that raises KeyboardInterrupt or another BaseException that is not an Exception is measured all the same
* `C124_context_overlap_violates`: (violation), `with`: if the same `measure()` object is used twice at the same time, the first block is measured from the start of the second
* `C124_future_twice_violates`: (violation), futures: if two metrics measure the same future, both measure from the second call
* `C124_generator_value_violates`: (violation), a generator's value: the value returned by a measured generator is lost
* `C126_names_violates`: (violation), names: two metrics of different names are exported as the same sample
* `C126_newline_violates`: (violation), newlines: the value of a label with a newline makes the text unreadable, as newlines are not escaped
* `C128_dict_list_violates`: (violation), dictionaries and lists: a dictionary passes as equal to a list that has its keys among its elements, and its values at these positions
* `C128_dict_set_violates`: (violation), dictionaries and sets: comparing a dictionary with a set that has its keys raises TypeError, not Inequal
* `C128_kinds_violates`: (violation), kinds: a list passes as equal to a tuple, and to a dictionary with the same keys
* `C128_list_set_violates`: (violation), lists and sets: a list passes as equal to a set with the same elements if it has them in the order in which the set is gone through, and is Inequal otherwise
* `C128_raising_equality_violates`: (violation), values whose equality raises: such a value passes as equal to everything
* `C128_symmetry_violates`: (violation), order of arguments: a list of characters passes as equal to a string, but not the other way round
* `C128_type_error_violates`: (violation), TypeError: comparing a list with a number raises TypeError, not Inequal
* `C12_contains_raises_after_dead_lookup_violates`: The same for membership: `k in d` raises KeyError instead of returning False
* `C12_delete_absent_violates`: The code breaks C12: deleting an absent key raises ValueError, not KeyError
* `C12_len_raises_after_dead_lookup_violates`: The code breaks C12: after looking an entry up once it is dead (which rightly raises KeyError), the next `len(d)` raises KeyError too. For every heap implementation, key, value, timeout and times
* `C130_entries_violates`: (violation), entries: two entries become one when a member of an enumeration is a key besides its value
* `C130_enum_violates`: (violation), enums: a member of an enumeration whose value is an object is converted to the object, which is not JSON
* `C130_tuple_key_violates`: (violation), keys: a dictionary with a tuple as a key raises TypeError
* `C132_entries_violates`: (violation), entries: entries are lost when different keys become the same string
* `C132_enum_violates`: (violation), enums: without recursively an enum in a list is given to the stringifier, so it does not become its name
* `C132_none_violates`: (violation), None: without recursively, None in a list becomes a string although str_none is False
* `C132_tuple_key_violates`: (violation), keys: a recursively stringified dictionary with a tuple as a key raises TypeError
* `C134_excess_violates`: (violation), excess arguments: more positional arguments than fields are silently dropped
* `C134_setzip_violates`: (violation), SetZip counts twice: the length counts an element once for each set it is in, and iteration repeats it
* `C134_vector_length_violates`: (violation), lengths of vectors: the sum of vectors of different lengths silently loses entries, and so is not undone by subtraction
* `C136_index_violates`: (violation), indices: a tainted number cannot be the index of a list, even a tainted one
* `C136_ne_violates`: (violation), `!=`: the result of `!=` of tainted values is not tainted
* `C136_reflected_violates`: (violation), reflected operators: a plain number minus, or times, a tainted one raises TypeError, though it would not if it was not tainted
* `C138_environment_violates`: (violation), another environment: where the class of a value cannot be found, load_value raises what pickle raised (AttributeError, ModuleNotFoundError), although it promises ValueError for this
* `C138_json_violates`: (violation), JSON loses values: a value that load_value returned cannot be loaded from a Traceback read from JSON: TypeError is raised
* `C138_repr_violates`: (violation), repr: a single variable whose repr raises makes the whole Traceback raise
* `C13_in_place_update_lost_violates`: The code breaks C13 for `d[k].change()`: without background maintenance, after `d[k]` has been looked up once while at its default, the next lookup takes the object out of the dictionary and a change made to it is lost
* `C13_in_place_update_never_kept_violates`: and with background maintenance (the default setting) a change to a looked up default is never kept
* `C13_iteration_is_empty_violates`: The code breaks C13: iteration yields nothing, whatever the dictionary holds: after assigning a non-default value to `k`, a proper iteration would have to include `k`
* `C140_check_each_violates`: (violation), no checking interval: with check_each of 0 the call never ends, however short the sleep, while factors are within thresholds
* `C140_time_string_violates`: (violation), time strings: a thread whose interval is a time string, without max_sooner, cannot be made: TypeError
* `C140_zero_sooner_violates`: (violation), max_sooner of zero: a thread that must not be called earlier at all is called up to 10% earlier
* `C142_guest_violates`: (violation), guests: CPU time of virtual machines is counted twice: on a host with one CPU that runs a guest for a whole second the factor is 2
* `C142_request_violates`: (violation), a request during recalculation: a percentile requested after the others were computed, but before the result is marked as ready, raises IndexError when asked for, until the next recalculation
* `C142_threads_violates`: (violation), threads: of two threads that calculate the factor, the one that was interrupted between reading CPU times and the clock gets a negative one, although CPU time used and the clock only grow, and the CPU was half used all the time
* `C144_count_violates`: (violation), start and start_at: if both are given, count starts from the deprecated start_at, although start is to be preferred
* `C144_f_range_violates`: (violation), f_range with step 0: it never ends if start is above stop, and otherwise is empty, while range raises ValueError
* `C144_multirun_violates`: (violation), Multirun of an iterator: the first element is skipped
* `C144_unpack_dict_violates`: (violation), unpack_dict: a KeyError of map_through is taken for a missing key, and None given for a key that is there
* `C144_zip_shifted_violates`: (violation), zip_shifted: with a shift greater than the length None is returned instead of an iterator
* `C146_base_violates`: (violation), exceptions such as KeyboardInterrupt: a decorated function does not log them, even if exc_types has them, while the context manager does
* `C146_catch_violates`: (violation), catch_exception: it is not what its docs call equivalent: with return_instead the exception is returned, and return_instead is returned instead of a result
* `C146_doc_example_violates`: (violation), the example of the docs: fields exc_type, exc_val and exc_tb do not exist, so a KeyError is raised instead of the exception, and nothing is logged
* `C146_exc_types_violates`: (violation), exc_types: None, which is documented to mean all exceptions, and a list, which is an accepted type of it, raise TypeError instead of the exception, and nothing is logged
* `C146_index_violates`: (violation), fields with more than a name: args is there only if the format string has just `{args}`; with `{args[0]}` alone a KeyError is raised instead of the exception
* `C148_doc_example_violates`: (violation), the example of the docs: a CodedCustomException is not an instance of a class below it, whichever code it has
* `C148_mixin_violates`: (violation), a shared mixin: exceptions of different hierarchies are taken for one if they share a class that has nothing to do with codes
* `C148_repr_violates`: (violation), repr: with keyword arguments only, a comma stands after the bracket, so it cannot be evaluated
* `C148_several_bases_violates`: (violation), several bases: a class that is below two hierarchies is found to be in the one closer only: an exception with the code of the other is not an instance
* `C148_str_violates`: (violation), str: str of an exception with any keyword arguments raises TypeError
* `C14_deleted_key_returns_violates`: A deleted key comes back, default executor: assign 7, delete it, and let the deletion overtake the write. The cache answers KeyError until its periodic clean-up (at the 101st operation) forgets the key; then the lookup reads the storage and finds the deleted value again
* `C14_storage_stale_violates`: false with two or more workers: assign a key twice; two workers take the two writes and the second finishes first. `sync()` returns and the storage holds the older value, while the cache answers with the newer
* `C150_file_violates`: (violation), the file is lost: if the value cannot be encoded, write_json_to_file leaves the file empty
* `C150_keys_in_objects_violates`: (violation), keys within objects: an attribute that is a dictionary with a tuple for a key makes the object not encoded, while members of enumerations are there converted
* `C150_keys_violates`: (violation), keys: a dictionary with a member of an enumeration, a tuple or an object for a key is not encoded: TypeError is raised, although everything is to be encoded
* `C150_slots_violates`: (violation), slots: if one attribute of slots is not set, or the slots are given as one string, all attributes are lost
* `C150_within_violates`: (violation), within lists and dictionaries: one value that is not encoded makes all of the list, tuple or dictionary it is in not encoded, wherever in it that value is: TypeError is raised
* `C152_chain_violates`: (violation), chain: if iterating an element raises TypeError, after what it gave so far the element itself is given, and the error is lost
* `C152_hint_violates`: (violation), hint_with_length of a generator function: with length_factory, calling it raises ValueError
* `C152_send_violates`: (violation), send: it returns nothing, so what the generator yields then is lost
* `C152_type_error_violates`: (violation), TypeError while closing: a TypeError of the body is silenced
* `C154_deadlock_violates`: (violation), more than fits in the pipe: nothing is read before the process ends, so if it writes more than fits in the pipe, the call never ends, whatever the order of events; with a timeout it cannot end but with TimeoutError
* `C154_encoding_violates`: (violation), encoding: the parts that were read are decoded one by one, so a character that lies across the boundary of two parts is an error, although the process wrote correct text; for instance 2047 letters and an "é"
* `C156_copy_violates`: (violation), copies: unlike dict, DictObject of a DictObject is not a copy but the same object: what is then stored in it is seen in the original
* `C156_every_dict_violates`: (violation), every dict inside: a DictObject is returned as it is, so dicts inside of it stay plain dicts
* `C156_names_violates`: (violation), names of the class: an item with the name of a method of dict cannot be read as an attribute: after `a.items = 5` the attribute is still the method, although it was stored and can be deleted as an attribute
* `C158_inherited_violates`: (violation), inherited fields: only fields of the class itself are looked at: inherited ones need not be given, are dropped when given, and are not in to_json; so objects given different ones are equal
* `C158_names_violates`: (violation), names: an argument that is no field, such as a misspelt one, is dropped without an error and the default is used
* `C158_other_violates`: (violation), comparing with others: an object compared with anything that lacks the first of its fields, such as None, raises AttributeError instead of giving False
* `C158_symmetry_violates`: (violation), symmetry: objects of different classes may be equal one way only
* `C15_archive_empty_violates`: false for archive queries with all data in the database: they find nothing
* `C15_confirmed_again_violates`: false: confirm an item, store it, add two newer ones. The sync request reports the confirmed item again and neither of the new ones, for all items
* `C15_key_zero_violates`: false: a series that starts at key 0 is never reported
* `C15_maximum_ignored_violates`: false: with more data in the database than asked for, too much is reported
* `C15_nothing_in_memory_violates`: false: with all data in the database the request fails with IndexError, although nothing is confirmed
* `C15_returns_none_violates`: false: the same with an item confirmed earlier: the request returns None instead of an iterator
* `C160_no_all_violates`: (violation), modules without `__all__`: skip_not_having_all is for packages only, all that a module without `__all__` has is imported
* `C160_top_level_violates`: (violation), names of other packages: packages are walked without their prefix, so if a package inside has the name of an importable top-level one, as `json`, the modules of the latter are asked for in the former, which is ModuleNotFoundError
* `C160_underscore_violates`: (violation), modules with underscores: skip_single_underscores "pertains to modules as well as items", but the name of a module, unlike that of a package, is not looked at: what `_a` has is imported
* `C162_interrupt_violates`: (violated) interrupts outside `time.sleep`. An interrupt that arrives between the check and `time.sleep` leaves the call, although it "won't be interrupted by KeyboardInterrupt"
* `C162_race_violates`: (violated) always sleeping for the interval. The documentation says the sleep always is for the interval. The clock is read twice, so if it passes the end between the two readings, `time.sleep` is given a negative number and ValueError leaves the call: for every interval there is such a timing, with no interrupts at all
* `C164_exception_violates`: (violated) handlers restored when an exception leaves the call. An interrupt outside `time.sleep`, or ValueError from `sleep` (C162), leaves the handlers installed
* `C164_sigint_violates`: (violated) released by SIGINT. The call is documented to hang until SIGTERM or SIGINT. Nothing is done about SIGINT: it cuts short one sleep, and the call hangs however many times the signal comes
* `C164_twice_violates`: (violated) handlers restored. If SIGTERM is among the extra signals, or a signal is there twice, the handler of the module stays installed after the call. The next such signal sets the flag, and so the next call returns at once, with no signal at all
* `C166_iterators_violates`: (violated) measuring only looks. Measuring an iterator exhausts it: measured again it is smaller, and its elements are lost to the program
* `C166_slots_violates`: (violated) attributes in slots. Values of slots are components, but they are not counted, whatever their sizes
* `C166_subclass_violates`: (violated) elements of containers with attributes. Elements of a container that also has `__dict__`, as any instance of a subclass of list, are not counted; nor are attributes of an instance of a subclass of dict
* `C168_floats_violates`: (violated) for floats. A large sample that is gone leaves its rounding error: after 2^53, 1 and 2 the average of the last two is 1, not 3/2, and it stays wrong until cleared
* `C168_no_samples_violates`: (violated) for every size. An average of zero (or fewer) last samples is accepted by the constructor, but then every insertion raises IndexError
* `C16_bool_inverted_violates`: A matrix is true exactly when it is empty
* `C16_delete_last_violates`: false: deleting the only cell raises ValueError and leaves the box as it was, for every cell and value
* `C16_delete_missing_row_violates`: false: deleting a row that does not exist makes the next deletion count it
* `C16_max_violates`: `max()` fails with TypeError if the top left cell is not set, however many others are
* `C16_negative_read_violates`: false: reading far to the left of the matrix returns None, not IndexError
* `C16_negative_write_violates`: false: assigning there stores a value outside the box, which iteration does not show
* `C171_exhausts_violates`: (violated) checking exhausts the iterator. It is documented that with `check_multiple` the generator is exhausted; if two elements match, whatever is after the second stays in it
* `C173_once_violates`: (violated) once. Every further `next` of a generator that has completed runs the action again
* `C173_raised_violates`: (violated) only when it completes. A generator that raised, or was thrown an exception, did not complete; but the next `next` runs the action
* `C173_send_violates`: (violated) however it completes. If the generator completes in `send` or in the method `next`, the action is not run
* `C175_compare_violates`: (violated) comparisons. Nonexistent elements are documented to compare false always. `!=` gives True for everything but None, and `<` raises TypeError
* `C175_hash_violates`: (violated) being as the object. No Optional can be hashed, though the object wrapped can, and every other `Proxy` can
* `C175_setattr_violates`: (violated) doing nothing. Setting an attribute of an Optional of None, or iterating it, raises
* `C177_installed_violates`: (violated) installed once. Installing again is meant to raise RuntimeError, but the handler never learns that it is installed: it never does
* `C177_stderr_violates`: (violated) killed whatever stderr is. If writing to stderr raises something other than OSError, as it does when stderr is closed, the process survives the MemoryError
* `C179_fails_violates`: (violated) one target does not spoil others. If writing to a target fails, later ones get nothing and the handler raises
* `C179_logger_violates`: (violated) every target accepted can be written to. A logger for pickles is accepted, but every dump raises at it
* `C179_none_violates`: (violated) None for pickles. None is accepted for pickles, to have them thrown away, but every dump raises at it, and what comes after it gets nothing
* `C179_overwritten_violates`: (violated) every exception is kept. A second exception overwrites what was dumped to a file about the first. So it does if a directory was given: the name of the file in it is made once
* `C17_beyond_limit_violates`: by the limit with `start_at > 0`: an identifier not below `top_limit` is handed out, and `mark_as_allocated` refuses that identifier after it is freed
* `C17_negative_start_violates`: by a negative `start_at` with a limit: Empty is raised though identifiers below the limit are unused, and reserving one of them is KeyError
* `C17_zero_limit_violates`: by the limit 0: an allocator with an empty range hands out identifiers
* `C182_first_only_violates`: (all methods are documented), the violation `CopyDocsFrom` stops after the first method it documented: of two undocumented methods, both documented in the source, the second is left without documentation
* `C183_nearest_violates`: (the nearest ancestor), the violation The lookup is not breadth first by where a method is documented: attributes of a base are looked up with all it inherits, so the documentation comes from an ancestor of the first base although the second base itself, which is nearer, documents the method
* `C183_shared_violates`: (other classes keep their documentation), the violation A function of another class given a second name in the body of the class gets its documentation changed, in the other class too
* `C186_unknown_type_violates`: (a dictionary with an unknown type is handed over), the violation The code is to warn and to hand over the dictionary as it is; loading fails instead, at any depth, whatever the constructor would do with it
* `C189_directory_violates`: (only executable files), the violation A directory of the name is given, as directories show an `x`
* `C189_permission_violates`: (one bad file), the violation Any other file in a directory of PATH that can't be examined (as a link into a directory of somebody else) ends the search with an exception
* `C189_setuid_violates`: (all executable files), the violation A file that only its owner may execute and that has the set-user-id bit is executable, yet not given: its mode shows `s` in place of `x`
* `C191_group_name_violates`: (a group by name), the violation A group given by its name always fails with AttributeError, after the process was detached
* `C191_user_first_violates`: (user and group), the violation Root asking for an ordinary user and for a group gets a PermissionError: the user is changed first, and then the group can't be
* `C193_documented_violates`: (load_lazy=True loads in the constructor), the violation The documentation has it the other way: with `load_lazy=True` the database is not asked in the constructor, with False it is
* `C193_twice_violates`: (loaded once), the violation Two threads calling methods may both load the object
* `C195_callable_parameter_violates`: (parameters of execute_before), the violation The documentation lets one give parameters to the callable; a single one that is callable itself is taken for the function to decorate
* `C195_index_error_violates`: (chain_callables), the violation A TypeError raised with no arguments by the second callable comes out as an IndexError
* `C195_twice_violates`: (chain_callables), the violation A second callable that takes an argument, got it and raised a TypeError, of some call within it, that reads as of itself, is called again without one
* `C199_longer_violates`: (sequences of different lengths), the violation A longer sequence that is not the first loses elements silently
* `C19_added_twice_violates`: (documentation: "Same callable can't be added twice. It will silently fail.") is violated for plain functions: each `add` makes a new callback, so a function added twice is called twice
* `C19_all_cancelled_violates`: when all callbacks are cancelled: the group still holds them, and a call returns a None for each
* `C19_failure_forgets_violates`: by an exception that escapes: the callback that raised and all after it are forgotten, for any functions: the group forgets every callback from the failing one on
* `C19_has_cancelled_violates`: `has_cancelled_callbacks` is violated: it is true of a group of which no callback is cancelled
* `C201_list_violates`: (a list of exceptions), the violation The documentation allows a list of exceptions; with one, whatever the block raises, also what is in the list, comes out as a TypeError
* `C203_refused_violates`: (enabled tells whether an environment is in use), the violation An environment that could not be entered, as another session was in progress, is left enabled for good
* `C203_two_threads_violates`: (enabled tells whether an environment is in use), the violation An environment used by two threads is not enabled after the first of them leaves it
* `C206_infinite_violates`: (invalid values raise ConfigurationValidationError), the violation An infinite number raises OverflowError from Integer
* `C206_missing_violates`: (invalid values raise ConfigurationValidationError), the violation The path of a file that is not there raises OSError from FileContents
* `C206_second_time_violates`: (a checker always checks), the violation A value that is refused by a checker before the maker is taken when it is given a second time: the checker, and all after it, are lost
* `C206_string_violates`: (a file equals the string of its path), the violation It never does, although its hash is that of the string
* `C208_cancelled_violates`: (spans of futures are closed), the violation The span of a future that is cancelled is never closed
* `C208_exception_violates`: (exceptions of futures are attached), the violation The exception of a future that ends with one is not attached to its span
* `C208_type_error_violates`: (tags are computed from the arguments), the violation A callable for a tag that takes the arguments, but raises a TypeError on them, is called again with the tuple of the arguments, and what it then gives is the tag
* `C210_traceback_violates`: (the traceback is taken from the exception handled), the violation If the type is given but not the traceback, the call fails with AttributeError, also while an exception is being handled
* `C210_zero_violates`: (the maximum length), the violation A maximum length of 0 is taken for none
* `C214_lost_violates`: (every data point is exported), the violation Two points that differ in a label that is also an extra one are exported as one, and a value is lost
* `C214_never_returns_violates`: (terminate returns), the violation Called on a thread that was not started, or that could not bind its address, `terminate` does not return, whatever happens then, except that the thread is started and binds
* `C217_iterating_violates`: (iterating as is advised), the violation A thread that acquires a dictionary and then iterates over it, as the documentation advises, never gets further, under any schedule: iterating enters the monitor again
* `C217_making_violates`: (making a dictionary inside the monitor of another), the violation The thread inside the monitor waits for that of the maintaining thread, which holds it and waits for the dictionary: neither gets any further, whatever happens
* `C217_raising_violates`: (a dictionary that raises), the violation If the cleaning of one dictionary raises (as it can, see C12: an expired entry was looked up), the maintaining thread is over: no dictionary is ever cleaned again by it, not even those made later
* `C21_lost_wakeup_violates`: by a lost wake-up: the getter finds the queue empty; before it waits, an item is put and the condition notified. The getter then waits for ever, though an item is available, for every item and whatever runs afterwards
* `C21_peek_takes_wakeup_violates`: by a `peek` that is woken instead of a `get`: a peeker and a getter wait, one item is put; the notification wakes the peeker, and the getter waits for ever though the item is available
* `C220_join_violates`: (joining without a timeout), the violation `join()` of a mock that runs raises TypeError at once, with a timeout that is documented as optional; it does not wait
* `C220_race_violates`: (start at the same time), the violation Two threads that call `start` at the same time: one of them gets RuntimeError, though "no-op when called second or so time"
* `C220_returns_violates`: (what start returns), the violation A second call returns None, and not the thread, as documented
* `C224_lost_violates`: (a notification wakes somebody: a violation) Two threads wait, one of them with a timeout; one notification is made. The timeout being over just then, the one that is notified raises WouldWaitMore nevertheless; and the other one still waits: the notification is lost. (The waiter of a thread whose timeout is over stays in the list until the thread has the lock again.)
* `C224_plain_violates`: (a notification wakes somebody: a violation) With a lock that cannot be taken again (`Condition(Lock())`): a thread waits, another calls notify_all. It takes the lock, and notify_all of the standard library calls notify, which takes it again: from then on, whatever happens, nobody is notified, begins to wait or returns
* `C226_emptied_violates`: by text that cannot be encoded: the file is left empty
* `C226_newlines_violates`: by other ends of lines: a file that holds a carriage return is changed although the pattern matches nowhere; all its carriage returns are gone: ends of lines are replaced by those of one kind
* `C228_again_violates`: by a descriptor used again: a dictionary that does not conform, since a string is where a list belongs, is refused the first time, and accepted the second time
* `C22_cancel_violates`: "cancel() attempts to cancel every member": a running member keeps the members after it from being cancelled, although they could be
* `C22_result_violates`: A member that failed with TimeoutError makes `result()` raise WouldWaitMore, although every member is done
* `C22_set_result_violates`: "set_result reaches every member": the members after a cancelled one never get the result
* `C22_start_violates`: "set_running_or_notify_cancel reaches every member": only the first pending member runs
* `C230_itself_violates`: by a MonitorList that holds itself: it has two items, the second of which is itself; the deep copy's second item is a MonitorList with one item
* `C233_class_violates`: (violated) by methods called on the class. `Class.method(instance, ...)`, which calls the same method as `instance.method(...)`, lets the decorator see the instance, as with an adapted decorator that changes its first argument, for all functions and instances
* `C233_memory_violates`: (violated) by decorators that keep something. The decorator is applied at each call anew, so what it keeps is lost: a function that is remembered when decorated as usual is called each time when the same decorator is adapted
* `C239_cleaning_raises_violates`: cleaning fails: it raises TypeError if the first item is being added at the moment
* `C239_lost_violates`: an item is lost: it is added by another thread after the loop of `sync_to_db` and before it empties the memory. All calls return, and it is neither in memory nor in the database
* `C239_order_violates`: items out of order: of two threads that add at once, the one with the smaller key may be the later one, although `on_new_data` is to raise ValueError for it
* `C23_close_race_violates`: A connection is handed out after `close` returned, by a call of `acquire_connection` that had checked before
* `C23_max_number_violates`: by changing `max_number`, which "can be changed during runtime": the number of idle connections is not affected
* `C23_release_after_close_violates`: A connection released after `close` becomes idle and is never torn down: closing again does nothing
* `C241_infinity_violates`: by infinity: int() of an infinite float raises OverflowError; no length is taken, and OverflowError, not ValueError, is raised
* `C243_repr_violates`: by an object without a text: if the `__repr__` of an object raises, the objects before it are written, the exception is raised, and there is no breakdown
* `C244_two_threads_violates`: by two threads: two threads call parallel_execute at the same time, without kwargs; the first is interrupted while it takes its keyword arguments from the generator that they share, and the other, that has arguments and could have made its calls, raises ValueError, for every arguments of both
* `C246_violates_lost`: (lost assignment). A lookup that has found an entry expired deletes whatever value is there when it comes to it: if another thread has assigned the key anew in the meantime, that value is lost. A later lookup, made when that assignment has ended and the timeout is not over, raises KeyError
* `C246_violates_overwriting`: (overwriting). The values of a key that is assigned again are not all that a lookup may meet: while the second assignment is being made the key is out of the dict. A lookup that runs after the first assignment has ended, long before the timeout, raises KeyError
* `C248_violates_cycle`: (cycles). A list that contains itself cannot be tainted: however deep calls may be, RecursionError is raised
* `C248_violates_end`: (after the session). The documentation has it that taints are invalidated at the end of the session. They are not: a list of a program, tainted in a session, has tainted elements after it; and the program, which could calculate with them before, gets RuntimeError now
* `C24_backward_violates`: Iterating backward over any list that is not empty meets the last element twice
* `C24_prev_violates`: `prev` at the first element returns the last one (instead of raising StopIteration), and deleting it then has no effect
* `C24_second_round_violates`: A deleter used for a second round deletes nothing, although iterating over it starts afresh
* `C250_violates_lost`: calls of two threads may be lost (violation). After two calls of `handle`, of 5 and of 7, both of which returned, the counter may show 7, and one call
* `C250_violates_stuck`: labels may be stuck (violation). After two calls of `handle` with the same labels by two threads, both of which returned, it may be that the counter shows 0 for these labels, and shows 0 for them ever after, whatever calls are made
* `C252_violates_grows`: (violation: the window grows without end) Two threads are enough, whatever `last_calls` is: for any values, more of them than `last_calls` and as many as one likes, there is a history in which these are recorded, in which there are never more than two calls at once, and at the end of which, when no call is running, the quantiles shown are those of all the values: nothing is dropped any more. (Both threads find the queue one short of `last_calls` and both append; the length is then never equal to `last_calls` again.)
* `C252_violates_quantile`: (violation: a wrong quantile) So a quantile shown need not be that of the last `last_calls` values, though no call is running: with a value of -1 and `last_calls` values of 0 after it, the least is said to be -1
* `C252_violates_raise`: (violation: a call raises) With `last_calls=1`, of two calls made at once, when a value has been recorded, one may raise `IndexError`, its value being lost
* `C254_violates_lost`: (violation: a click is lost) Two threads click at the same time, 5, the last click before these having been at 0. Both find that one to be old, and both remove the oldest click, the second of which is one made just now. A report begun at the same time, when no other call is running, has one click in the last second, where there were two
* `C254_violates_raise`: (violation: a report raises) A report raises `RuntimeError` if a click is made while it is being prepared
* `C256_violates_forgotten`: (violation: by arguments) With `SingletonWithRegardsTo`, a thread may put its own dictionary in the place of one in which there is an object already: a call that is made after another has returned gets an object of its own
* `C256_violates_not_initialised`: (violation: not initialised) A thread may get an object that another one is still initialising: it is returned, and the initialisation ends later
* `C256_violates_two`: (violation: two objects) Of two threads that call a class decorated with `Singleton` at once, each may get an object of its own; both return. (No thread acts between the two steps `look` and `get` of another.)
* `C258_violates_raise`: (no exception) One of two threads that call `get_instance` at the same time can get RuntimeError
* `C258_violates_two`: (one thread) Two threads that call `get_instance` at the same time can set two threads running that build profiles; settings of the first are lost
* `C25_associative_violates`: Merging is not associative: with `{'k': [1]}`, `{'k': 2}`, `{'k': [3]}` the result is `{'k': [3]}` if the first two are merged first, `{'k': [1, 3]}` if the last two are
* `C25_second_argument_violates`: (for the second argument): parts of the second argument become parts of the result, and merging something else into the result then changes the second argument. Here `merge_dicts(merge_dicts({}, {1: [7]}), {1: [8]})` makes the second dictionary `{1: [7, 8]}`
* `C260_violates_missing`: (violation: a value that was given is in data asked for afterwards) A thread stored the metric it made for the labels, but did not yet list it: another gives a value with these labels, this ends, and data it asks for then do not have the value
* `C260_violates_two`: (violation: one entry for each labels) Two threads give a value each with the same labels, which are new: each finds that there is no metric for them and makes one. From then on all data have two entries with the same labels
* `C262_violates_added`: (violation: what is added is called) A callable is added between a call's copying of the callables and its clearing of them. It is never called, whoever calls the group, until it is added again
* `C262_violates_lost`: (violation: a callable stays registered) A callable was added, not as one-shot; then two threads call the group. The second copies the callables while the first is calling, and clears them after the first put the callable back. From then on no call calls it, whoever calls the group, until it is added again
* `C262_violates_missed`: (violation: a call calls all that is registered) While a thread is calling the group, the call of another ends without having called the callable that was added before both
* `C262_violates_one_shot`: (violation: a one-shot callable is called once) Two threads call the group, and both copy the callables before either clears them
* `C262_violates_raise`: (violation: a call does not raise) A callable is added while another thread looks through the callables, which raises RuntimeError
* `C264_violates_delete`: (violation: a deleted key is back) Thread 0 deletes a key; between removing it from the cache and submitting the deletion another thread makes `in_cache` anew, and thread 1 reads the key from the storage into the cache. Both calls ended and the storage has nothing at the key, but as long as nobody sets or deletes the key again each `get` gives the deleted value
* `C264_violates_set`: (violation: a set that a read overtakes is lost for readers) Thread 0 reads a key that is not in the cache; after the storage answered, thread 1 sets the key to 8, and this is written; then thread 0 stores the answer in the cache. Both calls ended and the storage has 8, but as long as nobody sets or deletes the key again each `get` gives the old 7, whatever happens
* `C264_violates_two_sets`: (violation: two sets at once leave cache and storage different) Two threads set a key at once, to 8 and to 9. Both calls ended and everything is written; the storage has 8, but as long as nobody sets or deletes the key again each `get` gives 9
* `C265_success_violates`: a call raises TypeError when success() comes between two of its looks at the time until which the service is unavailable, either before it compares or before it subtracts
* `C265_two_waiting_violates`: also without any success(), when two threads find out at once that the wait is over; as the class says, one thread alone called failed(), and the others wait_until_available
* `C266_forgotten_violates`: a thread finds the wait to be over; then a new failure is told, and the thread forgets it. The thread returns, and so does every later call at once, although the service is unavailable for as long as you like
* `C267_changes_violates`: and if it goes on only when the future is done, then the outcome of a future that is done changes: `result()` returns 2 first and 7 later
* `C267_early_violates`: "A future that allows its callback handlers to change its result before presenting it to the user": while the pre-done callbacks are called, another thread's `result()` returns at once with what was set; all later calls return what the callbacks made of it
* `C267_overwritten_violates`: "set_result raises InvalidStateError if the future is already set": while the pre-done callbacks are called, a second thread's `set_result` returns normally, and changes what the first one set, after the callback transformed it
* `C26_optional_violates`: (OptionalSource never fails): it fails if the source raises anything but ConfigurationError, or provides a list
* `C26_provide_again_violates`: (calling `provide()` again): MergingSource merges into the sources' own lists and dictionaries. `MergingSource(StaticSource({1: [7]}), StaticSource({1: [8]}))` provides `{1: [7, 8]}` the first time, changing the first StaticSource, and `{1: [7, 8, 8]}` the second time
* `C271_decreases_violates`: what a bucket shows may become less (violation). A bucket that shows the two calls that one thread made may show one once a call of another thread, which had begun before, ended
* `C271_lost_violates`: calls of two threads may be lost (violation). After two calls of `handle` by two threads, both with values from 0 to 10, both of which ended, the buckets may show one call
* `C272_code_violates`: codes which are not 200-esque (violation). A body sent with a code below 400, such as 300 (multiple choices), is taken as the configuration
* `C272_not_a_dictionary_violates`: a reply which is not a dictionary (violation). A list replied with code 200 is provided as it is, and an OptionalSource of the source raises AssertionError
* `C275_assignment_violates`: a key is deleted while the default is assigned to it; the assignment raises KeyError
* `C275_lookup_violates`: , with background_maintenance=False: a key never assigned is looked up, and looked up again while it is deleted; the deletion raises KeyError
* `C275_two_deletions_violates`: two threads delete a key at once; the other deletion of a key that is there is silent, as is that of one that is not, but this one raises KeyError
* `C277_fetched_violates`: looked up while being fetched. Two threads look up a key, the value getter has it, and nobody removes it: the second finds the value, not yet its time, and raises KeyError (line 219)
* `C277_spoilt_violates`: spoilt for ever. One thread invalidates a key while it is refreshed by another; both calls end. From then on every lookup, however many and though no other call is underway, raises KeyError without asking the value getter, which has the key
* `C278_expired_violates`: served after it expired. Values live for 60 seconds. A refresh stores its value, and is delayed; an assignment of 6 begins and ends meanwhile, at once; the refresh then writes the time, 100. A lookup that begins at 150 returns 6
* `C279_none_violates`: None. The value getter had not the key, and this is remembered. A thread looks it up; before it looks a second time whether the key is missed (line 206), another has assigned it 5. The lookup returns None, which is neither KeyError nor a value of the key
* `C27_recursion_violates`: Many entries with the same key make merge_list fail: whatever the recursion limit, a list with that many entries under one key (plus two) raises RecursionError, because every merged entry is one more nested call of `__next__`
* `C283_passed_over_violates`: an iterator of `get_archive` passes over items that are still in memory, if `cleanup` ejects items from memory while it is underway: it gives the items of 0 and 1, those are ejected, and it stops, although the item of 11 was asked for, was in memory when the iterator was first asked, and still is
* `C284_first_violates`: the first call of a `CallNoOftenThan` does not call the function, if the clock shows less than the interval
* `C284_two_violates`: two threads that call a `CallNoOftenThan` at once both call the function, and one that read the clock long ago puts `last_called` back, so that a third call, made 1 second after the function returned, calls it again although the interval is 10
* `C28_equal_violates`: a single series with two entries at one time, which is yielded twice
* `C28_raises_violates`: whenever each of several series in strict time order has at least two entries, and one of them changes a second time before the last of them starts, nothing at all is yielded, and ValueError (which is documented for empty series) is raised. Together with `C28_merge_partial` this tells exactly which series with at least two entries each are merged
* `C28_twice_violates`: two series in strict time order, and one time is yielded twice
* `C29_length_violates`: a window which does not fit into the stream is accepted, and a read inside the claimed length returns fewer bytes than asked for
* `C29_offset_violates`: a parser made with an offset and no length takes the length of the whole stream, so its window goes past the end: reading more bytes than there are returns fewer bytes instead of raising
* `C29_zero_violates`: a sub-parser of 0 bytes can read bytes which its parent reads as well
* `C30_garbage_violates`: for text that is no time: what follows the letter of the unit is ignored, so that '5m2h' is five minutes
* `C30_words_violates`: for words: documented as parsing "seconds, minutes, hours, days, weeks", it raises ValueError for '5 minutes', '5 hours', '5 days' and '5 weeks', whatever `float` does, because they end in the letter of seconds
* `C31_available_violates`: the documentation says that after failing and waiting, `available` is true again; it stays false until success() is called, although ready_for_next_check is true
* `C31_limit_violates`: with start above limit, the first waiting time is above the limit
* `C32_half_cartesian_violates`: half_cartesian, the violation. Given an iterator (which the annotation allows) it pairs the first element with the others, and nothing else: the pairs of an element with itself are missing, and those of later elements
* `C32_is_last_violates`: is_last, the violation. Of an empty sequence it raises RuntimeError
* `C33_shift_violates`: shift, the violation. For longer shifts it raises StopIteration, or leaves the sequence as it is
* `C33_skip_first_violates`: skip_first, the violation. If there are less (which the documentation allows), it raises RuntimeError
* `C33_stop_after_violates`: stop_after, the violation. If there are less (which the documentation allows), it raises RuntimeError after having given them
* `C33_take_n_violates`: take_n, the violation. If there are less, it raises StopIteration
* `C35_root_violates`: the violation. If child_getter returns None of the root (which the documentation allows of a node that has no children), walk raises TypeError
* `C36_consumed_violates`: IteratorListAdapter, the violation. What was consumed before is missing afterwards
* `C36_iterate_violates`: ListWrapperIterator, iterating twice. The second `for` gives nothing; and one after looking for an element misses those before it
* `C36_negative_violates`: ListWrapperIterator, negative indices. They count from the end of what is loaded so far
* `C36_slice_violates`: ListWrapperIterator, slices without end. `x[1:]` raises TypeError
* `C37_on_success_violates`: when call_on_success raises a listed exception: the function, although it has returned a value, is called again
* `C37_zero_violates`: for `times=0`: UnboundLocalError is raised
* `C38_concurrent_violates`: memoize, violated with threads: both compute, at once, although the documentation has the others wait; and they return different values
* `C38_kwargs_violates`: keyword arguments. They are not looked at: a call that differs in them gets the value of the other
* `C38_overwritten_violates`: with threads: a computation that began earlier and ends later makes the entry older, so that a value not older than cache_duration is computed again
* `C39_summary_unlabelled_violates`: once there have been labels, a sample without labels is in no quantile, not even the total, though it is counted
* `C39_summary_zero_violates`: for `last_calls=0`: no sample is accepted
* `C40_boundary_violates`: at the start of the period: a click just one period ago is counted, unless there was another click at the time of the report
* `C40_unlabelled_violates`: once there have been labels, a click without labels is lost
* `C41_status_violates`: in reports: the status of all links is reported under one name, so all but one are lost
* `C41_zero_violates`: for thresholds of 0: the link never goes offline
* `C42_prefix_violates`: after prefix_with: whatever the hash function, if only it tells the two names apart, the entry added does not override the one of the same name and labels: there are two
* `C43_get_any_violates`: by concurrent use: if another thread puts under a new name while `get_any` goes through the queues, `get_any` raises RuntimeError although items wait
* `C45_not_found_violates`: the lock is released at the wrong moment. A process that finds the file there, and gone when it reads it, raises FileNotFoundError instead of getting the free lock; acquires do not overlap
* `C45_own_pid_violates`: the pid is used again. If a process died holding the lock and the process that now has its pid is the one that wants the lock (as pid 1 in a container always is), it is told that the lock is held, by itself; however often it tries
* `C45_two_holders_violates`: by two acquiring at once: between the creation of the file and the writing of the pid the file is empty; another process takes that for garbage and removes it. Both hold the lock
* `C46_callable_violates`: a callable that is not a plain function (a method, a partial, a class) is documented to be called for the connection, but is taken for the connection: nothing happens but an exception
* `C46_cursor_violates`: the cursor stays open, and the connection too although it was to be closed, when commit or rollback raises
* `C47_time_heap_copy_violates`: by `TimeBasedHeap`: its copy is empty whatever the original holds
* `C48_first_call_violates`: within the first `interval` of the clock: the very first call is suppressed although none was made
* `C48_raised_violates`: by a function that raises: the next call calls it at once
* `C49_crossed_comparison_violates`: by two threads comparing two numbers in opposite directions: if each takes its first lock before the other takes its second, both wait forever
* `C49_self_comparison_violates`: by comparing a number with itself: the thread waits for a lock it holds itself, forever
* `C50_lost_wakeup_violates`: by a lost wake-up: if the update to the awaited value comes between the comparison and the wait, the thread waits for ever although the number has the value
* `C50_quiet_update_violates`: by the operators that do not notify (`&=` and others): the waiting thread is not woken
* `C50_timeout_violates`: with a timeout: the number became equal to the value awaited, and the thread saw it, but it changed before the last check, and WouldWaitMore is raised though the timeout has never expired
* `C51_cancel_violates`: A pre-done callback that cancels the future makes every done callback be called twice, the first time on a cancelled future that later has a result
* `C51_exception_violates`: `exception()` of a finished Satella future raises TypeError: the timeout has no default
* `C51_recover_violates`: A pre-done callback that replaces an exception by a result has no effect: `result()` still raises the exception
* `C52_cancelled_violates`: A function given to `on_success` is called, with None, when the future is cancelled
* `C53_cancel_violates`: `cancel()` of the wrapper between the completion of the source and its callbacks returns False (the source cannot be cancelled), yet the wrapper is cancelled: `result()` raises CancelledError and the source's result is lost
* `C53_constructor_violates`: The source completes after the wrapper's constructor registered its callback, and the constructor ends before that callback runs: the wrapper presents None instead of the result, and its done callbacks are never called
* `C53_source_cancelled_violates`: Cancelling the source directly: the thread waiting for the wrapper's result waits for ever (no event wakes it), and the wrapper's done callback is never called
* `C54_context_manager_violates`: `with pool:` takes the pool's own lock (and does not close the pool): a call of `acquire_connection` inside never returns
* `C54_invalidate_violates`: `invalidate` sees one idle connection, `acquire_connection` takes it, and `invalidate` waits for another one while holding the monitor, which `acquire_connection` then needs: both threads wait for ever (unless some third thread releases a connection)
* `C54_zero_violates`: With `max_number` 0 the first `acquire_connection` never returns: it looks for an idle connection for ever
* `C56_resume_violates`: a measure which ran for `d` seconds, was stopped and is started again shows 0, although start is documented to resume
* `C57_missed_violates`: a success() between the moment at which the waiting thread has found out how long to wait and the moment at which it waits is missed, and the thread waits although the service is available
* `C57_timeout_violates`: wait_until_available(timeout) is documented to wait for no longer than `timeout`; it waits until the next check is due, however long that is, and then raises although the service is available
* `C58_mixed_violates`: AlreadySeen, the violation. A key with no hash after one that has one raises TypeError; a new key that has one after one that has none raises AttributeError
* `C59_reserved_violates`: by a label called `_name`: it takes the place of the name
* `C60_clone_violates`: the entries of an internal counter for its labels are not internal, so exporters show them
* `C60_histogram_violates`: `.sum` and `.count` of an internal histogram are not internal
* `C61_local_relative_violates`: by LocalRelativeValue: it fires exactly when the percentage of memory left to the program is *above* the value given
* `C61_no_maximum_violates`: without a maximum: the default of the manager; a local condition then raises, even inside an Any whose other condition holds
* `C61_zero_maximum_violates`: with a maximum of 0: the relative condition raises, whatever the memory in use
* `C62_recursion_translated_violates`: by recursion, translated exceptions: the same if the inner call's exception is turned into another, and the function catches that and returns a value
* `C62_recursion_violates`: by recursion: if the function calls itself, the inner call's exception is silenced, and the function then returns a value of its own, that value is lost: `returns` is returned in its stead
* `C64_two_setters_violates`: by two setters: neither of two overlapping calls raises ValueError, and two calls to `value` give different values
* `C65_access_violates`: by the order of the statements in `__exit__`: a thread in the body of its `with` is told that no lock is held, since another thread, leaving, clears `locked` after giving the lock back
* `C65_stale_arguments_violates`: by what an earlier `with` left behind: `with ds`, which was given no timeout, raises WouldWaitMore, since an earlier `with ds(blocking=False)`, finished long ago, had asked for it
* `C66_hangs_violates`: by a late worker: a worker that has decremented the number but not begun to wait misses the notification; from then on no schedule lets `sync_threadpool` return, nor the worker take another task
* `C66_timeout_violates`: by the timeout: when `sync_threadpool` gives up with WouldWaitMore, the workers that were in `decrease_atm` are never notified: here one of two workers never takes a task again, whatever is submitted afterwards
* `C67_base_violates`: by `terminate_on` with an exception that is not an Exception, say KeyboardInterrupt: documented to be swallowed, it ends the thread with a traceback
* `C68_locked_violates`: by a condition that is locked: documented to raise WouldWaitMore or SystemExit only, `safe_wait_condition` raises ResourceLocked when another thread holds the condition's lock for one `wake_up_each`, although the timeout is far from over
* `C68_zero_violates`: by `wake_up_each` 0 (a time string "0s" will do): `safe_sleep` then never returns, it sleeps 0 seconds for ever, unless termination is requested
* `C69_same_deadline_violates`: by equal deadlines: starting a timer with the deadline of one that waits raises TypeError, though the timer is in the heap all the same; and if there are three of them, the background thread gets the TypeError when it takes the first one, outside of the clause that catches exceptions, and dies: no timer is executed any more
* `C70_two_threads_violates`: by two threads: both calls of `close` give True, so the object is cleaned up twice
* `C71_push_violates`: by pushing up: a variable that a context inherits cannot be pushed up (KeyError), though `push_up` is documented to take its current value; pushing up a deleted variable deletes it in the parent; and pushing up in a context without a parent raises AttributeError and loses the variable
* `C71_with_violates`: by `with Context()` where there is a current context, the use that is documented: after the `with`, the thread has lost its context; `Context.get()` gives an empty one, and the variable set before is gone
* `C72_absolute_violates`: by absolute paths: `split` does not end. (A path with a colon may be taken for a drive; it is left out.)
* `C72_double_violates`: by two slashes in a row: joining the parts of `a//b` gives `a/b`
* `C74_truncated_violates`: by data that do not fit: the write raises, but the old content is gone. For every content, every text that the encoding cannot represent, bytes with an encoding, text without one, and an unknown encoding
* `C74_undecodable_violates`: by contents that cannot be decoded: `write_out_file_if_different` raises and does not write, although the file is different
* `C75_directory_violates`: by scan_subdirectories=False: directories are given as if they were files
* `C75_entire_violates`: by apply_wildcard_to_entire_path below the first level: there the wildcard is for the names only. For every wildcard, name and path for which that makes a difference
* `C76_nested_violates`: by an object that is used inside its own block: afterwards the working directory is the object's, not the one from before
* `C77_modes_violates`: by the documented modes a+ and ab+: they are a ValueError
* `C77_read_violates`: by reading: whatever the file holds and wherever the position was put before, `read` gives nothing or is refused (io.UnsupportedOperation), and `readall` is an AttributeError
* `C77_truncate_violates`: by truncate() without a size: whatever the position was put to before, nothing is cut off
* `C78_base_violates`: by BaseExceptions (SystemExit in the function, for example): the thread is dead, and whatever happens later the future is running, so that waiting for it never ends
* `C79_base_violates`: by BaseExceptions: the generator raises it, and never gives the values of the calls that come later
* `C81_too_many_violates`: too many arguments are not refused. `get_arguments(f, x, y)` for a function of one parameter gives `{a: x}`, although the call `f(x, y)` is a TypeError
* `C81_twice_violates`: an argument given twice is not refused. `get_arguments(f, x, a=y)` gives `{a: x}`
* `C81_unknown_violates`: unknown keywords are not refused. `get_arguments(f, x, b=y)` gives `{a: x}`
* `C81_varargs_violates`: outside of the guard: if a parameter before `*args` that has no default is given by keyword, then `get_arguments` always raises TypeError, although the function can be called
* `C82_gap_violates`: outside of the guard: `call_with_arguments(f, {'b': x})` for `f(a=d, b=e)` calls it with `a = x` and `b = e`
* `C83_by_name_violates`: for an argument given by name: for a function `f(a)` without default values, `for_argument(op)` makes `f(a=x)` raise
* `C83_callable_default_violates`: by a callable default: for `f(a, b=c)` with `c` callable, `for_argument(op)` calls `c` on the second argument, although there is no operation for it
* `C83_keyword_violates`: for keyword arguments: `transform_arguments(a='a + 1')` of a function of one parameter `a`, called as `f(a=y)`, calls it with the name of the parameter plus one, whatever `y` is
* `C83_kwonly_violates`: for keyword-only arguments: `transform_result` of `f(*, a)`, called as `f(a=y)`, executes the function and then raises TypeError
* `C83_positional_violates`: for an argument given by position: for a function `f(a)` without default values, `for_argument(a=op)` does not apply the operation to the argument of `f(x)`
* `C83_predicate_violates`: the predicate plays no role. With a predicate that is never true the argument is replaced all the same
* `C84_by_name_violates`: for a keyword argument: if an argument that has a condition by its place is given by keyword, then the function is not executed although the condition holds; and AssertionError is raised, not PreconditionError
* `C84_by_place_violates`: for a positional argument: a condition for a name is not checked if the argument is given by position
* `C84_falsy_violates`: by a condition that gives another false value: the function is executed, although the condition gives None
* `C84_postcondition_violates`: by a postcondition that gives another false value: the value is returned
* `C85_empty_violates`: if the method itself raises the exception that means an empty queue (because it looks into another queue, say): the exception is swallowed, the call gives None, and the method for an empty queue is executed although there was an item, which is lost
* `C86_not_loaded_violates`: by a value that means not loaded: a function that gives it (None, if nothing else is said) is executed again at every reading
* `C86_two_threads_violates`: by two threads: the function is executed twice, and the readers get different values
* `C87_pair_violates`: by a pair: if the first function returns two values, then the next is not called with them, but a TypeError is raised
* `C88_caster_violates`: by other exceptions: a Caster whose function raises TypeError does not raise ConfigurationValidationError, and in a Union the alternatives after it are not tried
* `C88_second_time_violates`: after a refusal: a List, once it was given something that is not a list, takes strings: `List()` refuses a string the first time, and gives the list of its characters the second time
* `C88_single_call_violates`: in a single call: `List(Union(List(), String()))` leaves the first string of a list as it is, and makes a list of characters of the second
* `C88_union_violates`: for the documented Union: `Union(List(), Dict([]))` gives a dictionary for a dictionary the first time, and the list of its keys the second time
* `C89_attribute_error_violates`: by the exception: when REGEXP is a string, as it is for IPv4 and as documented, a value of which no beginning matches raises AttributeError, not ConfigurationValidationError
* `C89_ipv4_garbage_violates`: by what follows: an address followed by anything that does not begin with a digit is accepted, and cut off: `1.2.3.4.5`, `1.2.3.4garbage`
* `C89_ipv4_numbers_violates`: by the numbers: `999.999.999.999` is not an address, but is accepted
* `C90_empty_violates`: the empty string: the schema `{"a": ""}`, which stands for anything, gives a descriptor that refuses every dictionary that does not have the key None
* `C90_list_of_unknown_violates`: a list of an unknown type: it is taken for a list of anything
* `C90_nested_type_violates`: a nested key named type: `{"a": {"type": "str", "size": "int"}}`, where the configuration of `a` has keys `type` and `size`, is read as a single string: a dictionary with these keys does not conform as such
* `C90_type_violates`: 'dict' and unknown names after `type`: TypeError, KeyError, where the documentation lists `dict` as a type, and ConfigurationSchemaError is meant; also inside a list
* `C90_unknown_violates`: an unknown name: a misspelt type of a key raises AttributeError where ConfigurationSchemaError is meant, and so does `"list"`, although it is one of the documented strings and List takes no required arguments
* `C92_inside_violates`: `x.inside(value)`, documented as checking if x is inside value, checks whether the value is inside x: 3 is inside the list [3, 4], but the predicate raises, as 3 is no container; and [3] is not inside 3, but the predicate says so
* `C93_dict_violates`: by dictionaries: whatever items a dictionary has after the first one, they are not built
* `C93_other_violates`: by the empty dictionary and by strings: UnboundLocalError, RecursionError, and for the empty string something else
* `C94_arity_violates`: by different numbers of parameters: TypeError is raised although a function matches
* `C94_first_registered_violates`: which of several is executed: of the functions that match it is always the one that was registered first, however specific the others are
* `C94_most_specific_violates`: by what is most specific: with `f(x: object)` registered before `f(x: int)`, a call with an int executes the former
* `C94_no_annotation_violates`: by missing annotations: a function with a parameter without annotation is never executed
* `C99_done_violates`: `done()` always raises AttributeError, as `reverse` is a property that cannot be set, and the reference cycle stays. So every `with` block ends with AttributeError, which also hides the exception of the block
<!-- end findings -->
