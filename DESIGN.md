# Formal model of nionutils in Lean 4

## Trusted base

* The Lean 4.33.0 kernel. No own axioms, no `sorry`, no `native_decide`, no `bv_decide`. Theorems may depend only on
  `propext`, `Classical.choice` and `Quot.sound` (Lean / Mathlib standard axioms); see "Axioms" below.
* The transcription of the Python code into Lean definitions. Each definition carries a comment with file and lines in
  `/repo`. Nothing is extracted automatically; the correspondence was made by reading the source.
* The Python semantics used in the transcription: list `insert`/`del`/`pop` index rules, dict insertion order, `set`
  operations, stable `sorted`, truthiness, exceptions propagating to the nearest handler, `Event.fire` swallowing
  exceptions, CPython reference counting (an object dies when its last reference goes), atomicity of code under a lock.

## Conventions

* `Verif/<Area>/Model.lean` holds the transcription, `Verif/<Area>/Lemmas*.lean` helper lemmas and
  `Verif/<Area>/Props.lean` the property theorems, whose names begin with the property id (`C01_…`).
* Exceptions are values (`Except`), notifications are logged in a list and are part of the result.
* A property the code violates has a `…_counterexample` theorem (the negation, with a concrete witness) and a
  `…_partial` theorem giving the strongest part proved.
* Floating point numbers are idealised as elements of ℚ / ℝ unless stated otherwise (C74 also treats IEEE doubles).

## Plan per property (written before the proofs)

| Id | Model | Proof |
|----|-------|-------|
| C01-C08 | `IndexedSelection` as index `Finset ℤ`, anchor `Option ℤ`, style; each method returns new state, number of fires, or exception. Iteration order of `set` is a parameter | case analysis; invariants by induction over lists of calls; refinement to plain finite sets. C04, C07 false: witness plus partial |
| C09-C13 | `Event` as an interpreter over a heap of listener tokens with references and owners; listener functions are arbitrary scripts that may re-enter the event; trace of calls | induction on fuel and script; invariants over the trace. C11, C12 false in part |
| C14 | `ListModel` operations with log | replay by induction over calls |
| C15-C18 | `MappedListModel`, `FlattenedListModel` with selections | invariant by induction over source histories |
| C19-C26 | `FilteredListModel` with source list, master, items, sorted flag, change level, log | binary search loop invariant; refinement invariant for items; replay of log |
| C27 | filter syntax tree and evaluation | structural induction |
| C28-C30 | `ComponentManager` dictionaries | invariant over histories |
| C31, C32 | state machines of `ReferenceCounted`, `Promise` | invariant over histories |
| C33, C34 | `TaskQueue`, `TaskSet` with scripted tasks | induction over batch |
| C35-C38 | interleaving transition systems for `ThreadPool` and `ThreadDispatcher` | inductive invariants over reachable states |
| C39-C44 | streams as trees of nodes with cached values; timers as nondeterministic events | induction over the tree and over event lists |
| C45-C49 | `PropertyModel`, bindings, validator | equational, induction over histories |
| C50-C54 | schema / model trees | mutual structural induction |
| C55-C61 | persistent object trees, storage, recorder | structural induction, invariants over histories |
| C62-C71 | geometry over ℤ, ℚ, ℝ | order and field reasoning |
| C72-C78 | converters over strings, ℤ, ℚ | structural induction on strings, arithmetic |
| C79-C83 | same pool and dispatcher machines | invariants, progress measures |
| C84-C88 | models, bindings, re-entrant assignments | histories; fuel for nested calls |
| C89-C98 | tickers, distances, insets, mixed integers and floats | order and field reasoning, real logarithms |
| C99, C100 | converters | scanner lemmas; rounding to 53 digits |
| C101 | an event used by several threads: the lock, the copied list, weak references | inductive invariants over reachable states |
| C102, C103 | array models as sequences, record models as attributes and dicts | refinement to plain lists and to the last assignments |
| C104-C106 | deep copies, storage lookup, accessors of persistent objects | mutual structural induction; chains of parents |
| C107, C108, C110 | task queues, promises, reference counts shared by threads | inductive invariants over reachable states |
| C111 | integer sizes computed with floats | error bound of rounding |
| C112 | filtered models stacked on filtered models, a mapped model at the end | events of one model as a relation between lists, preserved upwards; induction over the chain |
| C113 | recorder of trees of any depth | what is seen at every place is the value then or the final one; induction over histories with the final tree fixed |
| C114 | task sets shared by threads | accounting of every task as a multiset equation, invariant over schedules |
| C115 | filtered list models used by threads | invariant over schedules: right, or held back, or an update pending |
| C116 | loops over components while the registry is changed | loop with the size check of set iterators; induction over the components |
| C117 | closing an event loop | invariant of the count of gather over turns; termination by the order of programs |
| C118 | combined streams, inputs assigned by threads | invariants over all interleavings of atomic steps; counterexamples for late results |
| C119 | observers that change the list they observe | induction over nested notifications; invariant for the observers up to the first that changes |
| C120 | reading a dict into an object with content | structural induction over the tree written; exact characterisation |
| C121 | properties, items and relationships as attributes | invariant over histories of calls, against the value assigned last |
| C122 | property values that are mutable objects | heap with references; invariant: the lists of the property and of the program are apart |
| C123 | change blocks of containers that are replaced | exact sum of open blocks over all histories |
| C124 | tuple bindings with negative indexes | exact effect for every index and length |
| C125 | number of ticks of the log ticker | bounds for decades and all ticks; no decade left out if there is room |
| C126 | filters that raise | observers exact, nothing changed by a raising event, recovery by a new filter; four counterexamples |
| C127 | flattened list, threads change children | invariant of the one active thread; count of children listed and on their way; three counterexamples |
| C128 | custom readers and writers | one-step iff over the fold of the entries, induction over assignments; three counterexamples |
| C129 | registry, listeners that call it | stack of events being fired; multiset invariant of what is told, order invariant for one listener; two counterexamples |
| C130 | dispatcher, minimum interval | machine of C37 with a clock; invariant: times of past runs against the last time; refinement to C37 for promptness; two counterexamples |
| C131 | default float text, read back | six digits from the logarithm and rounding; text refines to the number scanned in C77; stability from an interval around the displayed number |
| C132 | begin_reading, callbacks, finish_reading | trace of a recursive reader; mutual induction over dict trees; two counterexamples |
| C133 | float rectangles in double precision | every operation rounded by `fl`; `fl` is nearest, monotone, exact on doubles; differences not larger than the operands are exact; dyadic grid: nothing is rounded; counterexamples with decimals |
| C134 | pretty numbers and ranges in double precision | `log10` any function giving a nearest double (exists); exponent right or one too large; relative errors composed; the failing numbers characterised exactly; counterexample 0.2 to 0.3 |
| C135 | labels of a linear ticker in double precision | ticks next to multiples of a pretty number; rounded log10 of a power of ten is exact (spacing of doubles); digits of the formats recovered by rounding |
| C136 | stored modification times are read back | texts as numbers joined by single characters (inductive relation); pieces of a concatenation at a non-digit; digits of fixed width |
| C137 | sort keys that raise | as C126: refinement of the plain model when nothing raises; effect of an event that raises; binary search that stops at a failing item |
| C138 | log tickers for the whole range of floats | results with exceptions and infinity; powers of ten compared with the limits of floats; decades as an arithmetic sequence |
| C139 | a point plus or minus a rectangle | closed formula for the corner; linear integer arithmetic; iff |
| C140 | mapping in double precision | rounding is monotone and nearest; relative errors multiplied out |
| C141 | fitting in double precision | nearest rounding keeps the side; exact differences of close doubles |
| C142 | logarithmic ticks in double precision | relative error bounds through each operation; digits of log 10 from its series for the counterexample |
| C143 | PropertyModel and PropertyBinding with threads | invariants over all interleavings, counterexample |
| C144 | TuplePropertyBinding with threads | induction over interleavings, counterexample |
| C145 | extend to an index that is the anchor | case analysis, exact condition |
| C146 | the set object behind indexes | heap model refining the selection model |
| C147 | rotation in double precision | error bounds by the triangle inequality from the relative error of rounding, distances from C70 |
| C148 | distance and midpoint for all floats | rounding with exponent limits as nearest element, monotone and odd; exact thresholds of overflow and underflow |
| C149 | log ticks between the limits | least decade above the low limit, gaps of log multiples |
| C150 | paths as strings | split and join are inverse on names; reading character by character as specification |
| C151 | options of converters | case analysis on the model of both converters |
| C152 | strict and fuzzy parsing | inverse image of the point substitution on number texts |
| C153 | stream functions that raise | mutual induction over the tree; induction over histories |
| C154 | comparisons that raise | case analysis of the setter; induction over histories |
| C155 | fixed formats | a float as near or nearer to the decimal rounds to it, ties included |
| C156 | array notifications of a record | invariant over histories: the listeners of an array are as many as the items of the observer's list |
| C157 | mapping functions that raise | positions of distinct values determine insertions and removals |
| C158 | mapped list with threads | replaying the pending notifications gives the source; permutation invariant |
| C159 | floats over the whole range | the digits of a number as near as another; comparison of 10^-324 with 2^-1074 leaves one power of ten |
| C160 | value stream with threads | invariants of all schedules: last received, what is due of the last assignment, one sender |
| C161 | concat streams with returning and false items | invariant with reference counts, histories |
| C162 | registry with threads | frame and locality of atomic steps; a thread runs as if alone; refinement to the sequential model |
| C163 | closing structured models | induction over the path to the root; invariant of the listeners of a record |
| C164 | listeners that call the selection | fuel for nested calls; invariant of every task |
| C165 | assigning the selection style | invariant over histories, exact condition |
| C166 | bindings closed while the source is telling | fuel for nested calls; invariant of every task |
| C167 | replacing the container from a listener | counting invariant, exact condition |
| C168 | integer rectangles made from float rectangles | exact arithmetic over an ordered field with floor, truncation toward zero |
| C169 | debounce and sample streams with a clock | schedules with waiting; invariants over stamped logs |
| C170 | containers of filtered lists replaced by listeners | invariant over histories; exact outcome |
| C171 | closing recorders, with handlers that raise, trees of any depth | invariant over histories |
| C172 | recordings applied after later changes | congruence of the replayed functions in what they read |
| C173 | combined streams with functions that raise | invariant; exact outcome of one assignment; recovery |
| C174 | container of a flattened list replaced by listeners | invariant over histories, exact items in each other case |
| C175 | scaled integers between any limits | rounding errors of double arithmetic |
| C176 | underflow and overflow in pretty ranges | rounding with limits on the exponent, agreement with the model without |
| C177 | keys with a comparison that is no order | the model with any comparison and sort, agreement with the ordered model on keys that can be compared |
| C178 | property streams with listeners that act | invariant over nested firings, effect of an action closed under composition, induction on the depth |
| C179 | callbacks that change persistent objects | effect of an action closed under composition, induction on the depth |
| C180 | subscribers that subscribe while told | per-uuid refinement, effect closed under composition, induction on the depth |
| C181 | observers of a mapped list that change its source | effect of a call closed under composition; commutation of index shifts |
| C182 | observers of a filtered list that change it or its source | effect of an act closed under composition; ghost marks for updates in progress |
| C183 | observers of a flattened list that change its source or children | effect of an act closed under composition; ghost list of master items in progress |
| C184 | networks of streams whose listeners assign | effect of a fire closed under composition; ghost list of places still to be told |
| C185 | change blocks whose observers act | effect of a fire closed under composition; ghost marks for updates going on |
| C186 | listeners that change structured models | effect of a fire closed under composition, entries against items; who hears of what as an inductive relation |
| C187 | concat streams whose listeners assign | effect of a step closed under composition; ghost counts of the notifications that have not reached the concat stream |
| C188 | one registry for all threads | interleavings, invariant that one manager is used |
| C189 | several targets that act | effect of a fire closed under composition |
| C190 | streams given up by their listeners | invariant (counts = others + open places + about to be given up), frame condition for streams that are closing, induction on nesting |
| C191 | recorder and listeners that act | invariant (replayed log = items), induction on nesting |
| C192 | kept lists and re-entrant observers | invariant (list kept = items) over nested executions; four models |
| C193 | texts of geometric values | injectivity, digits end where they end |
| C194 | closing a binding while threads use it | interleavings; progress of close as a number, invariant per program counter |
| C195 | containers of mapped lists replaced while threads change them | interleavings; invariant per phase of the assignment |
| C196 | order of filtered lists with threads | interleavings; invariant over the mutex, the flag and pending updates |
| C197 | registration over histories of trees | trees that are alike, invariant over histories |
| C198 | functions with effects in stream networks | re-entrant executions with fuel, places to be told as ghost state; ranks |
| C199 | property streams on objects that are false | exact values fired, by induction over the history |
| C200 | values of any kind read into structured models | mutual induction over models; exact content after an exception |
| C201 | containers of filtered and flattened lists replaced while threads change them | interleavings over an abstract list model; invariant per phase of the assignment; both list models satisfy its laws |
| C202 | properties defined again and undefined with a storage | histories newest first; exact storage and dict as functions of the history |
| C203 | list bindings closed while the list changes | interleavings; three parts of the changes as invariant |
| C204 | update_source of attribute and tuple bindings during close | interleavings; history of what each call could see |
| C205 | relationships and items defined again | replay since the last definition, stored remainder as suffix; invariant for objects in use |
| C206 | structured models built from values of any kind | mutual induction over schemas; entries of lists of pairs against association lists |
| C207 | keeping and restoring values of structured models | mutual induction over the kept model, for every model it may have become; both directions |
| C208 | integer geometry compared with anything | what subscripts and int give as a relation; case analysis |
| C109 | listeners that assign the stream they listen to | fuel for nested calls; all values received in order |

## What is modelled

Line numbers are in the comments of the definitions. "All" means every function and branch of the class.

| Source | Lean | Modelled | Not modelled |
|--------|------|----------|--------------|
| `Selection.py` | `Selection/` | all of `IndexedSelection`; set iteration order is a parameter; listeners that call the selection (`Reentrant`), assigning the style (`Restyle`) | `__eq__` with other classes |
| `Event.py` | `Event/` | all of `Event`, `EventListener`, re-entrant listeners, owners, reference counting, recursion limit; threads (`Threads`) | printing of exceptions, reference cycles, `BaseException` |
| `ListModel.py` 21-55 | `ListModel/Basic`, `Reentrant` | all; observers that change the list (`Reentrant`) | |
| `ListModel.py` 57-226 | `ListModel/Filters` | all filters, deep copy, exceptions in predicates | |
| `ListModel.py` 232-640 | `ListModel/Filtered*`, `Chained` (container is another list model) | all, with selections; lists kept from the events with observers that act (`Kept`); set iteration order is a parameter; threads for source, filter and change blocks (`FilteredThreads`, `SortThreads`); filters that raise (`FilterRaises`), sort keys that raise or cannot be compared (`KeyRaises`), keys with any comparison, such as floats that are not a number (`AnyKeys`), listeners that replace the container (`FilteredReplace`), observers that change the model or its source (`FilteredReentrant`), within change blocks (`BlocksReentrant`), threads that replace the container (`Containers`) | |
| `ListModel.py` 643-790 | `ListModel/Mapped`, `ChangeBlocks` (containers with change blocks) | all, with selections; functions that raise (`MapRaises`), threads that change the source (`MappedThreads`), listeners that replace the container (`MappedReplace`), observers that change the source (`MappedReentrant`), threads that replace the container (`MappedContainers`) | |
| `ListModel.py` 793-916 | `ListModel/Flattened` | all, with selections; lists kept from the events with observers that act (`Kept`); threads that change child lists (`FlattenedThreads`); listeners that replace the container (`FlattenedReplace`), observers that change the source or the children (`FlattenedReentrant`), threads that replace the container (`FlattenedContainers`) | |
| `Registry.py` | `Registry/` | all; the singleton is one manager (made by threads in `Single`); loops and listeners that call the registry (`Iterate`, `Reentrant`); threads (`Threads`) | |
| `ReferenceCounting.py`, `Promise.py`, `Validator.py` | `Small/` | all; threads (`RefThreads`, `PromiseThreads`), functions that read their own promise | |
| `Process.py` | `Small/Tasks`, `Small/QueueThreads`, `Small/SetThreads`, `Small/EventLoop` | `TaskQueue`, `TaskSet` (also threads, tasks that perform tasks), `close_event_loop` on a model of the `asyncio` loop | shutting down the executor |
| `ThreadPool.py` | `Pool/` | all, every interleaving of atomic steps; clock of the dispatcher (`Interval`) | length of timed waits (chosen by the schedule), thread creation failing |
| `Stream.py` | `Stream/` | value, map, combine, constant streams as networks; debounce and sample streams as schedules, with a clock in `Clock`; property and concat streams; listeners that assign the stream (`Reentrant`) or set the properties and the source of a property stream (`PropReentrant`); networks with listeners that assign (`NetReentrant`) or take and give up references (`Giving`); combined streams with threads (`CombineThreads`), value streams assigned by threads (`ValueThreads`); concat streams with items that are false or come back (`ConcatAgain`), with listeners that assign (`ConcatReentrant`); functions of map streams and of combined streams that raise (`Raising`, `CombineRaising`), or assign streams (`FnReentrant`); property streams on objects that are false (`FalseSource`) | |
| `Model.py` | `Binding/PropertyModel`, `TwoWay`, `Reentrant`; comparison functions and handlers that raise (`RaisingCmp`) | all | |
| `Binding.py` | `Binding/` | all (every tuple index: `TupleIndex`; several threads: `Threads`, for `PropertyModel` with `PropertyBinding` and for tuples; targets that close bindings or assign: `Closing`; several targets that act: `Targets`; closing while threads run: `CloseThreads`, `ListClose`, `UpdateClose`) | |
| `Observable.py` | no module of its own | its events are the events of the models that use it (`Event/`, `Binding/`, `ListModel/`) | item added/discarded/set/cleared (no user in the library) |
| `StructuredModel.py` | `Structured/` | building, values, copying, notification, array events of records (`ArrayEvents`); arrays as sequences (`Sequence`), records as attributes (`Attributes`); closing (`Closing`); listeners that change the model (`Reentrant`); reading and building from values of any kind (`AnyValue`, `BuildAny`); restoring values (`Restore`) | schemas not made with `define_…`, two fields of one name |
| `Persistence.py` | `Persist/` | properties, items, relationships, dicts, contexts, subscriptions, modification counts, storage, definitions that change while there is a storage (`Redefine`, `RedefineItems`), storage lookup (`Lookup`), what a written tree reads back as (`RoundTrip`), who is told of reading (`Reading`), deep copies (`Copy`), accessors (`Accessor`), reading into objects with content (`Reread`), attribute access (`Attributes`), mutable values (`Isolation`), custom readers and writers (`Custom`), the stored modification time (`ModifiedTime`), callbacks that change objects (`Callbacks`), subscribers that subscribe (`Subscribers`), registration over histories (`Registered`) | custom writers that remove entries, write delay (passed on to the storage), external data (passed on) |
| `Recorder.py` | `Persist/Recorder`, `Persist/RecorderTree` | one level of items with all handlers; trees of any depth with changes at the ends of lists; closing, in trees of any depth with all handlers (`RecorderClose`); later changes (`RecorderLate`); listeners that change the object (`RecorderReentrant`) | replaying after handlers that raise, in deeper trees |
| `Geometry.py` | `Geometry/` | pretty numbers and ranges, tickers, rectangles, mapping, rotation, insets, slices, texts of integer classes (`Text`), integer classes compared with anything (`EqAny`) | `__str__` of float classes, `__repr__`; rounding of floats except in sizes (C111), `FloatRect` (C133), mapping and fitting (C140, C141), log ticks in whole decades (C142), rotation (C147), distance and midpoint (C148), pretty ranges (C134) and linear labels (C135); overflow except in log tickers (C138), distance and midpoint (C148), pretty ranges (C176) and where the theorems in double precision say so |
| `Converter.py` | `Converter/` | all, with default and fixed (`{:.nf}`) formats | other formats, Windows paths, digits that are not ASCII |

Idealisations that matter when reading a theorem:

* Floats are exact numbers except in `Converter/Scaled.lean`, `Converter/Limits.lean`, `Converter/General.lean`, `Geometry/SizeArith.lean`, `Geometry/Doubles.lean`, `Geometry/MapDoubles.lean`, `Geometry/RotateDoubles.lean`, `Geometry/DistanceDoubles.lean`, `Geometry/PrettyDoubles.lean`, `Geometry/LabelDoubles.lean`, `Geometry/RangeOverflow.lean` and `Geometry/LogDoubles.lean`, where operations are rounded to 53 binary digits.
* A theorem about "every history" quantifies over lists of calls; where a call may raise, the history goes on in the state the
  exception left.
* Theorems about threads quantify over schedules of atomic steps; the comment of the module says what one step is.
* Hypotheses such as "the client uses existing streams" are definitions in Lean (`Valid`, `Adm`, ...) with an example that satisfies them.

## Findings

Properties that the code violates (each has a `_counterexample` theorem with the witness and a `_partial` theorem with the part that
holds): C04, C07, C145, C146, C164, C165 (selection); C11, C12 (events); C16-C18, C20, C24-C26, C119, C123, C126, C127, C137, C157, C158, C167, C170, C174, C177, C181, C182, C183, C185, C192 (list models); C27 (text filter copy); C29, C30, C116, C129, C162 (registry);
C33, C34, C117 (tasks, event loop); C35, C38, C80, C82, C101, C107, C108, C114, C115, C130, C188, C194, C195, C196, C201 (threads); C41-C43, C109, C118, C153, C160, C161, C169, C173, C178, C184, C187, C190, C198, C199 (streams); C84-C86, C88, C124, C143, C144, C154, C166, C189, C203, C204 (models, bindings); C50-C54, C102, C103, C156, C163, C186, C200, C206, C207 (structured models); C55,
C58, C59, C61, C104-C106, C113, C120-C122, C128, C132, C136, C172, C179, C180, C191, C197, C202, C205 (persistence); C62-C64, C71, C89, C93, C95-C98, C111, C133-C135, C138, C139, C140, C141, C142, C147, C148, C149, C168, C176, C208 (geometry); C74, C75, C77, C100, C151, C152, C159, C175 (converters). The notes in
`MANIFEST.json` say what goes wrong.

## Testing the theorems

`seeded/LOG.jsonl` has one line per wrong program tried: the definition edited, the edit, the claim it breaks, the theorems that failed
and what was tightened. Edits after which everything still proved are explained there (the edit does not falsify a claim) or led to a
stronger theorem.

## Axioms

Every theorem of `MANIFEST.json` depends on a subset of `propext`, `Classical.choice` and `Quot.sound`; `tools/axioms.txt` lists the set
for each theorem (made by `tools/axioms.py` with `#print axioms`). The gate checks the same.
