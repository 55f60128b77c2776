{"id": "C01", "title": "Selection changed event is exact", "statement": "Calling clear, add, remove, set, set_multiple, toggle or extend on an IndexedSelection fires changed_event exactly once when the set of selected indexes differs before and after the call, and not at all when it is the same; insert_index, remove_index and assigning anchor_index never fire it; add_range fires it once for each index of the range whose addition changes the set.", "quantifier": "every selection state (any style, any index set, any anchor), every call and every integer argument", "why_tests_cant": "a test fixes a handful of index sets; the claim is an equivalence over all sets, anchors and styles", "anchors": ["nion/utils/Selection.py: IndexedSelection.clear/add/remove/set/set_multiple/toggle/extend/insert_index/remove_index"]}
{"id": "C02", "title": "Multiple-style selection is set algebra", "statement": "With style multiple, after each call the selected set is the textbook one: add inserts, remove deletes (KeyError and no change if absent), toggle flips membership, set gives the singleton, set_multiple gives exactly the argument, clear gives the empty set, add_range adds every member of the range; so any sequence of calls behaves like the same sequence on an abstract set.", "quantifier": "every sequence of calls and every integer argument", "why_tests_cant": "unbounded histories of calls cannot be enumerated", "anchors": ["nion/utils/Selection.py: IndexedSelection"]}
{"id": "C03", "title": "Selection styles bound the selection size", "statement": "With style none an initially empty selection stays empty, and with style single_or_none an initially empty selection never has more than one index.", "quantifier": "every sequence of calls from a fresh selection", "why_tests_cant": "needs an invariant over unbounded histories", "anchors": ["nion/utils/Selection.py: IndexedSelection, Style"]}
{"id": "C04", "title": "Single style keeps at most one index", "statement": "With style single a fresh selection never has more than one selected index.", "quantifier": "every sequence of calls from a fresh selection", "why_tests_cant": "needs an invariant over unbounded histories; the violating history (set then clear) is not in the tests", "anchors": ["nion/utils/Selection.py: IndexedSelection.clear, Style.single"]}
{"id": "C05", "title": "Reindexing keeps the same items selected", "statement": "insert_index(k) after inserting an item at position k, and remove_index(k) after removing position k, keep exactly the same surviving items selected (an inserted item is not selected, a removed one is dropped), and remove_index(k) undoes insert_index(k).", "quantifier": "every index set, every anchor, every position k and every list the positions refer to", "why_tests_cant": "ranges over all index sets and positions", "anchors": ["nion/utils/Selection.py: IndexedSelection.insert_index/remove_index"]}
{"id": "C06", "title": "Extend selects the whole interval", "statement": "With style multiple and an anchor different from i, extend(i) selects every integer between anchor and i inclusive, keeps everything already selected, selects nothing else and leaves the anchor unchanged; with no anchor it selects i and makes it the anchor.", "quantifier": "every index set, anchor and i", "why_tests_cant": "ranges over all intervals", "anchors": ["nion/utils/Selection.py: IndexedSelection.extend"]}
{"id": "C07", "title": "Anchor is a selected index", "statement": "Whenever something is selected, the anchor index is one of the selected indexes.", "quantifier": "every sequence of calls that does not assign anchor_index directly", "why_tests_cant": "invariant over unbounded histories; violated after removing the lowest selected index when it is the anchor", "anchors": ["nion/utils/Selection.py: IndexedSelection.remove/__update_anchor_index/remove_index"]}
{"id": "C08", "title": "Ordered indexes", "statement": "ordered_indexes lists every selected index exactly once, the anchor first if it is selected and all others in ascending order; current_index is the selected index if exactly one is selected and None otherwise; == and != are negations of each other.", "quantifier": "every selection state", "why_tests_cant": "ranges over all sets", "anchors": ["nion/utils/Selection.py: IndexedSelection.ordered_indexes/current_index/__eq__/__ne__"]}
{"id": "C09", "title": "Fire delivers in order, once", "statement": "fire calls exactly the functions of the listeners that were attached when it started and have not been closed by the time their turn comes, each once, in the order they were attached, provided none of them raises; listeners attached during the fire are not called by it.", "quantifier": "every set of listeners, every history of listen/close/drop and every re-entrant behaviour of the listener functions", "why_tests_cant": "listener functions are arbitrary and may re-enter the event", "anchors": ["nion/utils/Event.py: Event.listen/fire"]}
{"id": "C10", "title": "No call after close", "statement": "Once a listener token has been closed, its function is never called again by fire, fire_any or fire_all, even when it was closed from inside a listener during a fire.", "quantifier": "every history including re-entrant ones", "why_tests_cant": "histories and re-entrancy are unbounded", "anchors": ["nion/utils/Event.py: EventListener.close, Event.fire/fire_any/fire_all"]}
{"id": "C11", "title": "A raising listener does not affect others", "statement": "fire never raises; every listener attached and not closed is called (the documentation says unconditionally) even if an earlier listener raises.", "quantifier": "every combination of raising and non-raising listeners", "why_tests_cant": "ranges over all listener behaviours; violated by the code, which stops at the first exception", "anchors": ["nion/utils/Event.py: Event.fire"]}
{"id": "C12", "title": "fire_any and fire_all results", "statement": "fire_any returns True at the first listener that returns a true value, calling no later one, and otherwise False; fire_all returns False at the first listener returning a false value, calling no later one, and otherwise True.", "quantifier": "every listener list and every combination of results, including no listeners and closed listeners", "why_tests_cant": "ranges over all listener lists; the code returns None for an event without listeners, and a closed but still referenced listener makes fire_all return False", "anchors": ["nion/utils/Event.py: Event.fire_any/fire_all"]}
{"id": "C13", "title": "Listener lifetime", "statement": "listener_count is the number of listener tokens still referenced; dropping the last reference detaches the listener; a listener given an owner is kept alive without the token and is closed when the owner goes away.", "quantifier": "every history of listen, drop, close and owner destruction", "why_tests_cant": "unbounded histories of object lifetimes", "anchors": ["nion/utils/Event.py: Event.listen, Event.listener_count"]}
{"id": "C14", "title": "List model notifications are replayable", "statement": "An observer that starts from a copy of a ListModel's items and applies each item_inserted / item_removed notification with the same list operation has, after any sequence of calls, a list equal to items; failing calls change and notify nothing; clear_items empties the list.", "quantifier": "every sequence of insert_item/remove_item/append_item/clear_items with any integer index", "why_tests_cant": "unbounded histories", "anchors": ["nion/utils/ListModel.py: ListModel"]}
{"id": "C15", "title": "Mapped list mirrors its source", "statement": "The items of a MappedListModel are, position by position, the map function's results for the source items, after any history of source changes and container changes; each mapped item is handed to unmap_fn exactly once, when it leaves the list; its notifications replay to its items.", "quantifier": "every source history and map function, also one giving a fresh object per call", "why_tests_cant": "unbounded histories", "anchors": ["nion/utils/ListModel.py: MappedListModel"]}
{"id": "C16", "title": "Mapped list selections follow items", "statement": "A selection made from a MappedListModel keeps selecting the same surviving items through every source insertion and removal.", "quantifier": "every selection and source history", "why_tests_cant": "unbounded histories", "anchors": ["nion/utils/ListModel.py: MappedListModel.__master_item_inserted/__master_item_removed"]}
{"id": "C17", "title": "Flattened list is the concatenation", "statement": "The items of a FlattenedListModel are the concatenation, in container order, of the children of the container's items after any history of master insert/remove and child insert/remove, and its notifications replay to its items.", "quantifier": "every history of master and child changes", "why_tests_cant": "unbounded histories over nested lists", "anchors": ["nion/utils/ListModel.py: FlattenedListModel"]}
{"id": "C18", "title": "Flattened list selections follow items", "statement": "A selection made from a FlattenedListModel keeps selecting the same surviving flattened items through child insertions and removals.", "quantifier": "every selection and history", "why_tests_cant": "unbounded; violated on insertion into any master item but the first non-empty one", "anchors": ["nion/utils/ListModel.py: FlattenedListModel.__child_item_inserted/__child_item_removed"]}
{"id": "C19", "title": "Sorted insertion point", "statement": "Inserting an item into a list already sorted by the sort key (ascending or reversed) leaves it sorted, and places the item before every item with an equal key.", "quantifier": "every sorted list, key function over any linear order, and item", "why_tests_cant": "binary search correctness is for all lengths", "anchors": ["nion/utils/ListModel.py: FilteredListModel.__find_sorted_index_for_item/__insert_item"]}
{"id": "C20", "title": "Filtered list without sort key keeps source order", "statement": "With no sort key, the items of a FilteredListModel are exactly the source items accepted by the filter, in source order, whenever no change block is open.", "quantifier": "every history of source changes, filter changes and nested change blocks", "why_tests_cant": "unbounded histories; violated when an item is moved inside a change block, or when sort_reverse is set without sort_key", "anchors": ["nion/utils/ListModel.py: FilteredListModel.__update_items/__build_items/__find_unsorted_index_for_item"]}
{"id": "C21", "title": "Filtered list with sort key is sorted and complete", "statement": "With a sort key, the items are a permutation of the source items accepted by the filter and are sorted by the key (descending if sort_reverse), whenever no change block is open.", "quantifier": "every history of source changes, filter, key and reverse changes and nested change blocks, with keys of items constant", "why_tests_cant": "unbounded histories", "anchors": ["nion/utils/ListModel.py: FilteredListModel"]}
{"id": "C22", "title": "Filtered list notifications are replayable", "statement": "Applying every item_inserted and item_removed notification by index to a copy reproduces items at every moment; notifications of one update are enclosed in one begin/end pair and begin/end are balanced.", "quantifier": "every history, including the full-replacement and the incremental update path", "why_tests_cant": "unbounded histories", "anchors": ["nion/utils/ListModel.py: FilteredListModel.__update_items/__insert_item/__remove_item"]}
{"id": "C23", "title": "Change blocks batch notifications", "statement": "Between begin_change and the matching outermost end_change a FilteredListModel emits no insert or remove notification and its items do not change, whatever happens to the source, filter or sorting; the update happens at the outermost end_change.", "quantifier": "every nesting of change blocks and every history inside them", "why_tests_cant": "unbounded nesting and histories", "anchors": ["nion/utils/ListModel.py: FilteredListModel.begin_change/end_change"]}
{"id": "C24", "title": "Item change re-sorts", "statement": "When an item of a sorted FilteredListModel announces a change of its content, the list is again filtered and sorted by the new contents.", "quantifier": "every sorted list, every item and every new content", "why_tests_cant": "all positions and key moves; violated for some increasing key moves because binary search runs over a list already out of order", "anchors": ["nion/utils/ListModel.py: FilteredListModel.__updated_master_item"]}
{"id": "C25", "title": "Filtered list selections follow items", "statement": "A selection made from a FilteredListModel keeps selecting the same surviving filtered items.", "quantifier": "every selection, filter and source history", "why_tests_cant": "violated: source indexes are used for the filtered selection", "anchors": ["nion/utils/ListModel.py: FilteredListModel.__item_inserted/__item_removed"]}
{"id": "C26", "title": "Remove notifications name the removed item", "statement": "Every item_removed notification of a FilteredListModel carries the item that was at the reported index.", "quantifier": "every history", "why_tests_cant": "all histories; violated on the full replacement path for lists of two or more items", "anchors": ["nion/utils/ListModel.py: FilteredListModel.__update_items"]}
{"id": "C27", "title": "Filter algebra", "statement": "matches of AndFilter, OrFilter, NotFilter and Filter(default) is the Boolean combination of its parts (And of none is true, Or of none is false), and a deep copy of a filter accepts exactly the same items.", "quantifier": "every nesting of filters and every item", "why_tests_cant": "all nestings; violated for deep copies of TextFilter", "anchors": ["nion/utils/ListModel.py: Filter, AndFilter, OrFilter, NotFilter, EqFilter, NotEqFilter, StartsWithFilter, TextFilter, PartialDateFilter, PredicateFilter"]}
{"id": "C28", "title": "Registry lookups are consistent", "statement": "After any history, get_components_by_type(t) contains exactly the components registered with t and not since unregistered from t; an invalid register or unregister raises and changes nothing.", "quantifier": "every history of register/unregister with any sets of types", "why_tests_cant": "unbounded histories", "anchors": ["nion/utils/Registry.py: ComponentManager"]}
{"id": "C29", "title": "get_component honours priority", "statement": "get_component(t) returns None exactly when nothing is registered for t, and otherwise a component of highest priority (default 50) among those registered for t.", "quantifier": "every registry content and priorities", "why_tests_cant": "all sets; violated: the sorted list is ignored", "anchors": ["nion/utils/Registry.py: get_component"]}
{"id": "C30", "title": "Registry events report types", "statement": "Each successful register or unregister fires its event exactly once with the component and the set of types that were added or removed.", "quantifier": "every registry state and call", "why_tests_cant": "violated for unregister without types, which reports the emptied set", "anchors": ["nion/utils/Registry.py: ComponentManager.register/unregister"]}
{"id": "C31", "title": "Reference counting closes once", "statement": "about_to_delete is called at most once in the life of a ReferenceCounted object, exactly when a checked remove_ref first brings the count to zero; the count equals add_ref calls minus successful remove_ref calls and remove_ref at zero raises.", "quantifier": "every history of add_ref/remove_ref(check), including resurrection and nested ref() contexts", "why_tests_cant": "unbounded histories", "anchors": ["nion/utils/ReferenceCounting.py: ReferenceCounted"]}
{"id": "C32", "title": "Promise evaluates once", "statement": "A Promise calls its function at most once if the function does not raise, every value read returns that first result, opt_value never evaluates, and a raising function leaves the promise unevaluated so that the next read retries.", "quantifier": "every history of value/opt_value/has_value reads and every function behaviour per call", "why_tests_cant": "unbounded histories", "anchors": ["nion/utils/Promise.py: Promise"]}
{"id": "C33", "title": "TaskQueue runs a bounded batch in order", "statement": "perform_tasks runs the tasks that were queued when it was called, in FIFO order, each once, and leaves tasks queued meanwhile for the next call; clear_tasks discards them without running any; a raising task stops the batch and leaves the rest queued.", "quantifier": "every queue content and every task behaviour, including tasks that queue tasks", "why_tests_cant": "tasks are arbitrary and re-entrant", "anchors": ["nion/utils/Process.py: TaskQueue"]}
{"id": "C34", "title": "TaskSet keeps the latest task per key", "statement": "perform_tasks runs, once each, the most recently added task of every key not cleared since the last perform, and tasks added while performing are kept for the next call.", "quantifier": "every history of add_task/clear_task/perform_tasks and every task behaviour", "why_tests_cant": "unbounded histories", "anchors": ["nion/utils/Process.py: TaskSet"]}
{"id": "C35", "title": "Pool tasks run at most once", "statement": "Every function queued on a ThreadPool is executed at most once, and never both executed and cancelled, however many worker threads, run_one/run_all callers and a concurrent close interleave.", "quantifier": "every interleaving of atomic steps of any number of workers, queuers and closers", "why_tests_cant": "all schedules", "anchors": ["nion/utils/ThreadPool.py: ThreadPoolTask, ThreadPool"]}
{"id": "C36", "title": "Closed pool starts nothing", "statement": "After close has returned no queued function starts executing, no function queued afterwards ever runs, and the pool's task list is empty of unfinished tasks.", "quantifier": "every interleaving", "why_tests_cant": "all schedules", "anchors": ["nion/utils/ThreadPool.py: ThreadPool.close/queue_fn/__run"]}
{"id": "C37", "title": "Dispatcher loses no trigger", "statement": "For every trigger of a started ThreadDispatcher that is not closed, the function starts at least once after that trigger: the worker is never idle with an unserved trigger.", "quantifier": "every interleaving of triggers, timeouts and the worker, every minimum interval", "why_tests_cant": "all schedules and timings", "anchors": ["nion/utils/ThreadPool.py: ThreadDispatcher.trigger/__process"]}
{"id": "C38", "title": "Waiting trigger sees a fresh run", "statement": "trigger(wait=True) returns only after a run of the function that started after the call.", "quantifier": "every interleaving", "why_tests_cant": "all schedules; violated when a run is already in progress", "anchors": ["nion/utils/ThreadPool.py: ThreadDispatcher.trigger/__process"]}
{"id": "C39", "title": "Stream networks stay consistent", "statement": "After any sequence of assignments to ValueStreams, the value of every stream built from them with MapStream, CombineLatestStream and ConstantStream equals the pure expression evaluated on the current inputs.", "quantifier": "every expression built from streams, every function and every sequence of assignments", "why_tests_cant": "all networks and histories", "anchors": ["nion/utils/Stream.py: ValueStream, MapStream, CombineLatestStream, ConstantStream"]}
{"id": "C40", "title": "Streams fire only on change and with the current value", "statement": "ValueStream and MapStream fire value_stream exactly when their value changes and with the new value; CombineLatestStream fires once per input firing with the combined value.", "quantifier": "every network and assignment", "why_tests_cant": "all histories", "anchors": ["nion/utils/Stream.py: ValueStream.value, MapStream.update_value, CombineLatestStream.__values_changed"]}
{"id": "C41", "title": "Debounce delivers the latest value", "statement": "A DebounceStream has at most one pending timer, delivers at each expiry the latest input value, and after the last input change exactly one delivery carrying that value follows; after close it delivers nothing.", "quantifier": "every interleaving of input changes and timer expiries", "why_tests_cant": "all timings", "anchors": ["nion/utils/Stream.py: DebounceStream"]}
{"id": "C42", "title": "Sample delivers at most once per period", "statement": "A SampleStream at each period delivers the latest input value if the input changed since the last delivery and nothing otherwise, and its value is always an input value.", "quantifier": "every interleaving of input changes and periods", "why_tests_cant": "all timings; violated at the first period without input change, where None is delivered", "anchors": ["nion/utils/Stream.py: SampleStream"]}
{"id": "C43", "title": "Property and concat streams follow their source", "statement": "A PropertyChangedEventStream's value is the current value of the named property of the current source object; a ConcatStream's value is the value of the stream made from the latest input item, or None without an item.", "quantifier": "every history of source changes and property changes", "why_tests_cant": "all histories; the property stream keeps a stale value when the source becomes None", "anchors": ["nion/utils/Stream.py: PropertyChangedEventStream, ConcatStream"]}
{"id": "C44", "title": "Stream ownership balances references", "statement": "Building and closing derived streams takes and releases exactly one reference per input, so an input stream is closed exactly when its last consumer is closed.", "quantifier": "every tree of derived streams", "why_tests_cant": "all networks", "anchors": ["nion/utils/Stream.py: AbstractStream, MapStream, CombineLatestStream; ReferenceCounting.py"]}
{"id": "C45", "title": "Property model notifies on change only", "statement": "Setting PropertyModel.value stores the value and notifies (event, then on_value_changed with the new value) exactly when it differs from the old one, where None differs from everything but None and otherwise cmp decides.", "quantifier": "every value, comparison function and history", "why_tests_cant": "all values and comparison functions", "anchors": ["nion/utils/Model.py: PropertyModel, StreamValueModel"]}
{"id": "C46", "title": "Property binding transfers converted values", "statement": "update_source(t) sets the source property to validate(convert_back(t)); every source property change calls target_setter with convert(value), or with the fallback when the value is None; get_target_value returns the same; other property names are ignored; after close nothing is transferred.", "quantifier": "every source value, converter, validator, fallback and history", "why_tests_cant": "arbitrary converters and histories", "anchors": ["nion/utils/Binding.py: Binding, PropertyBinding"]}
{"id": "C47", "title": "Tuple binding is a padded lens", "statement": "update_source(v) on a TuplePropertyBinding for index i makes element i of the source tuple v, keeps every other element, pads with None up to i, and get_target_value then returns the converted v; later writes to the same index override, writes to different indexes commute when both are in range.", "quantifier": "every source tuple (or None), non-negative index and value", "why_tests_cant": "all tuples and indexes", "anchors": ["nion/utils/Binding.py: TuplePropertyBinding"]}
{"id": "C48", "title": "List binding mirrors its source", "statement": "A target that applies inserter and remover calls of a ListBinding to a copy stays equal to the source list; notifications for other keys are ignored; after close nothing is called.", "quantifier": "every history of the source", "why_tests_cant": "unbounded histories", "anchors": ["nion/utils/Binding.py: ListBinding"]}
{"id": "C49", "title": "Integer range validator clamps", "statement": "validate returns the nearest value inside [min, max], leaves values inside unchanged, is idempotent and monotone; missing bounds do not constrain.", "quantifier": "every value and bounds", "why_tests_cant": "all integers", "anchors": ["nion/utils/Validator.py: IntegerRangeValidator"]}
{"id": "C50", "title": "Building a model from values stores them", "statement": "build_model(schema, value=v) gives a model whose to_dict_value is v restricted to the schema, with schema defaults for missing fields; supplied values take precedence over defaults.", "quantifier": "every schema and value", "why_tests_cant": "all nested schemas; violated: a field default overrides the supplied value", "anchors": ["nion/utils/StructuredModel.py: build_model, RecordModel, ArrayModel"]}
{"id": "C51", "title": "Structured model deep copy", "statement": "A deep copy of a record or array model has the same to_dict_value as the original.", "quantifier": "every schema and model state", "why_tests_cant": "all nested schemas; violated for fields with defaults and arrays of plain values", "anchors": ["nion/utils/StructuredModel.py: RecordModel.__deepcopy__, ArrayModel.__deepcopy__"]}
{"id": "C52", "title": "Deep changes fire model_changed", "statement": "Any change of a field or array anywhere inside a structured model fires model_changed_event of every enclosing model.", "quantifier": "every schema, every history of field assignments, insertions and removals", "why_tests_cant": "all nestings and histories; violated after inserting before and then removing array items", "anchors": ["nion/utils/StructuredModel.py: RecordModel, ArrayModel.notify_insert_item/notify_remove_item"]}
{"id": "C53", "title": "copy_from restores values", "statement": "m.copy_from(other) for models of the same schema makes m.to_dict_value equal other.to_dict_value for fields present in other, leaving absent ones unchanged.", "quantifier": "every schema and pair of model states", "why_tests_cant": "all nested schemas", "anchors": ["nion/utils/StructuredModel.py: RecordModel.from_dict_value/copy_from, ArrayModel.from_dict_value"]}
{"id": "C54", "title": "All defined field types can be built", "statement": "build_model succeeds for every schema made with define_string, define_boolean, define_int, define_float, define_field, define_record and define_array.", "quantifier": "every schema", "why_tests_cant": "all schemas; violated for define_float", "anchors": ["nion/utils/StructuredModel.py: define_float, FLOAT, build_model"]}
{"id": "C55", "title": "Persistent object write/read round trip", "statement": "Writing a persistent object to a dict and reading it into a freshly constructed object of the same class restores uuid, property values, items and relationship lists, recursively.", "quantifier": "every tree of objects and every property value (converter inverse on it, None included)", "why_tests_cant": "all object trees", "anchors": ["nion/utils/Persistence.py: PersistentObject.write_to_dict/read_from_dict, PersistentProperty"]}
{"id": "C56", "title": "Context propagates to the whole tree", "statement": "Setting persistent_object_context on an object sets it on every object contained in its items and relationships and registers (or unregisters) each of them exactly once.", "quantifier": "every object tree", "why_tests_cant": "all trees", "anchors": ["nion/utils/Persistence.py: PersistentObject.persistent_object_context, PersistentObjectContext.register/unregister"]}
{"id": "C57", "title": "Subscriptions see registrations", "statement": "A subscriber for a uuid is called with the object on every registration of that uuid (immediately if already registered) and with it on unregistration, after which the subscription is gone; get_registered_object returns the last registered and not unregistered object.", "quantifier": "every history of subscribe/register/unregister", "why_tests_cant": "unbounded histories", "anchors": ["nion/utils/Persistence.py: PersistentObjectContext.register/unregister/subscribe/get_registered_object"]}
{"id": "C58", "title": "Modification counts reach all ancestors", "statement": "Every property set, item set, insertion and removal increases modified_count and the modified time of the object and of each of its ancestors by one step and of no other object.", "quantifier": "every object forest and operation", "why_tests_cant": "all trees", "anchors": ["nion/utils/Persistence.py: PersistentObject.__update_modified"]}
{"id": "C59", "title": "Storage follows the properties", "statement": "With a context, after any sequence of property assignments the storage holds for each property's key exactly the value write_to_dict would write, and nothing for a None value.", "quantifier": "every sequence of assignments and property definitions (with or without a separate key)", "why_tests_cant": "unbounded histories; violated for a property with a separate key set to None", "anchors": ["nion/utils/Persistence.py: PersistentObject.__setattr__/_update_persistent_object_context_property"]}
{"id": "C60", "title": "Storage follows the relationships", "statement": "insert_item/append_item/remove_item update the relationship list and send the same operation (same name, index, item) to the storage and the callbacks, so storage replays to the same list.", "quantifier": "every history of insertions and removals", "why_tests_cant": "unbounded histories", "anchors": ["nion/utils/Persistence.py: PersistentObject.insert_item/remove_item/append_item/extend_items"]}
{"id": "C61", "title": "Recorder replays changes", "statement": "Applying a recorder's log to an object equal to the recorded object's initial state makes it equal to the recorded object's final state.", "quantifier": "every history of property sets, insertions and removals", "why_tests_cant": "unbounded histories; violated for insertions before existing items and for item sets", "anchors": ["nion/utils/Recorder.py: Recorder"]}
{"id": "C62", "title": "Integer rectangle algebra", "statement": "A point is contained in intersect(a,b) exactly when it is in both; union(a,b) contains every point of both and is the smallest such rectangle for non-empty ones; intersects_rect is symmetric and true exactly when the closed rectangles share a point.", "quantifier": "all integer rectangles and points", "why_tests_cant": "infinite domain", "anchors": ["nion/utils/Geometry.py: IntRect.contains_point/intersects_rect/intersect/union"]}
{"id": "C63", "title": "Integer rectangle motion", "statement": "translated(p), rect + p and rect - p move every contained point by p and preserve the size; (r + p) - p = r.", "quantifier": "all integer rectangles and points", "why_tests_cant": "infinite domain; + and - violated for negative odd sizes", "anchors": ["nion/utils/Geometry.py: IntRect.translated/__add__/__sub__, IntPoint.__add__/__sub__"]}
{"id": "C64", "title": "Centre and size determine a rectangle", "statement": "IntRect.from_center_and_size(r.center, r.size) = r, and from_center_and_size(c, s) has centre c and size s; likewise for float rectangles in exact arithmetic; from_tlbr/from_tlhw give back their arguments.", "quantifier": "all rectangles", "why_tests_cant": "infinite domain; violated for negative odd integer sizes", "anchors": ["nion/utils/Geometry.py: IntRect.from_center_and_size/center, FloatRect"]}
{"id": "C65", "title": "Fit to aspect ratio", "statement": "fit_to_aspect_ratio(rect, a) lies inside rect, touches it on two opposite sides, is centred on it and has aspect ratio a.", "quantifier": "all rectangles with positive size and positive ratios, in exact arithmetic", "why_tests_cant": "infinite domain", "anchors": ["nion/utils/Geometry.py: fit_to_aspect_ratio, fit_to_size"]}
{"id": "C66", "title": "Mapping between rectangles", "statement": "map_point maps corners to corners, is inverted by swapping the rectangles, composes, and map_rect maps a rectangle to the one spanned by its mapped corners.", "quantifier": "all points and rectangles with non-zero size, in exact arithmetic", "why_tests_cant": "infinite domain", "anchors": ["nion/utils/Geometry.py: map_point, map_size, map_rect"]}
{"id": "C67", "title": "Pretty numbers", "statement": "make_pretty returns a number of the form sign * m * 10^k with m in {1,2,5,10}; without rounding it is the smallest such number not below |val| (times sign), with rounding it is within a factor 2/3..2 of val; odd in val.", "quantifier": "every finite value, in exact arithmetic", "why_tests_cant": "infinite domain", "anchors": ["nion/utils/Geometry.py: make_pretty"]}
{"id": "C68", "title": "Pretty ranges cover the data", "statement": "make_pretty_range2 returns minimum <= low and high <= maximum, both multiples of the division, within one division of the data, and ticks that start at the minimum, end at the maximum and are evenly spaced by the division.", "quantifier": "every pair of values and tick count >= 2, in exact arithmetic", "why_tests_cant": "infinite domain", "anchors": ["nion/utils/Geometry.py: make_pretty_range2, LinearTicker"]}
{"id": "C69", "title": "Tick labels distinguish ticks", "statement": "With the returned precision, every tick of a pretty range is an exact decimal, so distinct ticks have distinct fixed-point labels.", "quantifier": "every pair of values and tick count, in exact arithmetic", "why_tests_cant": "infinite domain", "anchors": ["nion/utils/Geometry.py: make_pretty_range2 precision, LinearTicker.value_label"]}
{"id": "C70", "title": "Rotation preserves distances", "statement": "FloatPoint.rotate about an origin preserves the distance to it, rotating back undoes it and rotations add; FloatSize.rotate preserves the diagonal.", "quantifier": "all points, origins and angles, in exact arithmetic", "why_tests_cant": "infinite domain", "anchors": ["nion/utils/Geometry.py: FloatPoint.rotate, FloatSize.rotate"]}
{"id": "C71", "title": "Log ticker ticks", "statement": "LogTicker with finite limits gives strictly increasing tick values, one label per tick, minor tick indices that index exactly the non-decade ticks, and ticks covering the range.", "quantifier": "all limits, tick counts and bases, in exact arithmetic", "why_tests_cant": "infinite domain", "anchors": ["nion/utils/Geometry.py: LogTicker"]}
{"id": "C72", "title": "Integer string round trip", "statement": "IntegerToStringConverter.convert_back(convert(n)) = n.", "quantifier": "every integer", "why_tests_cant": "infinite domain", "anchors": ["nion/utils/Converter.py: IntegerToStringConverter"]}
{"id": "C73", "title": "Scaled integer round trip", "statement": "FloatToScaledIntegerConverter.convert(convert_back(i)) = i for every integer i, convert maps [min,max] into [0,n] monotonically, and convert_back(convert(v)) is within one step below v.", "quantifier": "every n > 0, min < max and value, in exact arithmetic", "why_tests_cant": "infinite domain", "anchors": ["nion/utils/Converter.py: FloatToScaledIntegerConverter"]}
{"id": "C74", "title": "Percent string round trip", "statement": "FloatToPercentStringConverter.convert(convert_back(s)) = s for every integer percentage string.", "quantifier": "every integer percentage; exact and IEEE double arithmetic", "why_tests_cant": "infinite domain; violated in double arithmetic at 29%", "anchors": ["nion/utils/Converter.py: FloatToPercentStringConverter"]}
{"id": "C75", "title": "UUID string round trip", "statement": "UuidToStringConverter.convert_back(convert(u)) = u for every UUID.", "quantifier": "every UUID", "why_tests_cant": "2^128 values; violated for UUIDs that are not version 4", "anchors": ["nion/utils/Converter.py: UuidToStringConverter"]}
{"id": "C76", "title": "Datetime string round trip", "statement": "DatetimeToStringConverter.convert_back(convert(d)) = d for every naive datetime, and convert_back never raises on a string.", "quantifier": "every valid naive datetime; every string", "why_tests_cant": "about 3*10^17 values", "anchors": ["nion/utils/Converter.py: DatetimeToStringConverter"]}
{"id": "C77", "title": "Fuzzy float parsing is total", "statement": "FloatToStringConverter().convert_back(s) returns a number for every string, 0.0 if it does not start with a number.", "quantifier": "every string", "why_tests_cant": "infinite domain; violated for a decimal comma in a locale with decimal point and no thousands separator", "anchors": ["nion/utils/Converter.py: FloatToStringConverter.convert_back"]}
{"id": "C78", "title": "Check state round trip", "statement": "CheckedToCheckStateConverter.convert_back(convert(b)) = b, and convert_back is true exactly for the string checked.", "quantifier": "every Boolean and string", "why_tests_cant": "infinite domain of strings", "anchors": ["nion/utils/Converter.py: CheckedToCheckStateConverter"]}
{"id": "C79", "title": "An open pool loses no function", "statement": "As long as close has not been called on a ThreadPool, every function queued on it has been started, or still waits in the queue, or has been taken by a worker or run_one/run_all caller that is about to execute it; none is cancelled.", "quantifier": "every interleaving of any number of workers, queuers and run_one/run_all callers", "why_tests_cant": "all schedules", "anchors": ["nion/utils/ThreadPool.py: ThreadPool.queue_fn/run_one/run_all/__run"]}
{"id": "C80", "title": "A waiting trigger returns", "statement": "A trigger(wait=True) of a started ThreadDispatcher returns once the minimum interval has elapsed and the function has run.", "quantifier": "every interleaving, every minimum interval", "why_tests_cant": "all schedules; violated if the function raises or the dispatcher is closed meanwhile: the caller blocks for ever", "anchors": ["nion/utils/ThreadPool.py: ThreadDispatcher.trigger/close/__process"]}
{"id": "C81", "title": "Where each call leaves the anchor", "statement": "With style multiple: after clear and after set_multiple of nothing there is no anchor; set(i) and add(i) to an empty selection make i the anchor; add to a non-empty selection keeps the anchor; remove(i) keeps an anchor that is another selected index, otherwise the anchor becomes the smallest of the old anchor and the remaining indexes; set_multiple makes one of its indexes the anchor; extend(i) keeps the anchor or, if there was none, makes i the anchor.", "quantifier": "every selection of style multiple and every index or index set", "why_tests_cant": "all states and indexes; a left-over anchor shows only in a later extend", "anchors": ["nion/utils/Selection.py: IndexedSelection"]}
{"id": "C82", "title": "close drains the pool and ends its workers", "statement": "When close of a ThreadPool with worker threads returns, the queue is empty, no thread holds an item taken from it, and every worker thread has ended.", "quantifier": "every interleaving of workers, queuers and the closing thread", "why_tests_cant": "all schedules; violated when run_one or run_all is called concurrently with close: that call takes an end marker and a worker waits for ever", "anchors": ["nion/utils/ThreadPool.py: ThreadPool.close/__run"]}
{"id": "C83", "title": "run_all leaves nothing behind", "statement": "As long as the pool is open, run_all returns only when the queue is empty; every function queued until then has been started or is in the hand of another thread that is about to execute it.", "quantifier": "every interleaving of any number of workers, queuers and run_one/run_all callers, including functions that queue functions", "why_tests_cant": "all schedules", "anchors": ["nion/utils/ThreadPool.py: ThreadPool.run_all"]}
{"id": "C84", "title": "A function stream model settles on the latest function", "statement": "Once all evaluations of a FuncStreamValueModel have ended, its value is the result of the function its stream delivered last, and _run_until_complete returns.", "quantifier": "every history of functions and every order in which the concurrent evaluations end", "why_tests_cant": "all completion orders; violated when a later function finishes before an earlier one, or when a function raises", "anchors": ["nion/utils/Model.py: FuncStreamValueModel"]}
{"id": "C85", "title": "Change notification and get_target_value agree", "statement": "What a binding hands to target_setter when the source property changes is what get_target_value returns at that moment.", "quantifier": "every source value, converter and fallback", "why_tests_cant": "all values; violated by tuple bindings for elements that are None", "anchors": ["nion/utils/Binding.py: PropertyBinding, TuplePropertyBinding"]}
{"id": "C86", "title": "Attribute binding writes through and notifies", "statement": "update_source(t) on a PropertyAttributeBinding makes the attribute of the object in the source property the back converted value, get_target_value then returns its conversion, and the target setter is called with it. With an update_attribute_fn an object taken from the property earlier is not changed.", "quantifier": "every object, value, converter and kind of source, every sequence of updates", "why_tests_cant": "all sources; violated for a PropertyModel source without update_attribute_fn: the object is changed in place and nobody is notified", "anchors": ["nion/utils/Binding.py: PropertyAttributeBinding"]}
{"id": "C87", "title": "Two models bound both ways agree and settle", "statement": "If a PropertyBinding connects two property models both ways and converting back and forth is stable, every assignment to either model returns after a bounded number of nested assignments, and afterwards the second shows the first or the first is what is read back from the second.", "quantifier": "every converter pair with c(b(c(x))) = c(x) and b(c(b(y))) = b(y), every history of assignments", "why_tests_cant": "arbitrary converters and histories, mutual recursion", "anchors": ["nion/utils/Binding.py: PropertyBinding", "nion/utils/Model.py: PropertyModel"]}
{"id": "C88", "title": "The last report is the current value", "statement": "After an assignment to PropertyModel.value returns, the last value listeners of the property changed event have read and the last argument of on_value_changed are the current value, even if a listener assigns the model again.", "quantifier": "every value, every reaction of a listener", "why_tests_cant": "arbitrary re-entrant listeners; violated for on_value_changed: it is called with the outer value last", "anchors": ["nion/utils/Model.py: PropertyModel"]}
{"id": "C89", "title": "Linear ticker labels distinguish ticks", "statement": "The labels of a LinearTicker say the tick values exactly, so distinct ticks have distinct labels, also when the e-format is used.", "quantifier": "every pair of different values and tick count >= 2, in exact arithmetic", "why_tests_cant": "infinite domain; violated for negative ticks with a division factor beyond 10^5 (-120e6 to -100e6 gives five labels -1e+08)", "anchors": ["nion/utils/Geometry.py: LinearTicker.value_label"]}
{"id": "C90", "title": "About the requested number of ticks", "statement": "Asked for t ticks, make_pretty_range2 returns at least 0.24 (t-1) + 1 and fewer than 1.5 (t-1) + 3 ticks.", "quantifier": "every pair of different values and t >= 2, in exact arithmetic", "why_tests_cant": "infinite domain", "anchors": ["nion/utils/Geometry.py: make_pretty_range2"]}
{"id": "C91", "title": "Distance and midpoint", "statement": "distance is a metric (symmetric, zero exactly for equal points, triangle inequality) that rotation preserves, and the midpoint is at half the distance from both points.", "quantifier": "all points, in exact arithmetic", "why_tests_cant": "infinite domain", "anchors": ["nion/utils/Geometry.py: distance, midpoint, FloatPoint.rotate"]}
{"id": "C92", "title": "Insets", "statement": "Rect.inset is undone by the inset with opposite amounts, insets add, every side moves inwards by the amount, a point is in the inset rectangle exactly if its neighbourhood is in the rectangle, and inset_rect agrees with it.", "quantifier": "all rectangles and amounts", "why_tests_cant": "infinite domain", "anchors": ["nion/utils/Geometry.py: IntRect.inset, FloatRect.inset, inset_rect"]}
{"id": "C93", "title": "Equality of points", "statement": "For points, != is the opposite of ==, and == is symmetric and says that the coordinates are equal, also between integer and float points.", "quantifier": "all integer and float points", "why_tests_cant": "infinite domain; violated: IntPoint(1, 1) == FloatPoint(1.5, 1.75) is true and the reverse is false", "anchors": ["nion/utils/Geometry.py: IntPoint.__eq__, FloatPoint.__eq__, __ne__"]}
{"id": "C94", "title": "Integer rectangles as float rectangles", "statement": "to_float_rect keeps the corners, is injective, and commutes with intersection, union, translation, insets and intersects_rect.", "quantifier": "all integer rectangles, points and amounts, in exact arithmetic", "why_tests_cant": "infinite domain", "anchors": ["nion/utils/Geometry.py: IntRect.to_float_rect"]}
{"id": "C95", "title": "Containment of float points in integer rectangles", "statement": "IntRect.contains_point(p) = IntRect.to_float_rect().contains_point(p) for every point p.", "quantifier": "all integer rectangles and integer or float points", "why_tests_cant": "infinite domain; violated for points with a negative fractional coordinate, which int() moves towards zero", "anchors": ["nion/utils/Geometry.py: IntRect.contains_point, IntPoint.make"]}
{"id": "C96", "title": "Slices of integer rectangles", "statement": "Indexing an array with IntRect.slice selects exactly the positions that the rectangle contains.", "quantifier": "all rectangles, array sizes and positions", "why_tests_cant": "infinite domain; violated for rectangles partly above or left of zero", "anchors": ["nion/utils/Geometry.py: IntRect.slice"]}
{"id": "C97", "title": "Log ticker display limits enclose the data", "statement": "LogTicker.minimum is at or below and LogTicker.maximum at or above the given limits.", "quantifier": "all limits low <= high, tick counts and bases, in exact arithmetic", "why_tests_cant": "infinite domain; violated for 0.97 to 4.02 (maximum 4) and for equal limits 1.5 (maximum 1, minimum 1.505)", "anchors": ["nion/utils/Geometry.py: LogTicker"]}
{"id": "C98", "title": "Log ticker labels distinguish ticks", "statement": "Different ticks of a LogTicker have different labels.", "quantifier": "all limits, tick counts and bases, in exact arithmetic", "why_tests_cant": "infinite domain; violated in base 16, where the ticks for 10 and 11 are both labelled 1e+01", "anchors": ["nion/utils/Geometry.py: LogTicker.value_label"]}
{"id": "C99", "title": "Units after a number do not matter", "statement": "PhysicalValueToStringConverter(units, multiplier).convert_back(number + ' ' + any text) is the number divided by the multiplier, whatever the text, even if it looks like an exponent or digits.", "quantifier": "every decimal number text, every text after it, every multiplier that is not zero", "why_tests_cant": "infinite domain of texts", "anchors": ["nion/utils/Converter.py: PhysicalValueToStringConverter.convert_back"]}
{"id": "C100", "title": "Scaled integer round trip in double arithmetic", "statement": "FloatToScaledIntegerConverter(n).convert(convert_back(i)) = i for the default limits 0 and 1 in floating point arithmetic, as a slider relies on.", "quantifier": "every n and i in 0..n", "why_tests_cant": "violated for 29 of 100; which integers are affected depends on rounding; for others the result is off by at most one", "anchors": ["nion/utils/Converter.py: FloatToScaledIntegerConverter"]}
{"id": "C101", "title": "Events used from several threads", "statement": "When threads listen, close, drop tokens and fire the same event concurrently, each fire calls listeners in the order in which they were attached and none of them twice; a fire that runs to its end has called exactly once every listener that was attached before the fire began and was neither closed nor dropped until the fire ended; a listener attached after the fire has copied the list is not called by it; a closed listener is not called by any fire that begins after close returned; a dropped token that no running fire holds is never called again. After close has returned, the listener is not called at all.", "quantifier": "every interleaving of the atomic steps of any number of threads, any number of fires in progress, every listener behaviour", "why_tests_cant": "interleavings cannot be enumerated or forced by a test; the last sentence is false: a fire which has read the function before close calls it after close has returned", "anchors": ["nion/utils/Event.py: Event.listen", "nion/utils/Event.py: Event.fire", "nion/utils/Event.py: Event.fire_any", "nion/utils/Event.py: Event.fire_all", "nion/utils/Event.py: EventListener.close"]}
{"id": "C102", "title": "An array field works as a list", "statement": "The value of an array field of a record is a mutable sequence: len, subscript, del, insert, append, extend, +=, pop, remove, clear, reverse, index with start and stop, count, in, iteration, reversed and assignment by subscript give the results and exceptions they give for a Python list with the same items, and leave the same items; each change is notified so that an observer can replay it; a call that raises changes and notifies nothing.", "quantifier": "every list of items, every history of calls with any integer subscripts", "why_tests_cant": "unbounded histories and indexes; false for assignment by subscript, in, and reverse, which raise, and for extending a field by itself, which never ends", "anchors": ["nion/utils/StructuredModel.py: ItemsSequence", "nion/utils/StructuredModel.py: ArrayModel.field_value"]}
{"id": "C103", "title": "Record fields as attributes", "statement": "After any history of assignments, reading a field of a record as an attribute gives the value assigned last; the dict of the record has the same value, or no entry if it is None; each assignment that changes a field is notified once under the name of the field until the record is closed, others are not; the model of a field is the attribute with _model after its name.", "quantifier": "every schema, every history of assignments to any names", "why_tests_cant": "unbounded histories and names; false for array and record fields, where the assignment hides the field, and for fields named like an attribute of records, which cannot be read", "anchors": ["nion/utils/StructuredModel.py: RecordModel.__getattr__", "nion/utils/StructuredModel.py: RecordModel.__setattr__", "nion/utils/StructuredModel.py: RecordModel.close"]}
{"id": "C104", "title": "Deep copies of persistent objects", "statement": "copy.deepcopy of a persistent object gives a new object of the same class with equal property values, copies of the items and of the objects in the relationships in the same order; all objects of the copy are new, contained objects have the object of the copy that contains them as parent, and the copy itself has none.", "quantifier": "every tree of objects, property values and classes", "why_tests_cant": "all object trees; violated for a class with a hidden item (AttributeError) and for values which the validator would change (defaults are not validated, copies are)", "anchors": ["nion/utils/Persistence.py: PersistentObject.__deepcopy__/deepcopy_from/__getattr__, PersistentProperty.set_value"]}
{"id": "C105", "title": "Changes go to the nearest storage", "statement": "A change of an object is passed on to the storage set for the nearest among the object and the objects which contain it, and to no other; with none set an AttributeError is raised. An object put into a container belongs, with everything it contains, to the container's storage.", "quantifier": "every forest of objects reached by any history of operations, every table of storages", "why_tests_cant": "all forests and histories; violated for an item which has been replaced (still goes to the former container's storage) and when the container has been collected (TypeError)", "anchors": ["nion/utils/Persistence.py: PersistentObjectContext._set_persistent_storage_for_object/_get_persistent_storage_for_object/property_changed/item_inserted"]}
{"id": "C106", "title": "Accessors find the dict of a contained object", "statement": "The accessors given by get_accessor_in_parent along the way from an object to one it contains, applied to what the outer object writes, give exactly what the inner object writes, from which it can be read back.", "quantifier": "every tree of objects and every path in it", "why_tests_cant": "all trees; violated for a relationship with a separate storage key (KeyError)", "anchors": ["nion/utils/Persistence.py: PersistentObject.get_accessor_in_parent/write_to_dict"]}
{"id": "C107", "title": "A task queue shared by threads", "statement": "With any number of threads putting, performing and clearing tasks: tasks are taken in the order they were put; no task is called twice, none after it was cleared; perform_tasks takes no more tasks than were in the queue when it was called, and when it returns every task put before has been completed; join returns once every task has been taken and has ended.", "quantifier": "every schedule of any number of threads, tasks that call perform_tasks or put tasks, tasks that raise", "why_tests_cant": "unbounded schedules; the last two parts are violated: a task put before may still be running in another thread, and a task that raises is never counted as done, so join waits for ever", "anchors": ["nion/utils/Process.py: TaskQueue.perform_tasks/clear_tasks"]}
{"id": "C108", "title": "A promise shared by threads", "statement": "However many threads read the value of a promise, its function returns at most once, is not called after it has returned, and every read gives what it returned; opt_value gives that value or None.", "quantifier": "every schedule of any number of threads, functions that raise or read the promise themselves", "why_tests_cant": "unbounded schedules; violated for a function that reads its own promise", "anchors": ["nion/utils/Promise.py: Promise.value/opt_value"]}
{"id": "C109", "title": "Listeners that assign the stream they listen to", "statement": "Whatever values the listeners of a value stream assign to it while they are called, when an assignment returns every listener has received all values the stream has taken, once each and in order, and a map stream over it has the function of its value.", "quantifier": "all listeners (reactions may depend on a memory), all sequences of assignments, every depth of nesting", "why_tests_cant": "unbounded nesting and reactions; violated for listeners added after one that assigns: they receive the new value before the old one and are left with the old one", "anchors": ["nion/utils/Stream.py: ValueStream.value, MapStream", "nion/utils/Event.py: Event.fire"]}
{"id": "C110", "title": "A reference counted object shared by threads", "statement": "With any number of threads adding and removing references, and an about_to_delete that does so too: ref_count is at any time the number of add_ref calls that took effect minus that of remove_ref calls; no call is lost; about_to_delete is called at most once, exactly at the first checked removal that leaves no reference; a removal fails exactly at zero references, so never if references are only removed after they have been added; no deadlock.", "quantifier": "every schedule of any number of threads, every about_to_delete", "why_tests_cant": "unbounded schedules; the count is a read and a write which only the lock keeps together", "anchors": ["nion/utils/ReferenceCounting.py: ReferenceCounted"]}
{"id": "C111", "title": "Arithmetic of integer sizes", "statement": "Integer sizes add, subtract and negate like vectors; a size times an integer has the products as its sides; size // n has the floor quotients as its sides; (size * n) // n is the size.", "quantifier": "all sizes, all integers, in double precision", "why_tests_cant": "all integers; the products and quotients are computed with floats: violated for negative sizes (truncated towards zero) and beyond 2^53", "anchors": ["nion/utils/Geometry.py: IntSize.__mul__, IntSize.__floordiv__, IntSize.__add__, IntRect.center"]}
{"id": "C112", "title": "List models on top of list models", "statement": "When a filtered list model is the container of another one, that of a third, and so on, each model with no change block open has exactly the items of the model below that its filter accepts, sorted by its key if it has one; with no change block open anywhere the last model has exactly the source items accepted by all filters, and without sort keys in the source's order. A mapped list model attached to any of them has one mapped item per item, in the same order.", "quantifier": "chains of any length; every history of source changes, filter, key and direction changes at any model, change blocks, and models added at the end; item contents do not change; for the order of unsorted models, change blocks only at the first model", "why_tests_cant": "unbounded chains and histories; a full replacement at a lower model removes the last item while naming the first, so upper models pass through wrong states that must cancel out", "anchors": ["nion/utils/ListModel.py: FilteredListModel.container, FilteredListModel.items, FilteredListModel.filter, FilteredListModel.sort_key, MappedListModel.container"]}
{"id": "C113", "title": "Replaying a recording of nested objects", "statement": "Record an object that contains objects, which contain objects, to any depth. After any history of setting recordable properties, appending objects and removing last objects anywhere in the tree, applying the recording to an object that was equal to the recorded one when recording began does not raise and makes it equal to the recorded one at every place of the tree.", "quantifier": "all trees of any depth and number of relationships, all histories of such changes anywhere in the tree, all equal objects", "why_tests_cant": "the logged functions are run later, against the final content of the recorded objects; whether this matters depends on the whole rest of the history and the place of the change, in unboundedly deep trees", "anchors": ["nion/utils/Recorder.py:14-59", "nion/utils/Recorder.py:69-74", "nion/utils/Recorder.py:89-103"]}
{"id": "C114", "title": "A task set shared by threads", "statement": "When several threads add, clear and perform tasks of one task set, no task is called twice; the task in the set for a key is the one added last; a call of perform_tasks that returns has called everything that was in the set when it began, in order; a task is not called after clear_task for its key has returned, or after a task that was added later for the same key.", "quantifier": "all schedules of any number of threads, tasks that add, clear, perform or raise, all keys", "why_tests_cant": "depends on the interleaving of threads between the lock and the calls of the tasks; a test sees a few schedules", "anchors": ["nion/utils/Process.py:49-65"]}
{"id": "C115", "title": "A filtered list model used by several threads", "statement": "When threads change the source, set the filter and open and close change blocks of a filtered list model at the same time, then as soon as no call is in progress and every opened change block is closed the model has exactly the source items its filter accepts; while a block is open nothing is shown.", "quantifier": "all schedules of any number of threads, all source items and filters, any nesting and overlap of change blocks", "why_tests_cant": "lost updates depend on the interleaving of single reads and writes of threads, which a test cannot enumerate", "anchors": ["nion/utils/ListModel.py:274-283", "nion/utils/ListModel.py:333-345", "nion/utils/ListModel.py:469-546", "nion/utils/ListModel.py:611-640"]}
{"id": "C116", "title": "Going over the components of a type while the registry is changed", "statement": "A loop over get_components_by_type(t), or the announcement of the existing components by fire_existing_component_registered_events(t) to listeners, reaches every component registered for t when it began exactly once and does not raise, whatever the loop or the listeners register and unregister.", "quantifier": "all registry states, all iteration orders of sets, all loop bodies and listeners that call the registry", "why_tests_cant": "depends on what bodies and listeners do with the registry at every point of the loop, and on the iteration order of sets", "anchors": ["nion/utils/Registry.py:50-51", "nion/utils/Registry.py:53-71", "nion/utils/Registry.py:120-122"]}
{"id": "C117", "title": "Closing an event loop", "statement": "close_event_loop returns, provided the tasks of the loop end and what they wait for happens; everything that was scheduled when it was called has then been run, and every task of the loop has finished.", "quantifier": "all event loops with any number of tasks and callbacks, which pause, wait, finish and create further tasks in any way, all orders in which waiting ends", "why_tests_cant": "whether tasks are left behind depends on when they are created relative to the end of others, over unboundedly many turns of the loop", "anchors": ["nion/utils/Process.py:68-91"]}
{"id": "C118", "title": "Combined streams whose inputs are assigned by several threads", "statement": "When threads assign the values of value streams that a CombineLatestStream listens to, then, once all assignments have returned, the value of the combined stream is the function of the current values of the inputs, and that is what its listeners were told last; every value it ever shows or tells is the function of values its inputs had.", "quantifier": "any number of input streams and threads, all values and functions, all interleavings of the threads", "why_tests_cant": "the outcome depends on where threads are interrupted between reading, computing, keeping and telling; a test sees a few schedules", "anchors": ["nion/utils/Stream.py:42-59", "nion/utils/Stream.py:98-139"]}
{"id": "C119", "title": "Observers that change the list they observe", "statement": "If an observer of a list model inserts or removes items while it is being notified, every observer is still told each change exactly once, and an observer's copy, kept with the notifications, is the list whenever the observer is notified and when the calls have returned.", "quantifier": "all lists, any number of observers with any (terminating) reactions, any calls with any indexes, nested to any depth", "why_tests_cant": "which observers fall out of step depends on the order in which they were added and on how reactions nest; tests try one arrangement", "anchors": ["nion/utils/ListModel.py:35-42", "nion/utils/Observable.py:38-42", "nion/utils/Event.py: Event.fire"]}
{"id": "C120", "title": "Reading a dict into an object that has content", "statement": "Reading what an object wrote into another object of its class, which may have content already (for instance when the dict is read a second time), makes it the object that was written: the same uuid, values, items and related objects; it is registered under the uuid read and no longer under the old.", "quantifier": "every tree of objects written, every object of the class it is read into, every state of the context", "why_tests_cant": "tests read into new objects; here the object read into is any object", "anchors": ["nion/utils/Persistence.py:501-550", "nion/utils/Persistence.py:63-75", "nion/utils/Persistence.py:178-206"]}
{"id": "C121", "title": "Properties, items and relationships as attributes", "statement": "obj.name reads as the value last assigned to the property of that name (validated), as the item last set, or as the list of objects inserted and not removed; assigning to a read-only property raises AttributeError and changes nothing; assigning to the name of an item or a relationship raises or sets it, so that what is read is always what is stored and written.", "quantifier": "every object with any definitions, any names, every history of assignments, set_item, insert_item, remove_item and definitions", "why_tests_cant": "the interplay of Python's own attributes with __getattr__ and __setattr__ over arbitrary names and histories", "anchors": ["nion/utils/Persistence.py:633-661", "nion/utils/Persistence.py:616-621", "nion/utils/Persistence.py:679-731"]}
{"id": "C122", "title": "Property values do not change behind the object's back", "statement": "The value of a persistent property is what the value was when it was assigned (or read from a dict), whatever the program does later to the object it assigned or to objects it got by reading the property or writing the dict; and setting, reading or writing the property does not change objects the program holds.", "quantifier": "every history of assignments, reads, dicts written and read, and changes of nested mutable objects, every sharing between them", "why_tests_cant": "aliasing: all ways in which nested objects can be shared between the program and the property", "anchors": ["nion/utils/Persistence.py:46-94", "nion/utils/Persistence.py:96-108"]}
{"id": "C123", "title": "Replacing the container during a change block", "statement": "A mapped list model whose container is another list model fires begin and end events so that exactly one begin event is open while a change block of its own or of its present container is open, and none otherwise, whatever containers are set, replaced or removed and whenever; its items are always the mapped items of the present container.", "quantifier": "for all numbers of containers, all histories of changes and change blocks of the containers, replacements of the container, and change blocks of the model", "why_tests_cant": "it depends on how the replacements interleave with the blocks of several models; the tests replace containers only between blocks", "anchors": ["nion/utils/ListModel.py:671-682", "nion/utils/ListModel.py:724-758"]}
{"id": "C124", "title": "Tuple binding with a negative index", "statement": "A TuplePropertyBinding with a negative index is bound to the element counted from the end: update_source writes that element, keeps all others and the length, get_target_value returns its conversion, and the target is told on every change; if the tuple is None or too short for the index, the fallback is shown as it is for an index that is too large.", "quantifier": "every tuple, index of either sign, value, converter and fallback", "why_tests_cant": "all indexes and lengths; violated for negative indexes before the start of the tuple, which raise IndexError inside the change event, where it is swallowed", "anchors": ["nion/utils/Binding.py:313-364", "nion/utils/Event.py:113-114"]}
{"id": "C125", "title": "Log ticker tick count", "statement": "A LogTicker asked for n ticks gives at least two and at most 2n+1 ticks that are not minor ticks, at most 4n plus four times the base ticks in all, and leaves out no decade between the limits if 2n is at least the number of decades plus three.", "quantifier": "all limits, tick counts and bases, in exact arithmetic", "why_tests_cant": "infinite domain; the number of decades is computed with divisions, floors and a loop", "anchors": ["nion/utils/Geometry.py: LogTicker"]}
{"id": "C126", "title": "Filters that raise", "statement": "If the filter of a FilteredListModel raises for some items, the call that made it raise changes no listed item and sends no insert or remove notification, an observer's copy stays exact and begin/end of changes stay balanced; and outside change blocks, assigning a filter that raises for no source item makes the list again exactly the accepted source items, in the order the sort key asks for, with the selections on their items.", "quantifier": "all histories of container, content, filter, sorting and change block events, all filters raising for any set of contents", "why_tests_cant": "all histories and all places where the filter can raise", "anchors": ["nion/utils/ListModel.py: FilteredListModel", "nion/utils/Event.py: Event.fire"]}
{"id": "C127", "title": "Flattened list with threads", "statement": "If several threads insert and remove children of the master items of a FlattenedListModel, then whenever no notification is under way the items are the children of the master items in order, and the notifications sent replay to them.", "quantifier": "all schedules of any number of threads, all master items and child lists", "why_tests_cant": "depends on the interleaving of threads", "anchors": ["nion/utils/ListModel.py: FlattenedListModel"]}
{"id": "C128", "title": "Custom readers and writers", "statement": "For a persistent property with a custom reader and writer: after any sequence of assignments the object's storage has, for every key the property may write, exactly what its writer writes for the current value; reading the property back from the storage or from the dict of write_to_dict gives the current value.", "quantifier": "all readers and writers that invert each other, all values and sequences of assignments, any number of properties", "why_tests_cant": "a test fixes one writer and one sequence of values; the claim is about every writer and every pair of old and new values", "anchors": ["nion/utils/Persistence.py: PersistentProperty.read_from_dict, write_to_dict; PersistentObject.write_to_dict, _update_persistent_object_context_property"]}
{"id": "C129", "title": "Registry listeners that call the registry", "statement": "If listeners of the component registered and unregistered events register and unregister components while they are being told of a change, every listener is still told each change exactly once, and a listener's copy of the registry, kept with what it is told, is the registry while the listener runs and when the calls have returned.", "quantifier": "any number of listeners, all calls made by the program and by listeners in any nesting", "why_tests_cant": "depends on the nesting of calls and on the order of the listeners; all nestings are covered", "anchors": ["nion/utils/Registry.py: ComponentManager.register, unregister", "nion/utils/Event.py: Event.fire"]}
{"id": "C130", "title": "Dispatcher keeps the minimum interval", "statement": "However often a ThreadDispatcher is triggered, by however many threads, its function is never started sooner than the minimum interval after the end of an earlier run, so at most k times in any span of k intervals; and once the interval has elapsed a pending trigger is served promptly.", "quantifier": "all intervals, schedules and passings of time", "why_tests_cant": "timing and interleaving: a test sees a few real schedules; the claim is about every interleaving and every moment", "anchors": ["nion/utils/ThreadPool.py: ThreadDispatcher.__process, trigger"]}
{"id": "C131", "title": "Displayed floats, entered unchanged", "statement": "The text of FloatToStringConverter().convert(v) is read back, in any locale, as the number of at most six significant digits nearest to v (so v comes back exactly if and only if it has at most six significant digits, the relative error is at most 5/10^6, and the order of values is kept). Entering the text unchanged displays the same text, also with PhysicalValueToStringConverter for every multiplier and all units, where the value changes by at most 6/10^6 of it. What is not finite is read as 0.0.", "quantifier": "every finite float, every locale, every multiplier that is not zero, every units text", "why_tests_cant": "all floats, all exponents; rounding up to the next power of ten changes exponent and layout; double rounding in multiplication and division", "anchors": ["nion/utils/Converter.py: FloatToStringConverter.convert, convert_back", "nion/utils/Converter.py: PhysicalValueToStringConverter.convert, convert_back"]}
{"id": "C132", "title": "Reading begins and finishes once for each object", "statement": "When an object is read (begin_reading, read_from_dict, finish_reading), each object that is created is told begin_reading, then announced to its container (item_changed or insert callback) complete and, with everything in it, still marked as reading, then told finish_reading, each exactly once; containers are told finish_reading after what they contain, and at the end nothing in the tree is marked as reading. Objects are told finish_reading only after begin_reading, also if reading is repeated or raises.", "quantifier": "every dict, every tree of classes, every content before", "why_tests_cant": "unbounded trees; violated for content that was there before (finish_reading without begin_reading) and when a factory finds no object (the objects stay marked)", "anchors": ["nion/utils/Persistence.py: PersistentObject.begin_reading, read_from_dict, finish_reading", "nion/utils/Persistence.py: PersistentObject.__set_item, __insert_item"]}
{"id": "C133", "title": "Float rectangles in double precision", "statement": "With float arithmetic as computers do it (each result rounded to the nearest double): a point that contains_point accepts lies in the exact rectangle, and a point of the exact rectangle is accepted unless it is exactly on the rounded right or bottom side; intersects_rect is true for every two rectangles that share a point; the centre never lies outside the sides; from_tlbr keeps top and left exactly and bottom and right up to a relative error of 2^-51, exactly when the rectangle is no larger than its distance from zero; intersect and union have the right points except within that error of a right or bottom side; and when all coordinates are multiples of a power of two of moderate size (pixels, half pixels), every operation gives the exact result, so that intersection and union have exactly the points they should.", "quantifier": "for all rectangles and points of doubles (no overflow); for all rectangles and points on a dyadic grid", "why_tests_cant": "Rounding depends on the exact bits of every coordinate; tests use a few round numbers for which nothing is rounded.", "anchors": ["nion/utils/Geometry.py:869-1061"]}
{"id": "C134", "title": "Pretty numbers and ranges in double precision", "statement": "With float arithmetic and a logarithm rounded to the nearest double, make_pretty of a number that is not zero is not zero: it is 1, 2, 5 or 10 times a power of ten up to rounding, with the sign of the number, not below it (without rounding), at most 5/2 of it; and make_pretty_range2 of two different values covers both values and has evenly spaced ticks from its minimum to its maximum, up to rounding; if one value is below zero and one above, one tick is exactly zero.", "quantifier": "every pair of doubles and tick count >= 2, every correctly rounded log10", "why_tests_cant": "infinite domain; the rounding of the logarithm matters only for numbers next to a power of ten; violated for differences just under 0.1, 0.01, ...: the range for data from 0.2 to 0.3 is 0 to 0 with the single tick 0", "anchors": ["nion/utils/Geometry.py:20-119"]}
{"id": "C135", "title": "Labels of a linear ticker in double precision", "statement": "With float arithmetic, the labels of a LinearTicker read as consecutive multiples of exactly 1, 2, 5 or 10 times a power of ten, each tick value is next to what its label says, no two ticks have the same label, and no label is -0.", "quantifier": "every pair of doubles and tick count >= 2, every correctly rounded log10", "why_tests_cant": "needs error bounds for all doubles; violated where make_pretty_range2 collapses (0.2 to 0.3 has the single label 0) and for negative values with large or small factors", "anchors": ["nion/utils/Geometry.py: LinearTicker", "nion/utils/Geometry.py: make_pretty_range2"]}
{"id": "C136", "title": "Stored modification times are read back", "statement": "When an object is read from a dict whose `modified` entry is the ISO text of a time (`isoformat()`, as a storage writes it), its `modified` time afterwards is exactly that time, to the microsecond; exactly the texts with the numbers of an existing time from the year on, at least to the day, with any single characters between them, are accepted, and any other text (also one with a time zone) raises. (False of texts with fewer than six digits after the seconds, which are taken as a number of microseconds, and of objects written with `write_to_dict` and read back, as the time is not written.)", "quantifier": "all existing dates and times; all texts; all classes and objects", "why_tests_cant": "A test reads a few texts; which texts are accepted, and that every one of the times comes back, is a statement about all of them.", "anchors": ["nion/utils/Persistence.py:501-509", "nion/utils/Persistence.py:562-580"]}
{"id": "C137", "title": "Sort keys that raise", "statement": "If the sort key of a filtered list model raises for an item, or gives a key that cannot be compared (such as None), observers still see a consistent list: applying the insert and remove notifications by index gives the model's items at every notification and after every event, and begin and end of changes stay balanced. An event in which it raises (other than assigning a container or changing the content of an item) changes no item and no selection; if the content of an item changes, at most that item leaves the list. Assigning a sort key that works for all items of the source makes the list right again. (False: a listed item can be lost when its content changes, because another item has a raising key; an insertion that raises leaves selections behind; items with keys that cannot be compared block each other.)", "quantifier": "all contents, filters, sort keys (with any sets of contents that raise or cannot be compared), histories of the source, the settings, change blocks and selections, all set iteration orders", "why_tests_cant": "Which items the binary search meets depends on the whole list; the effect of an exception in the middle of an update has to be right for every position and every history.", "anchors": ["nion/utils/ListModel.py:363-373", "nion/utils/ListModel.py:385-466", "nion/utils/ListModel.py:469-546"]}
{"id": "C138", "title": "Log tickers for the whole range of floats", "statement": "For limits that are exponents of floats, a log ticker does not raise and every tick position is a finite number. Exactly, for base 10 and whole decades: it raises just if one of its decades is below -323 or above 308, and its ticks are all finite just if the decades are from -323 to 308, and to 307 if there are minor ticks. (False in general: since the decades go on past the upper limit by up to one step, data from 1 to 1e306 make it raise, and limits 306 to 307.5 give a tick at infinity.)", "quantifier": "all limits, numbers of ticks (at least one), for base 10", "why_tests_cant": "The last decade depends on the limits and the number of ticks together; no sample shows for which limits it is too large.", "anchors": ["nion/utils/Geometry.py:207-249"]}
{"id": "C139", "title": "A point minus a rectangle", "statement": "p - r holds exactly the points p - q for the points q of r, keeps the size, and p - (p - r) = r; p + r holds the points p + q; moving r or p moves the result accordingly.", "quantifier": "all integer and float points and rectangles", "why_tests_cant": "infinite domain; one row or column off for even integer sizes", "anchors": ["nion/utils/Geometry.py: IntPoint.__add__/__sub__, FloatPoint.__add__/__sub__"]}
{"id": "C140", "title": "Mapping between rectangles in double precision", "statement": "map_point maps the corners of the first rectangle exactly to those of the second, keeps the order of points, maps points inside to points inside, and otherwise is the exact mapping up to rounding; map_rect maps a rectangle to the rectangle it is mapped between; mapping back gives the point.", "quantifier": "all points and rectangles of doubles", "why_tests_cant": "rounding errors show only for some values; exactness and monotonicity are claims about all doubles", "anchors": ["nion/utils/Geometry.py: map_point, map_size, map_rect"]}
{"id": "C141", "title": "Fitting to an aspect ratio in double precision", "statement": "fit_to_aspect_ratio gives a rectangle inside the given one, with the full height or the full width, and with the aspect ratio asked for up to rounding.", "quantifier": "all rectangles and aspect ratios of positive doubles", "why_tests_cant": "leaving the rectangle by one rounding error happens for some values only", "anchors": ["nion/utils/Geometry.py: fit_to_aspect_ratio"]}
{"id": "C142", "title": "Logarithmic ticks in double precision", "statement": "When LogTicker computes with doubles (base 10, no zoom into a fraction of a decade), every tick position is strictly larger than the one before by at least a thirtieth of a decade, lies within (|exponent|+3)/2^50 of the exact place of digit times power of ten, its label is exactly that digit and exponent, no two labels are equal, the minor ticks are exactly those whose label does not say one, and the ticks reach from the lower to the upper limit up to 1/2^40. They do not reach the upper limit exactly: the last tick for 1 to 1000 is below 1000.", "quantifier": "for all finite double limits whose decades stay within 10^300, all numbers of ticks, and all implementations of pow and log that are right to one unit in the last place", "why_tests_cant": "positions go through pow, a product, two logarithms and a division, each rounded, and the library functions are only known up to their accuracy; a test sees the rounding of one platform at some limits", "anchors": ["nion/utils/Geometry.py:193-261"]}
{"id": "C143", "title": "Values set from several threads", "statement": "When threads set the value of one PropertyModel that a PropertyBinding shows, the target is never shown a value older than the assignment that causes the call; when all threads are done, the final value has been shown and has been handed to on_value_changed after it was assigned, and the target still shows it.", "quantifier": "all numbers of threads, all values, all interleavings of the reads, assignments and calls", "why_tests_cant": "The order of the steps of threads is not under the control of a test; the number of interleavings has no bound.", "anchors": ["nion/utils/Model.py:43-54", "nion/utils/Binding.py:238-245"]}
{"id": "C144", "title": "Elements of a tuple updated from several threads", "statement": "When threads call update_source of TuplePropertyBindings of one property, each element of the tuple is the initial one or a value given for this index, elements nobody updates stay, and when all are done each element is the last value given for it.", "quantifier": "all tuples, indexes (not negative), values, numbers of threads, all interleavings of reads and assignments of the property", "why_tests_cant": "The documentation says thread safe; a lost update shows only in particular interleavings.", "anchors": ["nion/utils/Binding.py:105-114", "nion/utils/Binding.py:348-354"]}
{"id": "C145", "title": "The index that a selection call names is selected", "statement": "With any selection style but none, index i is selected after set(i), after add(i) and after extend(i).", "quantifier": "all selections, styles, indexes, iteration orders of sets", "why_tests_cant": "It depends on where the anchor was left by the calls before; a test covers some histories.", "anchors": ["nion/utils/Selection.py:88-119", "nion/utils/Selection.py:138-176"]}
{"id": "C146", "title": "A set read from indexes is a snapshot", "statement": "The set that the property indexes of an IndexedSelection returns keeps the indexes that were selected when it was read, whatever is called later; changing a set passed to set_multiple, or one read before, does not change the selection.", "quantifier": "all selections, styles, sequences of calls, sets made, read, passed and changed by clients", "why_tests_cant": "Aliasing shows only for some sequences of calls: some replace the set object and some work on it.", "anchors": ["nion/utils/Selection.py:63-65", "nion/utils/Selection.py:77-209"]}
{"id": "C147", "title": "Rotation in double precision", "statement": "With floats, rotating a point keeps its place to within a few units of the last place of the numbers involved, keeps the origin exactly, keeps distances and is undone by the opposite rotation to the same precision; rotating by zero changes nothing.", "quantifier": "all float points, origins and sizes, all angles, every cosine and sine within one unit of the last place", "why_tests_cant": "Rounding errors depend on all bits of five numbers; tests compare a few points with a tolerance.", "anchors": ["nion/utils/Geometry.py:759-767", "nion/utils/Geometry.py:859-866"]}
{"id": "C148", "title": "Distance and midpoint for all floats", "statement": "For every two float points distance returns a finite float that is zero only if the points are equal, does not depend on their order and is within a few units of the last place of the exact distance; midpoint returns a float between them.", "quantifier": "all finite float points, including very small and very large ones", "why_tests_cant": "Tests use moderate numbers; overflow and underflow happen only at extreme magnitudes and rounding depends on all bits.", "anchors": ["nion/utils/Geometry.py:289-291", "nion/utils/Geometry.py:294-296"]}
{"id": "C149", "title": "A logarithmic axis has a tick among the data", "statement": "Between two different limits of a LogTicker, low < high, there is always at least one tick.", "quantifier": "all limits low < high, in exact arithmetic; the exact characterisation for the default of five ticks and base ten", "why_tests_cant": "infinite domain; the gap is a band of limits less than 0.0011 wide between 0.3 and log10(2)", "anchors": ["nion/utils/Geometry.py: LogTicker"]}
{"id": "C150", "title": "Path string round trip", "statement": "PathToStringConverter.convert_back(convert(p)) = p for every path and None, so different paths are different strings; convert_back(s) of a non-empty string goes through the names of s from the same root; converting a string back and again gives another spelling of the same path which no longer changes.", "quantifier": "every POSIX path, every string", "why_tests_cant": "infinite domain; strings with repeated, leading and trailing slashes and dots", "anchors": ["nion/utils/Converter.py: PathToStringConverter"]}
{"id": "C151", "title": "None passes through converters that allow it", "statement": "FloatToStringConverter and PhysicalValueToStringConverter created with pass_none convert None and the empty string back to None, and nothing else.", "quantifier": "every locale, multiplier and string", "why_tests_cant": "all strings and locales; the converter of physical values ignores its options in one direction only", "anchors": ["nion/utils/Converter.py: FloatToStringConverter.convert_back, PhysicalValueToStringConverter.convert_back"]}
{"id": "C152", "title": "Fuzzy and strict parsing agree", "statement": "A text that FloatToStringConverter(fuzzy=False) accepts is read as the same number by FloatToStringConverter().", "quantifier": "every locale and string", "why_tests_cant": "all strings and locales", "anchors": ["nion/utils/Converter.py: FloatToStringConverter.convert_back"]}
{"id": "C153", "title": "A stream function that raises affects only its own stream", "statement": "If the function of one MapStream raises for a value, every other MapStream made on the same stream, and the streams on top of those, still take the values their functions give.", "quantifier": "every tree of map streams on a value stream, all functions, every history of assignments", "why_tests_cant": "all shapes of networks, all orders in which streams are made, all histories of values with and without exceptions", "anchors": ["nion/utils/Stream.py: MapStream, ValueStream.value", "nion/utils/Event.py: Event.fire"]}
{"id": "C154", "title": "A model on a stream of values whose comparison raises", "statement": "A StreamValueModel has the value its stream sent last (or one its comparison takes for the same), also if the comparison function, or the default ==, raises for some pairs of values (as it does for arrays); an assignment that raises leaves a PropertyModel unchanged.", "quantifier": "all comparison functions and handlers, raising or not, every history of values", "why_tests_cant": "all comparison functions and histories", "anchors": ["nion/utils/Model.py: PropertyModel.value, StreamValueModel", "nion/utils/Event.py: Event.fire"]}
{"id": "C155", "title": "Floats displayed with fixed digits, entered unchanged", "statement": "With a format {:.0f}, {:.1f}, ... a float is displayed as the nearest number with that many digits after the point; convert_back reads that number, fuzzy or not, in any locale; exactly the floats with that many digits come back; the order is kept; entering the displayed text unchanged displays the same text again, also for -0.00.", "quantifier": "every number of digits, every finite float, every locale with ordinary separators, every set of representable numbers and either choice for ties", "why_tests_cant": "infinite domain: ties between decimal and binary rounding decide, and there a value can be displayed differently after a round trip without being noticed by samples", "anchors": ["nion/utils/Converter.py: FloatToStringConverter.convert, convert_back"]}
{"id": "C156", "title": "A record tells what happens to its arrays", "statement": "A list kept from a record's item_inserted_event and item_removed_event for a field (or from the events of the array model itself) is the array of that field at all times, and an operation on the array that raises has changed nothing.", "quantifier": "every record with array fields, every history of insert, delete and from_dict_value/copy_from calls, all indexes", "why_tests_cant": "all histories; the damage done by one call shows in a later one", "anchors": ["nion/utils/StructuredModel.py: RecordModel.__init__ (handle_array_item_inserted/removed), ArrayModel.from_dict_value, notify_insert_item, notify_remove_item"]}
{"id": "C157", "title": "Mapping functions that raise", "statement": "If map_fn raises for some items, a MappedListModel has the mapped values of the other items, in order.", "quantifier": "every list, every map_fn and unmap_fn, raising or not, every insertion and removal", "why_tests_cant": "all positions of items for which the function raises, all later changes", "anchors": ["nion/utils/ListModel.py: MappedListModel.__master_item_inserted, __master_item_removed", "nion/utils/Event.py: Event.fire"]}
{"id": "C158", "title": "A mapped list whose source is changed by several threads", "statement": "If several threads call insert_item and remove_item of a ListModel, a MappedListModel on it has the values of its items, in order, whenever no call is under way.", "quantifier": "every list, any number of threads and calls, every schedule", "why_tests_cant": "all interleavings", "anchors": ["nion/utils/ListModel.py: ListModel.insert_item, remove_item, MappedListModel.__master_item_inserted, __master_item_removed"]}
{"id": "C159", "title": "Displayed floats over the whole range of double precision", "statement": "A finite double, displayed by FloatToStringConverter with its default format and entered again as it stands, is read as a finite double, never as an infinity and never further from it than a hundred thousandth of its size, and displays the same text. VIOLATED for exactly one size: the double 202403 * 2^-1074 (about 1.000004e-318) displays '1e-318'; entering that text gives its neighbour, which displays '9.99999e-319'. For every other double (normal, subnormal, zero, the greatest) the text is kept.", "quantifier": "for all finite doubles, positive and negative, subnormal ones included, and all locales in which a number can be read", "why_tests_cant": "The single failing size is one of 2^63; a test of random floats, or of the usual edge cases (zero, least, greatest, powers of two), never meets it, and no test shows that there is no other.", "anchors": ["nion/utils/Converter.py:30-52"]}
{"id": "C160", "title": "A value stream that several threads assign", "statement": "If several threads assign the value of a ValueStream, every MapStream on it has the function of its value whenever no assignment is under way; no value is lost: every map stream has been called with the final value.", "quantifier": "for all functions, any number of map streams and threads, all values and every schedule of the steps of the setter (compare, assign, read what is sent, call each listener)", "why_tests_cant": "The order of the steps of two threads is up to the scheduler; a test runs one of them, nearly always one assignment after the other.", "anchors": ["nion/utils/Stream.py:42-89"]}
{"id": "C161", "title": "A concat stream shows the stream of the latest item also when an item comes back", "statement": "A concat stream always has the value of the stream that its function returns for the latest item of the input stream, and follows that stream, also when the function returns the same (mapped) stream again for an item that comes back, and also for items that are false such as 0 or ''. Between items it keeps exactly one reference to the stream of the item and none to any other.", "quantifier": "all items and truth values of items, all functions from items to mapped streams, all initial values, all histories of items, changes of the sources of the streams, references taken and given up by other clients, and closing", "why_tests_cant": "Whether a stream survives depends on the whole history of references held by the concat stream and by every other client; tests use a fresh stream per item and items that are true.", "anchors": ["nion/utils/Stream.py:313-359", "nion/utils/Stream.py:60-92", "nion/utils/ReferenceCounting.py:28-45"]}
{"id": "C162", "title": "The registry can be used by several threads", "statement": "Threads may register, unregister and look up components at the same time: every call has the result it would have in some order of the calls, after all calls each component is found exactly under the types it is registered with, and get_component returns a component registered for the type or None.", "quantifier": "all lists of calls of all threads, all schedules of atomic steps, all orders of iteration", "why_tests_cant": "The failing schedules need a thread switch between two particular lines of a call without lock; tests cannot enumerate the interleavings.", "anchors": ["nion/utils/Registry.py:50-71", "nion/utils/Registry.py:79-98"]}
{"id": "C163", "title": "A closed structured model is silent", "statement": "Closing a structured model never raises, and from then on the model (and whatever contains it) is not told of changes inside it by that model: a change of a model is announced by the model itself and by every model containing it up to the innermost closed one, each once and from the inside to the outside.", "quantifier": "all trees of fields, records and arrays, all histories of closing and changing models", "why_tests_cant": "Which models announce a change depends on the whole path to the root and on everything closed before; the test suite closes no array model.", "anchors": ["nion/utils/StructuredModel.py:162-171", "nion/utils/StructuredModel.py:253-259", "nion/utils/StructuredModel.py:148-155", "nion/utils/StructuredModel.py:246-251"]}
{"id": "C164", "title": "Listeners that call the selection they listen to", "statement": "Whatever calls the listeners of a selection's changed_event make on the same selection while they are being told, after each call made from outside every listener that copies indexes when it is told holds the current indexes, and the selection is what the same calls give when made one after the other in the order in which they were begun.", "quantifier": "all numbers of listeners, all listener behaviours (calls chosen from everything seen so far, or raising), all histories of calls including add_range and assigning selection_style, for every nesting that ends", "why_tests_cant": "nesting depth, interleaving of listeners' calls with the rest of add_range and the listeners' programs are unbounded", "anchors": ["nion/utils/Selection.py:77-177", "nion/utils/Event.py:103-114"]}
{"id": "C165", "title": "Assigning the selection style", "statement": "Whatever style is assigned to selection_style and whenever, the selection never holds more indexes than its style allows: none for Style.none, at most one for Style.single and Style.single_or_none.", "quantifier": "all selections, all histories of calls and assignments of the style", "why_tests_cant": "the styles can be assigned at any point of any history, with any indexes selected", "anchors": ["nion/utils/Selection.py:26-31", "nion/utils/Selection.py:77-205"]}
{"id": "C166", "title": "Bindings closed while the source is telling", "statement": "Several PropertyBindings show the value of one PropertyModel. Whatever their targets do while being updated - closing bindings, assigning the model, calling update_source - after each assignment every open binding has last given its target the conversion of the current value, and the target of a closed binding is never called again.", "quantifier": "all numbers of bindings, converters, comparison functions, all behaviours of targets (actions chosen from everything seen so far, or raising), all histories of actions, for every nesting that ends", "why_tests_cant": "nesting depth, the order of bindings and what each target does are unbounded", "anchors": ["nion/utils/Binding.py:54-64", "nion/utils/Binding.py:99-135", "nion/utils/Binding.py:234-254", "nion/utils/Model.py:43-54", "nion/utils/Event.py:103-114"]}
{"id": "C167", "title": "Replacing the container of a mapped list from a listener", "statement": "Listeners of a list model may assign the container of a mapped list model at any time, also when they are told of a change of its present container: the mapped list model then has the mapped items of its new container, and follows it; its notifications replay to its items.", "quantifier": "all lists, all histories of changes and assignments, by clients and by listeners told before or after the mapped list model", "why_tests_cant": "any change can meet any assignment, and the surplus items that stay show only in longer histories", "anchors": ["nion/utils/ListModel.py:725-790", "nion/utils/ListModel.py:35-42", "nion/utils/Event.py:103-114"]}
{"id": "C168", "title": "Integer rectangles made from float rectangles", "statement": "An IntRect made from a FloatRect (IntRect.make, from_tlbr, from_tlhw, or intersect of an IntRect with a FloatRect) ends where the float rectangle ends, rounded as its corners are: it holds the integer points of the float rectangle. An IntRect converted by to_float_rect and back is the same, and each side is less than two units from that of the float rectangle.", "quantifier": "for all rectangles with coordinates in an ordered field with floor (all rationals and reals), all integer rectangles and all integer points", "why_tests_cant": "Whether the corner is right depends on the fractional parts of origin and size together; a test tries a few coordinates, mostly halves or whole numbers.", "anchors": ["nion/utils/Geometry.py:309-316", "nion/utils/Geometry.py:387-404", "nion/utils/Geometry.py:483-512", "nion/utils/Geometry.py:646-651"]}
{"id": "C169", "title": "Debounce and sample streams keep their period", "statement": "A DebounceStream delivers a value only when its input has been quiet for the period, and then within the period and the lateness of the event loop; deliveries of a DebounceStream and of a SampleStream are at least a period apart; an input of a SampleStream is delivered (or a newer one in its place) within a period and the lateness of the loop and the time a sample takes.", "quantifier": "for all periods and all schedules of inputs, waits, ends of sleeps, listeners that take time, and closing; time in any ordered group (seconds as integers, rationals or reals)", "why_tests_cant": "The order of inputs and expiries in time has no bound; a test waits for a few intervals on a real clock and has to allow for slack.", "anchors": ["nion/utils/Stream.py:142-184", "nion/utils/Stream.py:187-237"]}
{"id": "C170", "title": "Replacing the container of a filtered list from a listener", "statement": "Listeners of a list model may assign the container of a filtered list model at any time, also when they are told of a change of its present container: the filtered list model then has the accepted items of its new container, and follows it.", "quantifier": "all lists of distinct items, all filters, all histories of changes and assignments, by clients and by listeners told before or after the filtered list model", "why_tests_cant": "any change can meet any assignment, and a model that no longer follows any container shows it only later", "anchors": ["nion/utils/ListModel.py:356-420", "nion/utils/ListModel.py:551-640", "nion/utils/Event.py:126-141"]}
{"id": "C171", "title": "Closing a recorder", "statement": "Closing a recorder that is open does not raise, whatever has happened to the recorded object and the objects in it; after that nothing that happens to them is recorded. Until then a change of a property is recorded once for each recorder of its object, if the property is recordable.", "quantifier": "all trees of objects, all histories of events, also ones whose handlers raise, all contents of inserted objects", "why_tests_cant": "a recorder of an object somewhere in the tree that is dropped without being closed goes on recording; this takes a particular history, of which there are infinitely many", "anchors": ["nion/utils/Recorder.py:14-55", "nion/utils/Recorder.py:69-103", "nion/utils/Event.py:126-141"]}
{"id": "C172", "title": "A finished recording stays as it is", "statement": "Changes made to the recorded object, and to the objects in it, after the recorder is closed have no influence on what applying the recording does.", "quantifier": "all trees of objects, recorded histories and later states", "why_tests_cant": "tests apply the recording at once; the influence shows only if something recorded changes between", "anchors": ["nion/utils/Recorder.py:57-59", "nion/utils/Recorder.py:69-74", "nion/utils/Recorder.py:89-95"]}
{"id": "C173", "title": "Functions of combined streams that raise", "statement": "After any history of assignments to its input streams a combined stream has the value of its function for the values of the inputs, unless the function raises for these, also if its function or those of other streams have raised before.", "quantifier": "all numbers of value streams and combined streams with any inputs, also repeated ones, all functions, all histories", "why_tests_cant": "which streams miss a value depends on the order in which they were made and on the values for which functions raise", "anchors": ["nion/utils/Stream.py:98-139", "nion/utils/Stream.py:42-59", "nion/utils/Event.py:103-114"]}
{"id": "C174", "title": "Replacing the container of a flattened list from a listener", "statement": "Listeners of a list model or of its items may assign the container of a flattened list model at any time, also when they are told of a change of its present container or of the children of one of its master items: the flattened list model then has the children of the master items of its new container, and follows them.", "quantifier": "all lists of distinct master items, all child lists, all histories of changes and assignments, by clients and by listeners told before or after the flattened model", "why_tests_cant": "the result depends on the order of the listeners, the place of the change and what the containers have in common", "anchors": ["nion/utils/ListModel.py:831-847", "nion/utils/ListModel.py:860-887", "nion/utils/ListModel.py:889-916", "nion/utils/Event.py:102-113"]}
{"id": "C175", "title": "Scaled integers between any limits, in doubles", "statement": "FloatToScaledIntegerConverter(n, value_min, value_max) in double arithmetic: convert and convert_back are monotone; value_min belongs to 0 and value_max to n in both directions; values between the limits get integers from 0 to n, and these get values between the limits; an integer from 0 to n comes back as itself or as the one before it; a value comes back at most a step below.", "quantifier": "all n up to 2^50, all float limits in order, all floats between them, all integers from 0 to n", "why_tests_cant": "depends on the rounding of four operations for each combination of limits and values", "anchors": ["nion/utils/Converter.py:77-91"]}
{"id": "C176", "title": "Linear axes for the whole range of floats", "statement": "make_pretty and make_pretty_range2 of finite floats, however small, large, close together or far apart, do not raise; they return finite limits around the values, finite ticks, and a division which is not zero unless the values are equal.", "quantifier": "all finite floats including subnormal ones, all numbers of ticks from 2", "why_tests_cant": "the failures are at the very ends of the range of floats, where underflow and overflow of intermediate results matter", "anchors": ["nion/utils/Geometry.py:20-51", "nion/utils/Geometry.py:59-115"]}
{"id": "C177", "title": "Sort keys that cannot all be compared in a filtered list", "statement": "A filtered list whose sort keys are floats, some of which may not be a number, shows exactly the accepted items of its source, tells its observers every change, and shows the items whose keys are numbers in the order of these.", "quantifier": "all histories of source changes, containers, filters, keys, directions and change blocks; all comparison functions; all sorts that permute the list", "why_tests_cant": "where an item goes depends on which others the binary search meets; the search of a list that is out of order can put items anywhere", "anchors": ["nion/utils/ListModel.py:363-373", "nion/utils/ListModel.py:385-406", "nion/utils/ListModel.py:428-490", "nion/utils/ListModel.py:493-546"]}
{"id": "C178", "title": "Property streams while listeners set properties and assign the source", "statement": "After any assignments and property changes, with listeners of the source, of the objects and of the stream that themselves set properties, assign the source and raise, a property stream listens to the object the source has and has the value of this object's property.", "quantifier": "all listeners whose behaviour depends on the whole state, all sources and objects, all sequences of actions, all depths of nesting that end", "why_tests_cant": "a listener that is called while the stream is told of a change can change the property, the source or both again, to any depth; the notifications of outer changes then continue with old arguments", "anchors": ["nion/utils/Stream.py:260-310", "nion/utils/Stream.py:50-60", "nion/utils/Event.py:103-114"]}
{"id": "C179", "title": "Callbacks that change persistent objects", "statement": "When callbacks of properties, items and relationships set properties and items and insert into or remove from relationships, the storage has what the objects have once the outermost call has returned.", "quantifier": "all callbacks whose actions depend on the whole state, raising or catching exceptions or not; all histories of assignments, insertions and removals; all depths of nesting that end", "why_tests_cant": "a callback can change anything, including what is just being changed, and each change calls further callbacks; whether the storage is told before or after the callback differs between properties, items, insertions and removals", "anchors": ["nion/utils/Persistence.py:46-53", "nion/utils/Persistence.py:616-621", "nion/utils/Persistence.py:644-661", "nion/utils/Persistence.py:679-692", "nion/utils/Persistence.py:703-731"]}
{"id": "C180", "title": "Subscribers that subscribe while they are told", "statement": "When subscribers of a persistent object context and listeners of its registration event subscribe, register and unregister while they are called, every subscriber of a uuid is told of each registration and unregistration of the uuid once, new subscribers are told of the object there is, and an unregistration ends the subscriptions made before it.", "quantifier": "all callbacks whose actions depend on the whole state, raising or catching exceptions or not; all uuids, histories of registrations, unregistrations and subscriptions; all depths of nesting that end", "why_tests_cant": "each callback may register and subscribe further objects, of which others are told, and the lists of subscriptions grow while they are gone over; there are infinitely many ways of nesting", "anchors": ["nion/utils/Persistence.py:178-190", "nion/utils/Persistence.py:192-206", "nion/utils/Persistence.py:212-226"]}
{"id": "C181", "title": "Observers of a mapped list model that change its source", "statement": "When observers of a mapped list model, or observers of its source told after it, insert into and remove from the source while they are told, the mapped list model has the mapped items of the source whenever an observer is told and when the calls have returned, and its selection keeps the same items selected. Somebody whom the mapped list model tells first and who keeps a list by the insertions and removals has the items after every call, whatever the others do or raise.", "quantifier": "all lists, functions and selections, all observers whose calls depend on the whole state, raising or not, all depths of nesting that end", "why_tests_cant": "an observer can make any calls at any notification, each of which notifies again; the order in which indexes are moved depends on the nesting", "anchors": ["nion/utils/ListModel.py:35-42", "nion/utils/ListModel.py:768-777", "nion/utils/ListModel.py:780-790", "nion/utils/Event.py:103-114"]}
{"id": "C182", "title": "Observers of a filtered list model that change it or its source", "statement": "When observers of a filtered list model, or observers of its source told after it, insert into and remove from the source, change items, or assign filter and sort key while they are told, the filtered list model has exactly the accepted items of the source, in the order of the source or of the sort key, when the outermost call has returned. Somebody who only listens and keeps lists of their own by the insertions and removals they are told of has the items and the source after every call.", "quantifier": "all lists without repeated items, contents, filters and sort keys; all observers whose acts depend on the whole state, raising or not; all histories and all depths of nesting that end", "why_tests_cant": "an observer can act at any of the events, each act sends further events, and an update or a move of an item sends events while the items are not right yet", "anchors": ["nion/utils/ListModel.py:305-340", "nion/utils/ListModel.py:385-425", "nion/utils/ListModel.py:428-466", "nion/utils/ListModel.py:493-546", "nion/utils/ListModel.py:611-640", "nion/utils/Event.py:103-114"]}
{"id": "C183", "title": "Observers of a flattened list model that change its source or its children", "statement": "When observers of a flattened list model, or observers of its source or of a list of children told after it, insert and remove master items and children while they are told, the flattened list model has the children of all master items, in order, when the outermost call has returned. Somebody who is told first and keeps a list of their own by the insertions and removals has the items after every call, whatever the others do or raise.", "quantifier": "all sources without repeated items and all lists of children; all observers whose acts depend on the whole state, raising or not; all histories and all depths of nesting that end", "why_tests_cant": "an observer can act at any of the events, each act sends further events, and the insertion or removal of a master item with many children sends an event for each child while the others are still to come", "anchors": ["nion/utils/ListModel.py:35-42", "nion/utils/ListModel.py:861-873", "nion/utils/ListModel.py:876-888", "nion/utils/ListModel.py:890-902", "nion/utils/ListModel.py:904-916", "nion/utils/Event.py:103-114"]}
{"id": "C184", "title": "Networks of streams whose listeners assign value streams", "statement": "When listeners of the streams of a network of value, map and combined streams assign value streams while they are told, then, when the outermost assignment has returned, every map stream and combined stream has the function of the current values of its inputs.", "quantifier": "all networks of value, constant, map and combined streams, all functions, all orders of listening; all listeners at all streams whose assignments depend on the whole state, raising or not; all histories and all depths of nesting that end", "why_tests_cant": "whether a stream is left with an old value depends on the order in which streams and listeners were connected, on the shape of the network and on where in a fire the assignment happens", "anchors": ["nion/utils/Stream.py:42-59", "nion/utils/Stream.py:62-95", "nion/utils/Stream.py:98-139", "nion/utils/Event.py:103-114"]}
{"id": "C185", "title": "Change blocks of a filtered list model whose observers act", "statement": "While a change block of a filtered list model is open, its items do not change and no item events are sent, whatever anyone does, including observers of the source and nested blocks; when the outermost block has ended, the items are exactly the accepted items of the source, in the order of the sort key, also when observers insert into and remove from the source, assign filters or open blocks of their own while they are told, and the end of the block does not raise. Where nobody who listens changes anything, lists kept by the insertions and removals that are told of are the items and the source after every call, blocks included.", "quantifier": "all lists without repeated items, filters, sort keys and directions, set iteration orders; all observers whose acts depend on the whole state, with or without blocks, raising or not; all histories, nestings of blocks and depths of nesting that end", "why_tests_cant": "the update at the end of a block computes its sets before it sends events; what goes wrong depends on which event an observer acts at, on the iteration order of a set and on where a binary search looks", "anchors": ["nion/utils/ListModel.py:274-298", "nion/utils/ListModel.py:327-345", "nion/utils/ListModel.py:385-425", "nion/utils/ListModel.py:493-546", "nion/utils/ListModel.py:611-640"]}
{"id": "C186", "title": "Structured models whose listeners change them", "statement": "A listener of a record, an array or a field that looks at the model whenever it is told that it has changed has the contents of the model when all is done, also when listeners assign fields, insert into arrays and remove from them while they are told, unless a listener told before it has raised; the contents are what the changes, in the order in which they were made, make of them; assignments and insertions do not raise, removing an item that is there does not raise, and a list kept from the record's events is the array.", "quantifier": "all nestings of records, fields and arrays, any order of the listeners of each event; all listeners whose acts depend on the whole state, raising or not; all histories of assignments, insertions and removals and depths of nesting that end", "why_tests_cant": "what a listener finds depends on who acts at which of the several events of one change, at any level, and on how deep this goes", "anchors": ["nion/utils/StructuredModel.py:90-118", "nion/utils/StructuredModel.py:120-160", "nion/utils/StructuredModel.py:236-309", "nion/utils/ListModel.py:35-45", "nion/utils/Model.py:43-56", "nion/utils/Event.py:103-114"]}
{"id": "C187", "title": "Concat streams whose listeners assign streams", "statement": "When all is done, the value of a concat stream is the value of the stream that its function returns for the item that the source has, None if the source has None or an item that is false, whatever the listeners of the source, of the other streams and of the concat stream assign and raise while they are told; a listener of the concat stream that looks at its value whenever it is told has it in the end; a function that raises for an item affects nothing but this item.", "quantifier": "all items, functions of items (raising or not), values; all places of the concat stream among the listeners of the other streams; all listeners whose assignments depend on the whole state, raising or not; all histories and depths of nesting that end", "why_tests_cant": "whether the concat stream is told an old value depends on the order of listeners, on which stream they assign during which of the nested notifications, and on whether the concat stream has listened to another stream meanwhile", "anchors": ["nion/utils/Stream.py:42-59", "nion/utils/Stream.py:313-359", "nion/utils/Event.py:103-114"]}
{"id": "C188", "title": "There is one registry", "statement": "All functions of the registry, called from whichever thread, work on the same registry: a call finds exactly what the calls before it, of any thread, have registered and not unregistered.", "quantifier": "all numbers of threads, all calls they make, all interleavings of the steps of making the registry and of the calls", "why_tests_cant": "the registry is made by the first call without a lock; whether there are two depends on the interleaving of first calls", "anchors": ["nion/utils/Registry.py:23-31", "nion/utils/Registry.py:34-40", "nion/utils/Registry.py:74-117"]}
{"id": "C189", "title": "Several targets bound to one source", "statement": "However many bindings there are to the properties of a source, after any history of setting properties and of update_source of any binding each target shows what its binding makes of the property: the converted value, the fallback for None, also when targets call update_source or set properties while they are set; only a binding whose converter raises for the current value may show something else. update_source raises only if converter or validator do, and then changes nothing.", "quantifier": "all sources with any properties and any notion of which values are the same; all numbers, kinds and orders of bindings and other listeners; all converters, validators, fallbacks; all targets and listeners whose acts depend on the whole state, raising or not; all histories and depths of nesting that end", "why_tests_cant": "which target is set last to what depends on the order of the bindings and on which targets act during which of the nested notifications", "anchors": ["nion/utils/Binding.py:82-165", "nion/utils/Binding.py:213-253", "nion/utils/Binding.py:256-319", "nion/utils/Binding.py:322-380", "nion/utils/Model.py:43-54", "nion/utils/Event.py:103-114"]}
{"id": "C190", "title": "Streams given up while they tell", "statement": "Listeners of streams may, while they are told, assign value streams, take references to streams and give theirs up, also the last one of a stream that is just telling or being closed. Afterwards every stream has exactly as many references as others hold and open streams use it, nothing raises, no stream is closed twice, a stream is closed only when others have given up all their references and no open stream uses it, and a stream that has lost its last reference is closed. A closed derived stream does not start to tell. Listeners are told only values the stream has, computed from values of its inputs.", "quantifier": "all networks of value, constant, map and combined streams, all listeners at all places that assign, take, give up and raise depending on everything, all sequences of actions from outside", "why_tests_cant": "the listeners run in the middle of close and of tellings in progress, nested to any depth; tests close streams from outside, one at a time", "anchors": ["nion/utils/Stream.py:62-139", "nion/utils/ReferenceCounting.py:34-46", "nion/utils/Event.py:103-114"]}
{"id": "C191", "title": "Recording an object whose listeners change it", "statement": "While an object is recorded, its listeners may set properties, append items and remove the last item when they are told about a change. Applying the recording to an object equal to what the recorded one was at the start makes it equal to what the recorded one is at the end.", "quantifier": "all listeners before and after the recorder, depending on everything, that change the object and raise; all histories", "why_tests_cant": "nested changes reach the recorder in an order that depends on its place among the listeners, to any depth", "anchors": ["nion/utils/Recorder.py:69-103", "nion/utils/Event.py:103-114"]}
{"id": "C192", "title": "Lists kept from the events of mapped, filtered and flattened list models whose observers act", "statement": "An observer of a mapped, filtered or flattened list model that keeps a list, inserting at the index it is told on every insertion and deleting at the index it is told on every removal, has the items of the model whenever the outermost call has returned, also when observers change the source, the items, the filter, the order or the children, or open change blocks, while they are told.", "quantifier": "all lists, filters, sort keys, contents and children; all observers whose acts depend on the whole state, raising or not; all histories and all depths of nesting that end", "why_tests_cant": "Whether a kept list goes wrong depends on who is told first and on what those told before do, in nested calls of any depth; tests have one passive observer.", "anchors": ["nion/utils/ListModel.py: FilteredListModel.__inserted_master_item, __removed_master_item, __updated_master_item, __update_items", "nion/utils/ListModel.py: FlattenedListModel.__child_item_inserted, __child_item_removed", "nion/utils/Event.py: Event.fire", "nion/utils/ListModel.py: MappedListModel.__master_item_inserted, __master_item_removed"]}
{"id": "C193", "title": "Texts of integer points, sizes and rectangles", "statement": "The text of an integer point, size or rectangle says what it is: two of them have the same text exactly if they are of the same kind and equal, also when the text is followed by other text.", "quantifier": "all integer points, sizes and rectangles, with negative coordinates, and all texts after them", "why_tests_cant": "infinitely many pairs of values", "anchors": ["nion/utils/Geometry.py:318-319", "nion/utils/Geometry.py:406-407", "nion/utils/Geometry.py:514-515"]}
{"id": "C194", "title": "A property binding closed by another thread", "statement": "While one thread closes a property binding, other threads may call update_source and get_target_value, which are documented as thread safe, and change the source property: update_source assigns the converted value or does nothing, get_target_value returns what is shown for a value the property had during the call or the fallback, neither raises, a change that reaches the binding keeps no other listener of the source from being told, and nothing is shown after close has returned.", "quantifier": "every interleaving of the accesses to shared variables of any number of threads with close, all values, converters and fallbacks", "why_tests_cant": "the number of interleavings; the windows are a few bytecodes long", "anchors": ["nion/utils/Binding.py:55-65", "nion/utils/Binding.py:98-162", "nion/utils/Binding.py:232-252", "nion/utils/Event.py:103-114"]}
{"id": "C195", "title": "Assigning the container of a mapped list while threads change containers", "statement": "Assigning the container of a MappedListModel, which is marked as thread safe, while other threads insert into and remove from the old and the new container (calls of one container telling in order): the assignment does not raise, and once everything has returned the mapped list has the values of the items of its container, in order.", "quantifier": "all interleavings of the steps of any number of assignments (one after the other) with any number of calls on any number of containers, all lists, functions and indices", "why_tests_cant": "windows between closing the listeners, copying the old list and filling from the new one; all interleavings", "anchors": ["nion/utils/ListModel.py:723-758", "nion/utils/ListModel.py:768-790", "nion/utils/ListModel.py:35-42", "nion/utils/Event.py:103-114"]}
{"id": "C196", "title": "The order of a filtered list used by several threads", "statement": "While several threads insert into and remove from the source of a FilteredListModel, set its filter, sort key and direction, and open and close change blocks: whenever no thread is inside a call and no block is open, the items are those of the source that the filter accepts, each once, sorted by the sort key in the direction set, or in the order of the source without sort key.", "quantifier": "all interleavings of any number of threads and calls, all filters, keys, items and set iteration orders", "why_tests_cant": "lost flags need three steps of two threads within another; the number of interleavings", "anchors": ["nion/utils/ListModel.py:274-283", "nion/utils/ListModel.py:305-345", "nion/utils/ListModel.py:385-425", "nion/utils/ListModel.py:469-546"]}
{"id": "C197", "title": "Which objects are registered", "statement": "With a storage that passes the context of an object on to what is put into it: after any history of creating objects, giving and taking away the context, insert_item, remove_item and set_item, an object is registered with the context exactly if the outermost object that contains it has been given the context; and no call raises but giving the context to an object that has it.", "quantifier": "all histories of calls on any number of objects, nested to any depth", "why_tests_cant": "What is registered depends on the whole history of where an object and everything in it have been; tests follow a few objects through a few calls.", "anchors": ["nion/utils/Persistence.py: PersistentObject.persistent_object_context, insert_item, remove_item, set_item", "nion/utils/Persistence.py: PersistentObjectContext.register, unregister"]}
{"id": "C198", "title": "Streams whose functions assign streams", "statement": "In a network of value, constant, map and combined streams whose functions (and listeners) assign value streams while they are computed (or told), every map stream has the function of the value of its source and every combined stream the function of the values of its inputs, when the outermost assignment has returned.", "quantifier": "all networks, values, functions and listeners, whose assignments depend on the whole state; all histories of assignments and all depths of nesting that end", "why_tests_cant": "Whether a result computed from old arguments is stored last depends on which streams a function reaches through the network; tests use functions without effects.", "anchors": ["nion/utils/Stream.py: MapStream.__init__ (update_value)", "nion/utils/Stream.py: CombineLatestStream.__handle_stream_value, __values_changed", "nion/utils/Stream.py: ValueStream.value"]}
{"id": "C199", "title": "Property streams on objects that may be false", "statement": "A property stream shows the present value of the property of the object that its source stream has, also if that object is false in Python, as an empty collection is; the values it fires are those the property takes, each that differs from the one before.", "quantifier": "all comparisons, all attributes and truths that depend on them, all histories of objects arriving, attributes being set, and closing", "why_tests_cant": "Tests use a few objects, none of them with a truth value of its own; histories and the moments at which an object is true are unbounded.", "anchors": ["nion/utils/Stream.py: PropertyChangedEventStream.__init__ (source_object_changed)", "nion/utils/Stream.py: PropertyChangedEventStream.__property_changed"]}
{"id": "C200", "title": "Values of the wrong kind read into structured models", "statement": "from_dict_value of a record or an array raises if the value is of the wrong kind (a record takes a dict, an array a list, at every level), and if it raises, the model is as it was before.", "quantifier": "all models of any depth, all values: None, numbers, texts, dicts and lists of values", "why_tests_cant": "Where in a value the first part of the wrong kind is, and what has been read by then, differs for every model and value; tests read values of the right kind.", "anchors": ["nion/utils/StructuredModel.py: RecordModel.from_dict_value", "nion/utils/StructuredModel.py: ArrayModel.from_dict_value"]}
{"id": "C201", "title": "Assigning the container of a filtered or flattened list while threads change containers", "statement": "Assigning the container of a FilteredListModel or FlattenedListModel, which is marked as thread safe, while other threads insert into and remove from the old and the new container (distinct items; calls of one container telling in order): the assignment does not raise, and once everything has returned the filtered list has the items of its container that pass the filter, in order, and the flattened list has the children of the items of its container, in order.", "quantifier": "all interleavings of the steps of any number of assignments (one after the other) with any number of calls on any number of containers, all lists of distinct items, indices, filters, sort keys, directions and child lists", "why_tests_cant": "windows between closing the listeners, copying the old list and filling from the new one; all interleavings", "anchors": ["nion/utils/ListModel.py:551-597", "nion/utils/ListModel.py:605-640", "nion/utils/ListModel.py:385-425", "nion/utils/ListModel.py:828-850", "nion/utils/ListModel.py:861-916", "nion/utils/Event.py:103-114"]}
{"id": "C202", "title": "Properties defined, defined again and undefined while an object has a storage", "statement": "However define_property, undefine_properties and assignments follow one another on a persistent object with a storage, each name has the property last defined, with the value last assigned since then or the one it was defined with, and the storage has for each property what write_to_dict writes for it.", "quantifier": "all histories of definitions, undefinitions and assignments, all names, keys, values, validation functions and converters, all contents of the storage at first", "why_tests_cant": "all orders of definitions and assignments, with values left over from earlier definitions", "anchors": ["nion/utils/Persistence.py:442-447", "nion/utils/Persistence.py:455-456", "nion/utils/Persistence.py:582-597", "nion/utils/Persistence.py:644-661", "nion/utils/Persistence.py:562-570"]}
{"id": "C203", "title": "A list binding closed while its list changes", "statement": "While one thread closes a list binding, another may insert into and remove from the list it observes. Until close is called, inserter and remover are called for every change, in order; for changes made after close has returned they are not called, for no change twice. A target that was filled from the items and is kept by inserter and remover is always a list that the source had, so that no call of the remover removes another item or fails; nothing is called after close has returned.", "quantifier": "every interleaving of the accesses to shared variables of a thread that changes the list with close, all lists and changes", "why_tests_cant": "the two listeners are closed one after the other; what happens between is a matter of a few bytecodes", "anchors": ["nion/utils/Binding.py:185-216", "nion/utils/Binding.py:55-65", "nion/utils/Event.py:103-114"]}
{"id": "C204", "title": "update_source of attribute and tuple bindings closed by another thread", "statement": "While one thread closes an attribute or tuple binding, others may call update_source, which is documented as thread safe. Each call either takes a value that the property has during the call, sets the attribute or the element in it and assigns the property, or it does nothing at all: no object is changed without the property being assigned, so that the listeners of the source are told of every change. Calls do not raise unless setting the attribute does; calls after close has returned do nothing.", "quantifier": "every interleaving of the accesses to shared variables of any number of threads with close, with assignments of the property and changes of objects by others; all values, attributes and tuples", "why_tests_cant": "the number of interleavings; the window is between two reads of one attribute in the setter", "anchors": ["nion/utils/Binding.py:98-111", "nion/utils/Binding.py:292-298", "nion/utils/Binding.py:348-354", "nion/utils/Binding.py:55-65"]}
{"id": "C205", "title": "Relationships and items defined again or undefined while an object has members and a storage", "statement": "However define_relationship, undefine_relationships, define_item, undefine_items, insertions, removals and set_item follow one another on a persistent object with a storage, a relationship has the objects inserted and not removed since it was last defined, an item the object it was set to since then; the storage has exactly those, and exactly the objects that are members have the context of the storage.", "quantifier": "all histories of definitions, undefinitions, insertions, removals and settings, all names and objects, all contents of the storage at first", "why_tests_cant": "all orders of definitions and changes, with objects left over from earlier definitions", "anchors": ["nion/utils/Persistence.py:449-463", "nion/utils/Persistence.py:679-731", "nion/utils/Persistence.py:255-270", "nion/utils/Persistence.py:409-427"]}
{"id": "C206", "title": "Building structured models from values of any kind", "statement": "Building a model from a schema with a default and a value of any kind raises exactly if they are not of a kind it can be built from: scalar fields take anything and keep their default if they have one; a record that is a field takes nothing, zero, something empty, a dict or a list of pairs over a default that is nothing, empty or a dict; a record that is an item of an array takes nothing, zero, something empty or a dict; an array takes nothing or something that can be gone over whose elements its items can be made from; a float takes nothing at all. A record that is built has its fields in order, each built from the entry of the value, otherwise that of the default; an array has one item for each element, in order. One would expect a value that makes a record to make it wherever the record is, and to be read into it as well: lists of pairs do neither, a text makes an array of its letters, and zero is taken for a record but not for an array.", "quantifier": "all schemas, defaults and values, nested to any depth", "why_tests_cant": "Tests build from values of the right kind; kinds of values, defaults and schemas combine at every level without bound, and what is accepted depends on where in the schema the value is met.", "anchors": ["nion/utils/StructuredModel.py:64-87", "nion/utils/StructuredModel.py:121-139", "nion/utils/StructuredModel.py:237-247"]}
{"id": "C207", "title": "Keeping and restoring the values of a structured model", "statement": "The dict kept from a structured model, read back into it after any changes, brings the model back to what it was; reading it at once changes nothing and raises nothing; and the dict can always be had. In fact it is brought back exactly if no field of a record that was None has been set meanwhile, or is set in an item that an array makes; and the dict can be had exactly if no array of scalars in the model has items.", "quantifier": "all models with distinct field names, nested to any depth, with values of any kind; everything the model may have become meanwhile", "why_tests_cant": "Tests restore one small record; what the model has become meanwhile, which fields were None and how many items arrays have gained or lost at every depth is unbounded.", "anchors": ["nion/utils/StructuredModel.py:99-105", "nion/utils/StructuredModel.py:177-190", "nion/utils/StructuredModel.py:275-288"]}
{"id": "C208", "title": "Integer points, sizes and rectangles compared with anything", "statement": "== of an integer point, size or rectangle with any other object says whether it is of the same kind with the same numbers; it never raises, != is its opposite, and it is symmetric. In fact: among two of the same kind this is so; a point is equal exactly to what begins with the same two numbers (a size, a longer tuple, a text of digits), and comparing raises exactly with what does not begin with two numbers, unless it is None; for sizes None counts as zero; for rectangles likewise with a corner and a size. != is always the opposite and raises if == does; among points, sizes and rectangles == is an equivalence where it does not raise, and raises in both directions or in none.", "quantifier": "all integer points, sizes, rectangles; all objects made of None, integers, texts, tuples, lists, points, sizes and rectangles; every way int reads texts", "why_tests_cant": "Tests compare points with points; the objects that a point may meet in a list or a property are of any kind and nesting.", "anchors": ["nion/utils/Geometry.py:313-316", "nion/utils/Geometry.py:337-347", "nion/utils/Geometry.py:387-404", "nion/utils/Geometry.py:425-435", "nion/utils/Geometry.py:483-490", "nion/utils/Geometry.py:592-602"]}
