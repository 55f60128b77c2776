{
"C04": "False of the code: in style single, clear() adds index 0 without dropping the others (counterexample theorem). Exactly which histories keep at most one index: C04_iff_partial.",
"C07": "False of the code: removing the anchor when it is the smallest selected index leaves the anchor on it. C07_iff_partial: the anchor is selected throughout a history exactly if it avoids those removals and anchors that are not selected.",
"C09": "Single-threaded event; arbitrary re-entrant listener functions.",
"C11": "False of the code: the first exception ends the fire (counterexample). Partial: listeners are served in order up to the one that raises; fire itself does not raise.",
"C12": "False of the code without listeners (None) and, for fire_all, with a closed but referenced listener. C12_any_value_partial and C12_all_value_partial give the value in every case without exceptions.",
"C13": "CPython reference counting is modelled, cycle collection is not.",
"C14": "Histories of insert, remove, append and item assignment on ListModel.",
"C15": "Source = mapped container; map function may be stateful (indexed by call number).",
"C16": "False for negative indexes. C16_insert_iff and C16_remove_iff say for every index which selections go on selecting the same items: those that the difference between the index given and the place changed does not touch.",
"C17": "False of the code for negative or too large child indexes (counterexample). Partial: admissible histories (child indexes in range, no duplicate master items). C17_insert_iff_partial and C17_remove_iff_partial: exactly which indexes are handled rightly.",
"C18": "False of the code: child insertions shift selections by the child's own index, not the flattened one. C18_insert_iff says exactly for which selections an insertion does no harm; C18_selections_partial: removals, and insertions with no children before.",
"C20": "False of the code: an item moved inside a change block keeps its old place, and sort_reverse without sort key reverses items added in a block. Partial: all histories without these. C20_iff_partial: exactly which change blocks (without sort_reverse) leave the items in source order.",
"C21": "Items are inserted into the source at most once (the code asserts it), end_change is matched, keys of listed items constant (or changing as allowed in C24).",
"C22": "Begin/end balance assumes the container's own begin/end events are balanced.",
"C24": "False of the code: keys [1,2,3], the middle one becomes 10 and is not moved. C24_iff_partial says exactly when the list is correct: unless the item has to move behind the next one and the binary search, which runs with the item still at its old place, looks at that place before it gets beyond. Otherwise the list is unmoved and nothing is announced (C24_otherwise_unmoved_partial).",
"C25": "False of the code: selections of the filtered list are shifted by source indexes. C25_insert_iff and C25_remove_iff say exactly for which selections an insertion or a removal does no harm, sorted or not; C25_selections_partial: no sort key and everything accepted, with the anchor.",
"C26": "False of the code for a full replacement (old items are named in forward order while indexes count down). Partial: all other events; each old item is named exactly once. C26_iff_partial: a full replacement names the right items exactly if the old list reads the same backwards.",
"C27": "False of the code for text filters: the deep copy lacks the lower case text and raises AttributeError. Everything else proved, including evaluation order and exceptions.",
"C28": "Refinement of every history of register/unregister to a map from components to type sets.",
"C29": "False of the code: get_component sorts the candidates but returns the first of the unsorted set. Partial: None iff nothing is registered for the type, otherwise some registered component of the type. C29_iff_partial: right for every iteration order exactly if all priorities are equal.",
"C30": "False of the code: unregister without types reports the internal set after it has been emptied. Partial: every other call, and replay of existing components. C30_iff_partial: unregister without types always reports the empty set.",
"C31": "about_to_delete is an arbitrary sequence of add_ref/remove_ref calls.",
"C32": "Function behaviour may differ at each call (raise, value, None).",
"C33": "False of the code for a task that clears the queue (the batch is bounded by a count). Partial: tasks that only queue tasks; boundedness and clear_tasks for all tasks. C33_clearing_iff_partial: exactly what happens after a task that clears the queue.",
"C34": "False of the code when a task raises: the remaining tasks are dropped. Partial: tasks that do not raise; exact effect of a raising task; everything is run exactly when no task but possibly the last raises (C34_all_run_iff).",
"C49": "All integers and bounds, also the empty range.",
"C35": "At most once is proved for every schedule. 'Never both executed and cancelled' is false of the code: a queued function that closes its own pool is executed, cancelled, and the pool raises ValueError (counterexample). The partial theorem excludes exactly the schedules in which a queued function closes the pool while it runs.",
"C36": "Proved for every schedule, also for functions that close the pool themselves; C36_none_running (nothing is running when close returns) assumes no function closes its own pool.",
"C37": "Safety (never idle with an unserved trigger, every schedule) and progress (within ten steps of the thread).",
"C38": "False of the code: a run in progress at the call lets trigger(wait=True) return (counterexample). The partial theorem proves it when no run is in progress or finished but unannounced at the call.",
"C79": "Proved for every schedule.",
"C80": "False of the code: the caller blocks for ever if the function raises or the dispatcher is closed (counterexample). The partial theorem proves it for schedules where the function does not raise and nobody closes.",
"C39": "For every valid history (the client uses existing streams and removes only references it took) of networks of value, map, combine and cache streams. Functions are total; listeners outside the network do not re-enter it.",
"C40": "Same histories: the firings of every stream, in order, with their values.",
"C44": "Same histories: reference counts, when a stream is closed and that it closes exactly then.",
"C41": "False of the code if an input arrives while the stream fires: that value is never delivered (counterexample). For every schedule: deliveries carry the latest value, a pending delivery is made exactly once, nothing after close; C41_iff_partial: an undelivered latest value has a pending timer exactly if it did not arrive while the stream fired.",
"C42": "False of the code for the first period (delivers None) and for an input from another thread in the middle of a sample. For every schedule: what is delivered is the input reported last (C42_latest), at most once per period (C42_at_most_once); C42_kept_partial: no input is lost unless a period ends in the middle of its notification. On one thread the deliveries are exactly those specified (C42_samples_partial).",
"C43": "ConcatStream proved. The property stream keeps a stale value when the source becomes None (counterexample); the partial theorem proves it while the source is an object; C43_property_fires characterises the firings in all cases. C43_none: without a source object the value stays exactly as it was.",
"C81": "All calls of IndexedSelection with style multiple; indexes are integers.",
"C82": "C82_join holds for every schedule. C82_workers_end_partial: for schedules with one close, not called by a queued function nor while start is in progress, no start afterwards and no run_one/run_all; without the last condition it is false of the code (C82_counterexample). Thread termination means: no frame of the worker loop is left on any stack.",
"C83": "Every schedule; a step that makes the number of run_all frames on the thread's stack smaller is the return of a run_all.",
"C45": "Every comparison function and history, PropertyModel and StreamValueModel. Comparison functions do not raise.",
"C46": "Every history of assignments, update_source, attaching of target setters and close; converters and validators may raise. Target setters do not change the source.",
"C47": "Non-negative index; the commutation holds also out of range.",
"C48": "The source is any number of ListModels under different keys, every history; inserters do not change the source.",
"C84": "False if evaluations end in another order or raise (C84_counterexample, C84_raise_counterexample). C84_exact_partial: for every schedule the value is that of the evaluation that ended last without raising, and the counter exceeds the pending evaluations by those that raised. C84_settles_partial: the property for evaluations that end in starting order.",
"C85": "Proved for property bindings; for tuple bindings exactly if the element is missing or converts to the fallback if it is None (C124_told_iff_partial, C85_tuple_partial, C85_counterexample).",
"C86": "False for a PropertyModel without update_attribute_fn (C86_counterexample). C86_exact_partial says for every source when the target is told (just if the source notifies the assignment of the object), what is written, and when update_source raises. C86_copies_since: nor objects that earlier calls made.",
"C87": "Both models compare with equality; converters do not raise. C87_unstable_diverges shows that the stability hypothesis is needed.",
"C88": "The event part is proved for every reaction. The handler's last argument is always the value assigned by the outermost assignment, so it is the value exactly if the listener's assignments come back to it (C88_called_iff_partial, C88_counterexample).",
"C50": "False in general (C50_counterexample): a field default overrides the supplied value. C50_iff_partial: for nested schemas of any depth with distinct field names, build_model gives the specified merge of value and defaults exactly if values have the kind of the schema, no supplied scalar differs from its field's default, no array has plain values, and there is no define_float.",
"C51": "C51_iff_partial: for every model of every schema with distinct field names, the deep copy exists and has the same values exactly if no array has plain values, each scalar field with a default has this value, and no scalar field for which its record's default has a value is None. Counterexamples for each of these cases.",
"C52": "False after inserting before other items and then removing, and after from_dict_value (four counterexamples). C52_fires_partial: insertions at the end, removals and assignments; C52_fires_insert_partial: insertions anywhere, no removals. Every history, also with from_dict_value anywhere: no model fires more than once for a change (C52_at_most_once), and the outermost fires exactly if all arrays on the way listen to the item (C52_iff_partial); C52_exact_partial adds when the changed model itself fires. The same object inserted twice is not modelled.",
"C53": "C53_iff_partial: for every nested schema with distinct names whose array items can be built without values, copy_from succeeds exactly if no array of the other model has plain values (C53_counterexample), and gives the old values merged with the new ones; C53_same_iff_partial: the models are then equal exactly if what is None in the other is None in the first.",
"C54": "Proved for schemas without define_float; C54_counterexample: define_float gives a type build_model does not know, it raises. C54_iff_partial: exactly if no define_float is met on the way through schema, default and value.",
"C55": "C55_back says for every object tree what is read back; C55_iff_partial that it is the original exactly if every value survives its own conversion and no None stands where the default is something else. Custom readers/writers and the modified time are not modelled.",
"C56": "Setting and clearing the context of any tree registers/unregisters exactly the objects of the tree; the assertion fires iff the context is set twice.",
"C57": "get_registered_object and the subscriptions for any history of register, unregister, subscribe and deaths of objects.",
"C58": "C58_modified_partial: all histories of property assignments, insertions, removals and items set where none was. Replacing or clearing an item with set_item leaves the old item's parent, so changes of the detached item still count for the former parent (C58_counterexample), and putting the former parent into it makes every further change raise RecursionError (C58_counterexample_recursion). With items replaced: every container is counted once, and what else may be counted (C58_replaced_partial); C58_iff_partial says exactly when just the containers are counted.",
"C59": "C59_storage_partial: all histories where None is assigned only to properties stored under their own name. clear_property is called with the name instead of the key: stale or lost values (two counterexamples). C59_iff_partial says exactly which assignments leave the storage in step, C59_exact_partial what it has for each key in every case.",
"C60": "For all histories of insert_item, append_item, extend_items, remove_item; callbacks which raise or change the object are the subject of C179.",
"C61": "Histories of recordable property changes, appends and removals of the last item, on an object with one item and one relationship of objects without children. Six counterexamples: insertion or removal before other items (the recorder's handler raises RecursionError), what follows them, setting the item, non-recordable properties.",
"C62": "Integers or an ordered field. Containment, intersection and union in terms of the points of rectangles. C62_intersects_iff: the rectangles share a point exactly if intersects_rect is true and no size is negative; the counterexample is a rectangle with no points that 'intersects'.",
"C63": "Partial: for integer rectangles + and - are the translation exactly for sizes that are not negative or are even (C63_iff_partial; int() truncates towards zero); always for floats (C63_add_float).",
"C64": "Centre and size determine a rectangle and the other way round exactly for integer sizes that are not negative or are even (C64_iff_partial), and always for floats (C64_center_float); counterexample with negative odd size.",
"C65": "Exact arithmetic (ordered field). C65_inside_iff also covers flat rectangles: the result then lies inside unless only the height is zero and the ratio is at least one.",
"C66": "Exact arithmetic (ordered field); the reference rectangle has non-zero sizes.",
"C67": "Exact arithmetic; log10 and floor are Int.log.",
"C68": "Exact arithmetic; ticks >= 2; logarithmic=False (which does not change the five results spoken about).",
"C69": "Exact arithmetic; a fixed-point label is its sign and its digits, rounded to the precision.",
"C89": "Partial: for ticks that are not negative or division factors within 10^-5..10^5. Counterexample: -120e6 to -100e6, all labels equal. C89_iff_partial: otherwise a label is exact if and only if the tick has a single digit.",
"C90": "Exact arithmetic.",
"C70": "Real numbers with the exact sine and cosine.",
"C91": "Real numbers with the exact square root, sine and cosine.",
"C92": "Integers or an ordered field.",
"C93": "Partial: symmetric and equality of coordinates for two integer or two float points; C93_mixed_partial says exactly what the two orders give for an integer and a float point, and when they agree; counterexample.",
"C94": "Exact arithmetic.",
"C95": "Partial: C95_iff_partial: exactly for points whose coordinates are not negative or are integers; counterexample (-1/2, -1/2).",
"C96": "False for sides before zero (counterexample). C96_iff_partial says for every rectangle and array when the slice selects the positions contained. Python slice semantics are modelled (slice.indices).",
"C71": "Real numbers, exact powers and logarithms, base >= 2, ticks >= 1. Increasing, labels and minor indices are proved in general. C71_covers_iff_partial: the ticks cover the limits exactly if these are in order or the lowest tick is not above the upper limit; from 5 to 0 all ticks are at or above 5.",
"C97": "C97_iff_partial says exactly when: with minor ticks, with a factor, or if high <= floor(low) + floor(3/2 (high - low)). Two counterexamples.",
"C98": "Partial: base ten; counterexample in base 16.",
"C72": "For ASCII text and the default format. Also: white space around, and different integers have different texts.",
"C73": "Exact arithmetic; see C100 for doubles.",
"C74": {
"status": "partial",
"note": "Exact in rational arithmetic for whole percents; in double arithmetic only within one percent, and 29% comes back as 28% (counterexample). Of the percentages up to 100 exactly 29, 57 and 58 do not come back (C74_hundred_partial, by evaluation); entering the displayed text again and again goes on changing it (C74_counterexample_drift: from 116% to 112%)."
},
"C75": "Proved exactly for UUIDs of version 4, in any case and with white space around; every other UUID is read as None (C75_counterexample holds of all of them). No text raises.",
"C76": "Full characterisation: which texts are read as which datetime (ASCII digits). Aware datetimes come back as None (C76_aware).",
"C77": "Holds unless a comma is taken for the decimal point in a locale where it is not; then ValueError in the C locale and a wrong value in en_US (counterexamples). Values are exact, before rounding to a double.",
"C78": "",
"C99": "With exact values, before rounding.",
"C100": "The result is i or i-1 (partial); exactly i if n is a power of two (C100_power_of_two); 29 of 100 gives 28 (counterexample). With a hundred steps exactly 29, 57 and 58 do not come back (C100_hundred_partial, by evaluation of all).",
"C101": "C101_order, C101_complete, C101_new, C101_closed and C101_dropped hold for every schedule of atomic steps. C101_counterexample: close in one thread between the read of listener.call and the call in another; the function runs after close has returned, so the last sentence of the statement is false and only C101_closed holds. Atomic steps are single bytecode effects under the interpreter lock; memory is sequentially consistent.",
"C102": "C102_call_partial, C102_list_partial: all calls but assignment by subscript, in, and reverse, against a list specification. C102_counterexample: these three raise (reverse for two or more items). C102_counterexample_extend: extending a field by itself never ends, since each access makes a new sequence object. The mixin methods are those of collections.abc.MutableSequence. Slices are not modelled.",
"C103": "C103_read_partial for scalar fields whose names are not attributes of every record; C103_dict and C103_notify for all scalar fields. C103_counterexample: assignment to an array or record field hides it and leaves the model as it was. C103_counterexample_name: a field called schema can be assigned but not read. C103_model for new records.",
"C104": "C104_iff_partial: the copy succeeds and is equal exactly if there is no hidden item definition and no value its validator changes or refuses anywhere in the tree; C104_counterexample_hidden and C104_counterexample are concrete cases.",
"C105": "Proved as long as items are only set where none is set and containers live; counterexamples for a replaced item and a collected container.",
"C106": "Proved for paths whose relationships are stored under their own names; with a separate key the accessor raises KeyError (counterexample). C106_iff_partial: if the name of such a relationship is no key of anything else, the accessors give the dict exactly if all relationships on the way are stored under their names, and raise KeyError otherwise; if it is the key of another relationship, the dict of another object is given (C106_counterexample_swapped).",
"C107": "C107_order, C107_once, C107_returns, C107_quiet, C107_join, C107_raised hold for every schedule of atomic queue operations. False of the code: a task put before may still run in another thread when perform_tasks returns (C107_counterexample; C107_returns: it has been taken); after a task raised join never returns (C107_counterexample_raise, C107_raised).",
"C108": "Violated for a function that reads its own promise: it is called again inside itself (C108_counterexample). The rest holds if it does not; C108_exclusive holds for every function.",
"C109": "Violated: a listener added after one that assigns the stream while it is called receives the values in the wrong order and ends with a value that is not the stream's; a map stream made later stays with the function of the old value (C109_counterexample, C109_counterexample_mapped). Holds for every listener before which no listener assigns, whatever it and the later ones do.",
"C110": "Reads and writes of the count are separate steps; the specification of histories is the one of C31.",
"C111": "Violated: // truncates towards zero, so negative sizes are not floored, and beyond 2^53 floats lose digits (C111_counterexample, C111_counterexample_large). C111_quotient says exactly what // gives below 2^53, C111_floor_iff exactly when that is the floor; C111_half shows that halves, taken exact in Rect.lean, are.",
"C112": "Proved for chains of any length. Each model turns the events of the model below into events of the same kind (fed_down), so the argument is an induction over the chain. The wrongly named removals of a full replacement cancel out once all are delivered (feed_pops); in between an upper model is wrong (example).",
"C113": "Partial: false for changes of the lists of an object that was inserted during the recording, or of what it contains. insert_item gets a deep copy made when the log is applied (line 95), with the final content, and the logged changes inside are then made again: an object appended inside an inserted object is there twice (C113_counterexample_twice), a removal inside raises IndexError (C113_counterexample_raises). C113_replay_partial: for all other histories of such changes, of trees of any depth, the replayed object is equal at every place; values set inside inserted objects are included. Deep copies are taken to be equal to the object copied (C104 has the cases where they are not).",
"C114": "C114_once, C114_latest and C114_batch hold for every schedule of atomic sections. The last part is false of the code: perform_tasks takes the tasks out of the set before it calls them, so a task may be called after clear_task returned (C114_counterexample_clear) and after its replacement (C114_counterexample_order). C114_cleared_partial: if no call in progress has yet to call a task of the key. C114_order_partial: if perform_tasks is not called while a call is in progress.",
"C115": "False of the code: begin_change increments the level without the mutex. If another thread closes its block between the read and the write, the level stays at one for ever and the model never shows anything again, though all blocks are closed (C115_counterexample; C115_held: nothing changes until an end_change). C115_settled_partial: true for all schedules in which no such increment is lost, though the filter may be set by one thread while another builds the items with it. Only membership is modelled; the order is C20 and C21.",
"C116": "False of the code: the set returned is the one the registry changes, so unregistering the components of a type in a loop over them raises RuntimeError after the first (C116_counterexample; C116_raises says exactly where it raises in general). C116_visits_partial and C116_announce_partial: if no call made in the loop adds or removes a component of the type, every component is reached exactly once, and announced. If the set is changed and has the same size again Python does not specify what is visited, and nothing is claimed.",
"C117": "Partial: the last part is false. The tasks are gathered once, after one turn of the loop; a task that one of them creates later is not waited for, gets two turns and is dropped when the loop is closed (C117_counterexample). C117_finished_partial: every task that exists after the first turn has finished. C117_all_partial: all tasks, if none is created later. C117_scheduled, C117_scheduled_first: everything scheduled was run. C117_returns: it returns, under fairness and if those tasks end, even if tasks they create run for ever.",
"C118": "All interleavings. Always: everything shown or told is the function of what the list of input values was at some moment (C118_shown). Each input assigned by one thread only: the list of the combined stream ends with the values of the inputs (C118_list_partial; false with two threads for one input, C118_one_stream_counterexample), but its value need not: C118_counterexample has a thread interrupted between computing and keeping, after which the combined stream shows, and told last, a combination that is out of date although all assignments have returned. True if no thread holds a result not yet kept when the last value is noted (C118_value_partial), and any further uninterrupted assignment puts it right (C118_repair).",
"C119": "False of the code in two ways. An observer that raises (an index that is not there, say) ends the notification: those after it are not told (C119_counterexample_raises). Observers added after one that changes the list are told the inner change first: C119_counterexample (an observer that keeps an item in front) and C119_reject_counterexample (an observer that removes what was inserted: later copies lose another item and keep the rejected one). Proved: no observer is told a change twice or one that was not made (C119_at_most_once); each is told each change once if no call of an observer raises (C119_once_partial); the copy is right, at each notification and at the end, for every observer before which no observer changes the list or raises (C119_copy_partial; it may do both itself).",
"C120": "False for objects with content (C120_counterexample). C120_over says exactly what comes out: written values and items replace the old ones, the others stay, related objects come behind the old ones. C120_same_partial says exactly when the result is the object written, C120_twice that reading again changes nothing exactly if there are no related objects (otherwise they are there twice), C120_registration that the old uuid stays registered and remains after unregistering.",
"C121": "Properties: C121_property for every history, C121_read_only; C121_hidden: hidden properties and items cannot be read; C121_class: a Python property of the class always wins. Items and relationships: true as long as nobody assigns to their names (C121_item_partial, C121_relationship_partial); an assignment does not raise, changes nothing that is stored and hides the item or list for ever (C121_shadow, C121_counterexample). A property with the name of an attribute of the class, such as type, is stored but never read (C121_taken).",
"C122": "C122_assigned_partial: for properties without validator and with copy_on_read, or without copy_on_read as long as the property is not read. C122_known: objects held by the program are never changed by the property, without conditions. False otherwise: a validator that returns its argument, an object taken out by reading without copy_on_read (C122_counterexample), and the default given at definition, which is kept without a copy (C122_default_counterexample). C122_reachable: all states of a program satisfy the hypothesis of the theorems. Values are nested lists of numbers; cyclic values and custom converters, readers and writers are not modelled.",
"C123": "False of the code: a container set in the middle of its change block leaves the change level at -1, one removed in the middle at +1, and from then on no change events are fired. C123_exact_partial says for every history when an event is open; C123_quiet_partial that the property holds if containers are replaced only between blocks; C123_items (the items) holds always.",
"C124": "False for a negative index beyond the start of the tuple: get_target_value raises IndexError, the target is not told and keeps showing the old element (C124_counterexample). C124_write and C124_read say what happens for every index; C124_told_iff_partial exactly when the target is told what get_target_value returns. C124_natural: same as the model of C47 for natural indexes.",
"C125": "Exact arithmetic; tick counts of at least one, bases of at least two, any limits (also equal or reversed). Decade ticks are the ticks that are not minor ticks.",
"C126": "Proved for every history: observers' copies stay exact, begin/end stay balanced, a raising event changes no item, and a new filter that does not raise makes the list right, provided no container assignment raised. False: the selections are not told about an item whose insertion raised (lines 625-627); assigning a container whose item makes the filter raise leaves out all later items for ever; an item removed in a block whose end_change raises stays listed; an item hidden by an exception makes later insertions take a wrong place. Filters only; sort keys that raise are in C137.",
"C127": "Proved for every schedule in which notifications do not overlap (items and replay), and for every schedule of insertions: the right children, each as often as it should be. False otherwise: lines 890-916 do not take the mutex, so a place found before another thread's change is stale (wrong order), a removal takes out another child, and observers are told in another order than the list was changed. Master items do not change while threads run; no selections.",
"C128": "False in general: when a writer writes fewer or other keys for the new value than for the old one, the old entries stay in the storage and reading back gives the old value (counterexamples). C128_assign_iff_partial says exactly when an assignment keeps the storage in step, if the properties use different keys; C128_storage_partial: every history when each writer always writes the same keys or only its name; C128_round_trip_partial: readback. Writers that remove entries of the dict are not modelled.",
"C129": "False for a listener after one that calls the registry: it is told of the inner change first and keeps a wrong copy (counterexample), and an exception in a listener keeps the later ones from being told (counterexample). Proved: each listener is told each change once if none raises; the copy of the first listener is always right; that of another one if the listeners before it do not call the registry or raise. Calls of unregister without types are excluded from the copies (the event reports no types, C30).",
"C130": "False if the system clock is set while the dispatcher runs (time.time() is used): set forward, the next run starts at once; set back, triggers are not served for as long (counterexamples). Proved for a clock that is not set: the distance from the end (and start) of any earlier run to a start, the bound on the number of starts; promptness holds for every clock in terms of what the clock shows. The length of timed waits is not assumed.",
"C131": "'{:g}' is modelled from the documented format (six digits, correctly rounded, halves to even, exponent of the rounded number). Doubles are rationals with rounding to 53 binary digits; the sign of zero, overflow and underflow are not modelled. C131_not_finite: infinity and nan, displayed as 'inf' and 'nan', are read as 0.0.",
"C132": "Holds for the objects made by a reading that does not raise (C132_once_partial, C132_complete_partial), and for finish_reading of any tree (C132_marks, C132_inner_first). Not true in general: content that was there before is told finish_reading without begin_reading (C132_counterexample_again), and after an exception objects stay marked as reading (C132_counterexample_raises). What a dict holds is abstracted to which objects are made from it.",
"C133": "Every + - * of FloatRect rounded to 53 binary digits. C133_contains, C133_intersects, C133_center, C133_tlbr, C133_tlbr_exact, C133_union, C133_intersect hold for all doubles; C133_grid_partial and C133_points_partial for coordinates on a dyadic grid. Away from such a grid the exact claims of C62/C64 are false: counterexamples for union (loses a point), intersect (gains a point), intersects_rect (rectangles apart), translated and from_center_and_size (not undone). Not modelled: overflow, subnormal numbers, nan.",
"C134": "C134_zero_iff_partial says exactly when make_pretty gives 0: for 0 and for numbers below a power of ten 10^n, n <= 0, whose log10 is rounded up to n; then `factor10 // 10` is 0. C134_counterexample_range: make_pretty_range2(0.2, 0.3) is (0, 0, [0], 0, 0, 0) for every tick count. For all other numbers C134_number_partial and C134_range_partial give the properties of C67 and C68 up to a stated relative error; C134_from_one: numbers of at least 1 are not affected. C134_counterexample_above: the minimum can exceed the data by rounding. math.pow(10.0, n) is taken to be the nearest double; overflow and subnormal numbers are not modelled.",
"C135": "C135_labels_partial: for ranges to which C134 applies, data at most 2^20 divisions from zero, and either a factor of ten between 1/200000 and 200000 (labels without exponent) or no negative data. Not shown: data further away. C135_counterexample: LinearTicker(0.2, 0.3) has the one label 0. C135_counterexample_negative: the labels of -120 to -100 millions are all -1e+08.",
"C136": "Time of `read_from_dict` as text: pieces between non-digits, numbers, constructor of datetime. Exact description of the texts that are read (C136_texts), round trip of isoformat, texts with a time zone raise, fractions are counts of microseconds (counterexample: milliseconds), and the time is not written by write_to_dict (general statement). ASCII digits only.",
"C137": "Model of the filtered list model with sort keys that raise or give keys that cannot be compared; refines the plain model when nothing raises (step_ok). Missing in the partial theorems: events that assign a container or change the content of an item (C137_change says what happens then), histories in which assigning a container raised. Counterexamples: a lost item, keys such as None, selections left behind. Keys that can be compared with some keys and not with others are not modelled.",
"C138": "Powers that are too large raise, powers that are too small are zero (whose logarithm raises), products that are too large are infinite; otherwise exact arithmetic. Exact conditions for base 10 and factor one (C138_raises_iff_partial, C138_iff_partial); sufficient conditions for other factors (C138_finite_partial) and in terms of the limits. Counterexamples: limits 0 to 306, 306 to 307.5, -323.5 to -300. Missing: other bases; exactness for narrow ranges.",
"C139": "Reflecting twice, the size and motions hold for all integer rectangles; the points are right exactly for odd sizes (C139_iff_partial), otherwise one row and column too small (C139_even, C139_counterexample). Floats in exact arithmetic: the closed rectangles are right, sides swap.",
"C140": "Exact for the top left corner, monotone, and within a relative error of 2^-50 (C140_origin, C140_monotone, C140_near). The bottom right corner is exact, and points stay inside, if bottom - top is height and right - left is width (C140_corner_partial, C140_inside_partial), false otherwise (C140_counterexample_corner). map_rect gives exactly the size (C140_size), not the place (C140_counterexample_rect); mapping back, or a rectangle to itself, moves points by rounding (C140_counterexample_back). Overflow, subnormal numbers and nan are not modelled.",
"C141": "False by rounding: a rectangle of 7 by 17 fitted to its own aspect ratio becomes higher and begins before its top (C141_counterexample; also C141_counterexample_wide). C141_wide_partial and C141_tall_partial: inside up to a relative error of 2^-50, and exactly inside if the exact ratio of the sides is not above the aspect ratio (or the rectangle is found wider) and at least half the size is left. C141_ratio: the aspect ratio up to 2^-51. Overflow, subnormal numbers and nan are not modelled.",
"C142": "Partial: base ten, factor one, decades within 10^300. Reaching the upper limit exactly is false: LogTicker(0, 3) has its last tick at 2.9999999999999996 with correctly rounded logarithms (C142_counterexample).",
"C143": "The last part is false: a thread that has read the value for the target can be overtaken (C143_counterexample; then the target stays stale and setting the same value again does nothing, and one change can be assigned twice). C143_partial: it holds when no two setters overlap. C143_recovers: setting another value undisturbed brings the target up to date.",
"C144": "The last part is false: an update reads the whole tuple and writes it back, so updates of different elements that overlap undo each other (C144_counterexample, C144_rolls_back says exactly what an update does). C144_partial: true when updates do not overlap.",
"C145": "False for extend: select 5, deselect 5, extend(5) selects nothing, because 5 is still the anchor (C145_counterexample). C145_iff_partial: exactly when i is the anchor and not selected (style multiple) extend(i) fails to select it, then it does nothing at all (C145_anchor).",
"C146": "False: add, remove, toggle and extend (style multiple; remove and toggle also single_or_none; clear in style single) work on the object that was returned, and a client that changes it changes the selection without event (C146_counterexample). C146_read says exactly what a set read contains after any calls, C146_snapshot_partial for which calls it is a snapshot and C146_snapshot_iff that it is none for any other call, C146_others: arguments of set_multiple and replaced sets are independent; C146_refines: the heap model agrees with the model used for the other claims.",
"C147": "Partial: rotating by zero about another origin changes points when the differences of the coordinates are not doubles (C147_counterexample: 0.1 about 1). Error bounds, distances, rotating back and the origin are proved for all points. Overflow and underflow are not modelled.",
"C148": "Partial: accurate for differences that are zero or within 2^-500..2^500, midpoint below 2^1023. Exactly: distance raises OverflowError if and only if a difference is finite and at least 2^512 (C148_raises_iff_partial) and is zero if and only if both squares are at most 2^-1075 (C148_zero_iff_partial). Counterexamples: 0 and 2^600, 0 and 2^-600, the middle of 2^1023 and itself.",
"C149": "False of the code: C149_counterexample (limits 0.0005 and 0.3009). C149_seen_partial proves a tick for limits at least a decade apart or nearer than (ticks - 2)/base; C149_iff_partial is the exact condition for the default arguments: a tick is missing exactly if the limits are at least 0.3 apart and lie strictly between a decade and its double.",
"C150": "pathlib.PurePosixPath is modelled (parsing and __str__), Windows paths are not. The strings that come back unchanged are described exactly (C150_text_iff).",
"C151": "Holds for FloatToStringConverter (C151_float, C151_float_only). False for PhysicalValueToStringConverter, which creates a FloatToStringConverter without options: convert_back(None) raises AttributeError and convert_back('') is 0 (C151_counterexample); fuzzy is ignored as well.",
"C152": "False: 1_000 is 1000 strictly and 1 fuzzily; in en_US 1,000,000 is read as 1000 with the default; inf as 0 (three counterexamples). C152_agree_partial: finite numbers without underscores and thousands separators, in locales whose decimal point is . or a comma, with white space around. float() is modelled with white space, underscores, inf and nan, values exact.",
"C153": "Violated: Event.fire stops at the first listener that raises, so map streams made after the one that raises keep their old value (C153_counterexample). Exactly: a map stream is right after an assignment iff its own functions have values and no map stream made before it on the same stream raises, or its value does not change (C153_stream_iff_partial); over a history it shows its function of the last value for which neither it nor an earlier one raised (C153_history_partial). The whole network is right iff every function has a value (C153_network_iff).",
"C154": "Violated: the exception is swallowed by Event.fire and the model keeps its old value; if the comparison raises for every pair, the model has the first value since the last None (C154_stuck_counterexample, every history). Exact condition in C154_follow_iff_partial. An assignment for which the comparison raises changes nothing and tells nobody (C154_set); one that raises in the handler has stored the value and told listeners (C154_raises_iff, C154_set). The handler is called with exactly the values listeners are told of (C154_handled).",
"C155": "str.format with a fixed number of digits is modelled as correctly rounded, halves to even. The stability theorem uses only that a text is read as a float to which no float is nearer.",
"C156": "Violated: from_dict_value (so also copy_from) appends to and deletes from the list of items without notification, and leaves the list of listeners behind, so that a later deletion is carried out, raises IndexError and is not told by the record (C156_counterexample). Exactly: kept up by the next call iff it does not load values of another length (C156_step_iff_partial); a deletion that is carried out raises iff the list kept from the record's events is too short for it (C156_raises_iff, every history).",
"C157": "Violated: the index of the source is used for the mapped list, so after an exception values are inserted in the wrong place and removals take the values of other items (C157_counterexample); if unmap_fn raises the value of a removed item stays (C157_counterexample_unmap). Exact conditions for insertion and removal in C157_insert_iff_partial, C157_remove_iff_partial and C157_remove_raised_iff_partial (values distinct); without exceptions right in every history (C157_total).",
"C158": "Violated: the list is changed and observers are told in two steps, without a lock over both (C158_counterexample: wrong order; C158_counterexample_phantom: the value of a removed item stays and that of another is lost). Holds if calls tell in the order in which they changed the list (C158_in_order_partial); with insertions only the values are right up to order (C158_insertions_partial); exact condition for two overlapping calls in C158_overlap_iff_partial.",
"C159": "Exact: the text is kept if and only if the size is not 202403 * 2^-1074. The format and the reading are correctly rounded (as CPython's are), subnormal numbers and overflow included. Not modelled: the sign of zero.",
"C160": "First half violated: what is sent is read before the listeners are called, so an older value may be sent last (C160_counterexample: stream 2, map stream twice 1). Exact condition in C160_iff_partial (each map stream was called last with a value that gives the same). Holds if no thread reads the value it sends while another sends (C160_one_sends_partial), whatever the order of comparisons and assignments. Second half holds for every schedule (C160_delivered), and nothing is received that was not assigned (C160_assigned). The call of one listener is one step; one level of map streams; functions do not raise.",
"C161": "False of the code: the concat stream gives up its reference to the former stream before it asks for the next one, so a stream that nobody else refers to is closed and, when its item comes back, has the value None for ever (C161_counterexample); an item that is false counts as no item (C161_counterexample_false). Proved: the value in every history (C161_value), exactly when the promise is kept (C161_iff_partial), that it is kept when each item is true and has its own stream or when somebody else refers to the streams (C161_fresh_partial, C161_held_partial), and the reference counts (C161_references).",
"C162": "False of the code when two threads use the same component: both register it with the same type and both succeed (C162_counterexample_twice), or a component keeps a type under which it is not found and can never be unregistered (C162_counterexample_lost); get_component raises IndexError when the last component of the type is unregistered meanwhile (C162_counterexample_get). Proved: if each component is used by one thread, every schedule gives each thread the results, look-ups and events of its own calls alone (C162_own_partial, C162_final_partial with the specification of C28); what get_component returns given the states in which it reads (C162_get_partial). Simplified: the body of a loop for one type is one step; unregister without types takes the stored set at its look-up.",
"C163": "False of the code: ArrayModel.close calls the list `items` and always raises TypeError, so a closed array goes on announcing; closing a record that has fields a second time raises KeyError (C163_counterexample). Proved: who announces a change after every history (C163_told_partial), exactly when the promise is kept (C163_iff_partial), and what closing answers (C163_answers_partial). Insertion and removal of items is in C50-C54.",
"C164": {
"status": "partial",
"note": "The copies are right as long as no listener raises (C164_copies_partial), that of the first listener always (C164_first); the order in C164_order. False after an exception: a listener that removes an index which is not selected stops the others from being told (C164_counterexample). insert_index and remove_index are excluded, they never tell (C01)."
},
"C165": {
"status": "partial",
"note": "False: assigning a style leaves the indexes as they are, and clear then adds index 0 to them in Style.single (C165_counterexample). C165_iff_partial says exactly which histories keep the bound; C165_settles which single calls restore it from any state; C165_settled_partial joins the two."
},
"C166": {
"status": "partial",
"note": "C166_closed holds without condition. The values shown are right as long as no target raises (C166_shows_partial for histories, C166_assign_partial from any state), for the first binding always (C166_first). False after an exception: closing a binding that is closed already raises, and the bindings after it keep the old value (C166_counterexample)."
},
"C167": {
"status": "partial",
"note": "False if a listener told before the model assigns its container while the old one is telling: on a removal an item of the old container stays for good (C167_counterexample), on an insertion the assignment raises, the model is empty and its container can never be assigned again (C167_counterexample_stops). C167_iff_partial gives the exact condition as a count over the history, C167_surplus_partial what the items are otherwise, C167_polite_partial the plain sufficient condition; C167_replay holds always."
},
"C168": "The code truncates origin and size each by itself, so bottom and right are off by one when the two fractions add up to 1 or more (C168_counterexample: the only integer point of the float rectangle is not in the integer one, and the intersection with a FloatRect has a point that is not in it). C168_back and C168_bounds hold for all rectangles, C168_intersect for all intersections with float rectangles; C168_iff_partial says exactly when bottom and right are right, for origins and sizes that are not negative; C168_inside_partial that the points that are not before the true origin are inside, again not negative. Exact arithmetic, no rounding of doubles.",
"C169": "False for quiet: the timer is not restarted by further inputs, so a value can be delivered at once after it came (C169_counterexample); this is throttling, not debouncing. Holds in every schedule: a delivery comes at least a period after an input not delivered before (C169_debounce_after), deliveries are a period apart (C169_debounce_apart, C169_sample_apart). With a loop that is at most ε late (Punctual): C169_debounce_within_partial if no input comes while the stream fires (C41_counterexample otherwise), C169_sample_within_partial if no period ends in the middle of an input notification from another thread (C42_counterexample otherwise). asyncio.sleep is taken never to return early.",
"C170": "Fails for listeners told before the model of a change of the container it follows (C170_counterexample): C170_removed and C170_inserted say exactly what happens, C170_stuck that after an insertion no assignment or change ever has an effect, C170_iff_partial when the items are right all the same. Without such listeners it holds for every history (C170_polite_partial). Without sort key, change blocks and selections.",
"C171": "Invariant: the recorders that listen are those in the tree (C171_live). The events may come in any order and carry any content, so the result does not depend on the recorded objects. The recursion limit is modelled only for the setter that calls itself.",
"C172": "Fails: recorded functions read the property, or copy the inserted object, when they are applied (C172_counterexample). C172_property_partial and C172_iff_partial say exactly what happens with the properties of the recorded object itself; C172_same_partial says on what later changes the outcome can depend. On the model of C113.",
"C173": "Fails: streams made after one whose function raises are not told, and a stream that has one input twice calls its function with an old and a new value; if that raises it never gets further (C173_counterexample). C173_iff_partial says exactly which streams are right after an assignment, C173_first that the first one with distinct inputs always is, C173_recovers when a stream is right again, C173_right_partial that all are as long as nothing raises.",
"C174": "Holds for every history in which the listeners that assign the container during a change of what is followed are told after the model (C174_polite_partial). A listener told before the model: in an insertion of a master item or of a child, and in a removal of a master item other than the first, the assignment raises, the old container stays and no assignment helps any more (C174_inserted, C174_removed, C174_child_inserted, C174_stuck). In a removal of the first master item its children stay (C174_first); in a removal of a child the last child of the master item stays, or another one goes (C174_child_removed, with the exact items). C174_counterexample has one of each. Selections are not in this model.",
"C175": "Monotone, minimum, range of the integers and distance of values: C175_monotone, C175_back_monotone, C175_min, C175_range, C175_step. The largest value gets n or n - 1 (C175_max_partial), n if n is a power of two or n times the range is not rounded down; n is the integer of some value between the limits if and only if it is the one of the largest (C175_reached_iff). A hundred steps from 0 to 0.17: the largest value gets 99 (C175_counterexample_reached). The value of n is the largest value up to rounding (C175_top_partial), and may be larger: ten steps from 0 to 0.11 (C175_counterexample_top). Back and forth gives the integer or the one before it if n times the size of the limits is at most 2^48 times their distance (C175_round_trip_partial); far away from zero it does not (C175_counterexample_far: 25 steps). Overflow and underflow are not modelled.",
"C176": "Violated at both ends. make_pretty raises ZeroDivisionError exactly for the numbers up to 2^-1073 which are not zero (C176_number_raises_iff), and so does make_pretty_range2 of different numbers as close as that (C176_close_raises, C176_counterexample_small). For a range wider than 1.01e308 the answer is the one for no range: limits 0 and 0, one tick 0 (C176_wide, C176_counterexample_wide). From 1.35e308 to the largest float it raises OverflowError (C176_counterexample_large). For floats which are zero or between 2^-90 and 2^90 in size, and up to 2^20 ticks, nothing raises or overflows and the result is the one without limits on the exponent, of which C134 tells what it is (C176_agree_partial, C176_finite_partial). The pretty number of -v is the opposite one, also if infinite (C176_number_odd). As in C134, the logarithm is any function correct up to rounding, and pow gives the nearest float.",
"C177": "Violated in the order. For every comparison and every sort that permutes its list the shown items are the accepted items of the source once each (C177_complete) and observers can follow (C177_replayable). An item whose key can be compared with no other comes first, when it is inserted and when its key becomes such (C177_incomparable_first, C177_incomparable_moves, C177_nan_first). As long as all keys of source items are numbers everything is as in C20 to C26 (C177_ordered_partial). One item with nan is enough to put numbers out of order: with the keys 1, nan, 2 the number 3 is inserted between 1 and nan, and the order 1, 3, 2 stays after the item with nan is gone (C177_counterexample). Also nan of an item the filter does not accept, since all items are sorted before they are filtered: 3, nan, 1 with a filter for numbers is shown as 3, 1 (C177_counterexample_filtered, for sorts that leave a list alone in which no key is less than the one before, as Python's does).",
"C178": "Violated in two cases. A listener of the source that comes before the stream and assigns the source again leaves the stream at the object of the outer assignment, whose later changes it follows instead of those of the source's object (C178_counterexample_source). A listener of the property before the stream that raises keeps the change from the stream, which then has the old value (C178_counterexample_raises). In all other cases the claim holds: when the listeners of the source before the stream do nothing and those of the objects do not raise, listeners of objects, listeners of the source after the stream and listeners of the stream may do anything, the latter two also raise (C178_follows_partial). This differs from map streams (C109), since a property stream reads the property when it is told of a change instead of using what it was told. With any listeners whatever, what the stream told ends with its value and no value was told twice in a row (C178_told). With any listeners: the users listen to the objects as before, and the stream listens once to the object it is at and to no other (C178_hears).",
"C179": "Violated for removals: remove_item calls the callback before the storage is told, with the index from before. A callback that removes another item of the same relationship (a cascade) leaves the storage right just if that item came directly after the first (C179_cascade_iff); otherwise the storage keeps a removed item and loses another one (C179_counterexample_cascade, C179_counterexample_behind). A callback of a property that raises leaves the storage with the old value (C179_counterexample_raises). All else holds: items always (C179_items), every property whose last assignment was not ended by an exception of its callback (C179_properties), every relationship that was not changed while a removal from it waited for its callback and in which no such callback raised (C179_relationships_partial). If callbacks of properties, items and removals set only properties and items and let no exception out, everything is right whatever callbacks of insertions do (C179_quiet_partial). A cascade that takes the index beyond the end of the storage raises (C179_counterexample_index).",
"C180": "Violated for callbacks that use the uuid they are told about: a subscriber subscribed in a callback for a registration is told of it twice (C180_counterexample_twice); one subscribed in a callback for an unregistration is told of the object, then of the unregistration, and its subscription is lost (C180_counterexample_lost); a subscriber that subscribes again when it is told of the unregistration is told for ever, unregister does not return (C180_counterexample_forever); when a subscriber raises those after it are not told (C180_counterexample_raises). Proved: every uuid not used by a callback while a registration or unregistration of it is in progress, and none of whose registrations was ended by an exception, is at every time as if the operations on it had been made one after the other with callbacks that do nothing, whatever happens to other uuids (C180_sequential_partial); in particular if uuids have ranks such that callbacks for a uuid use only higher ones (C180_ranked_partial).",
"C181": "The items are always right (C181_items). The selection is not: its indexes are moved after the observers were told, so for a call within a call in the wrong order. An observer that takes a new item out again deselects the item after it (C181_counterexample_reject); one that puts an item behind the new one selects that item instead of the next (C181_counterexample_behind). C181_nested_iff says exactly when the selection is right for one call within another, in terms of which items were selected. It is right if no call is made while observers of the mapped list model are told (C181_selection_partial), for instance since these only read, whatever observers of the source do (C181_reads_partial). C181_told: events are told with the item of the source; the one of the mapped list model is its image.",
"C182": "True if everybody inserts into and removes from the source only (C182_source): also whenever an observer is told, at any depth, and when observers raise. False when items are changed or filters assigned: an item that is taken out of the source while it is moved to its new place stays in the list (C182_counterexample_ghost), one that changes again meanwhile is in the list twice (C182_counterexample_twice), and when an item is removed from the source while a filter is assigned the assignment raises IndexError and leaves the list empty (C182_counterexample_raises). In general the items are right if nothing was done while a move or a full update was going on, since the last full update (C182_items_partial), in particular if observers only read or raise (C182_reads_partial). A list that became wrong is right again after an assignment of the filter during which observers do nothing (C182_repair). Change blocks and selections are left out. C182_told: for an observer that only notes; removals are compared by index (an update may name another item, C26).",
"C183": "False: if an observer removes the master item whose children are being added, the children stay (C183_counterexample_ghost); if it adds a child to it, the child is there twice (C183_counterexample_twice); if it inserts a master item while another is being removed, the new one is forgotten in place of the old one, and its later children are in the wrong place (C183_counterexample_order). True as long as no master item or its children were changed while it was being inserted or removed, and no master item was inserted or removed while one was being removed (C183_items_partial); then also observers told meanwhile see right items, when no master item is being inserted or removed. In particular true when no master items are removed and observers only insert master items, and change children of master items that nobody inserts (C183_apart). Selections are left out. C183_told: the one that notes is told first; the others act and raise as they like.",
"C184": "False: a fire goes on with the value it began with. A listener of a map stream that assigns the input leaves a sum of the input and the map stream with the value the input had before (C184_counterexample), and a listener that raises keeps the streams after it from being told (C184_counterexample_raises). True if no stream takes another value while a stream that listens to it is still to be told of the value before, and no listener raises then (C184_streams_partial); then listeners told while no stream is still to be told see right values of all streams. In particular true if listeners that assign or raise come after all streams that listen to the same stream, and only at value streams and at streams that each of their inputs tells last (C184_last), and if nobody assigns (C184_passive). Map functions do not touch streams.",
"C185": "The first part is true (C185_batched). The second is false: an observer that inserts into the source when it is told of an item at the end of a block makes the block raise KeyError and an item is missing (C185_counterexample); if it does so within a block of its own, an item is there twice (C185_counterexample_twice). True if nothing is done while an update is going on (C185_items_partial; the block raises only if something was, C185_raises), in particular if observers act only when the source tells them, in blocks or not (C185_source). Without sort key the order is that of the source if the direction is not reversed and no item was taken out and put back within a block (as in C20). C185_told: for observers that do nothing but note and perhaps raise; removals are compared by index.",
"C186": "True (C186_contents, C186_told, C186_changes; insertions and assignments in C186_raises, on_value_changed being the exception) except for removals: if a listener of an array's item_removed_event removes items itself, remove_item raises IndexError from the list of internal listeners, though the item was there and is gone, array_item_removed_event is not fired and a list kept from the record's events has an item too many (C186_counterexample). It raises only so, or if there is no such item (C186_raises). Arrays that change have plain values here.",
"C187": "False: a listener of the source, or of the stream of the item, that is told before the concat stream and assigns the same stream leaves the concat stream with the former item or value (C187_counterexample, C187_counterexample_value); if it raises the concat stream is not told (C187_counterexample_raises); if the function raises the concat stream keeps the value of the former stream without following it (C187_counterexample_function; the next item puts it right). True if nothing of the first three kinds happens (C187_value_partial), in particular if listeners told before the concat stream only look (C187_quiet); other streams may be assigned by anyone. An undisturbed assignment of another item puts everything right (C187_recovers). Listeners of the concat stream have its value (C187_listeners), unless one before them raised.",
"C188": "False: if two threads make their first call at the same time, each makes a registry; the one stored last replaces the other, with what was registered there meanwhile (C188_counterexample). True from the moment the registry is stored and no thread is between the test and the storing (C188_one_partial), in particular if one call is past that point before other threads begin (C188_first), and for one thread (C188_sequential). A thread makes at most one registry (C188_managers). A call is one step here, C162 has its parts.",
"C189": "False: if the converter of one binding raises, the bindings made after it are not told, and their targets show the former value (C189_counterexample). True for a binding if no listener told before it has raised (C189_targets_partial, C189_changed_partial), in particular if nobody raises (C189_all). Exceptions as stated (C189_raises). An attribute binding without update_attribute_fn, which changes the object in place, is left to C86.",
"C190": "C190_references and C190_closed prove the counts, that nothing fails, that closing happens once and only then, and that a closed derived stream starts no telling and has no value. The last sentence is false: listeners that come after the one that gives up the last reference are told after the stream is closed (C190_counterexample), and a combined stream that is being closed tells functions of None if a listener of an input that closes with it assigns another input (C190_counterexample_none). Nobody gives up references of others; functions do not raise or act.",
"C191": "C191_replay_partial: true if listeners told about items before the recorder neither change the object nor raise and those told about properties before do not raise; listeners after it may do anything. Otherwise false: a listener told before the recorder that appends an item makes the recorder raise for the outer change, which is then missing (C191_counterexample); if it raises, the change is not recorded (C191_counterexample_raises). Items are opaque (C113 for what is in them); changes in the middle are not recorded anyway (C61).",
"C192": "False: if an observer told before it inserts into the source, the later event comes first (C192_counterexample_before, C192_counterexample_changes, C192_counterexample_flattened, C192_counterexample_mapped); since a filtered list model changes its items before it fires begin_changes_event, this also happens if any observer acts on that event, wherever it stands (C192_counterexample_begin); and if an observer told before it raises, it misses the item (C192_counterexample_raises, C192_counterexample_mapped_raises). True if nobody acts on begin_changes_event and observers told of items before it neither act nor raise then (C192_blocks_partial, C192_changes_partial, C192_flattened_partial, C192_mapped_partial): whatever others do at other events or after it, and also when the items themselves become wrong (C182, C183, C185). Items named in removals are not used, only indexes.",
"C193": "Proved. Texts of float points (repr of floats) are not modelled.",
"C194": "False: update_source and get_target_value test the setter or getter and read it, and then the source, again; they raise TypeError or AttributeError if close comes between (C194_counterexample_update, C194_counterexample_get). A change that reaches the binding meanwhile raises TypeError or AssertionError, so listeners after it are not told (C194_counterexample_notify); the target can be shown a value after close has returned (C194_counterexample_shown). Proved for every schedule: calls raise only if close had begun when they ended and had not returned when they began; otherwise they do what they should; the property is what was assigned last (C194_calls_partial). close is called once.",
"C195": "False: the setter does not take the lock. A call of the old container that reaches the mapped list after the assignment changes it (C195_counterexample_late); one not told of when the listeners are closed makes the setter raise IndexError, leaving an empty list without listeners (C195_counterexample_raises); an insertion into the new container while it is copied is there twice (C195_counterexample_twice). Proved for every schedule in which no call of the new container is under way during the assignment, and none of the old one until its list has been copied; calls of other containers may go on (C195_containers_partial). Change blocks and selections are left out.",
"C196": "Proved when there always is a sort key (C196_sorted_partial). False without sort key: the filter setter assigns the filter and clears the flag of sorted items without the mutex, so an item inserted meanwhile is put at a wrong index and the update of another thread sets the flag again (C196_counterexample_order). begin_change is one step here; its lost updates are in C115. A change of the source is one step with its notification (C158 for the other case).",
"C197": "False: an object replaced with set_item keeps its context and stays registered (C197_counterexample_replaced), so putting it back raises AssertionError (C197_counterexample_back), and if it is put into an object without context, giving that one the context fails half way (C197_counterexample_half). True if items are only set where none is set and objects put into others were not given the context themselves (C197_registered_partial). With items replaced, as long as replaced objects are not put anywhere: registered are also the objects that were replaced and what they contain (C197_replaced_partial), and only giving the context twice raises (C197_raises_partial). C197_insert_iff says exactly when putting an object into another raises, and when it leaves a tree in which some are registered and some not.",
"C198": "False: a function that assigns the source of its own stream (C198_counterexample_map), or another input of it (C198_counterexample_combine), leaves the stream with the result for the old arguments, which is stored last. True if no stream takes another value while a stream that listens to it is still to be told or computes its function, no stream is told while it computes its function, and no listener raises while streams are to be told (C198_functions_partial); in particular if streams have ranks, above those of their inputs, such that functions assign only value streams with ranks not below that of their stream and listeners only such with higher ranks (C198_ranked). Functions that raise: C153, C173.",
"C199": "False: whether an object is true is asked once, when it arrives. One that is false then is treated like None: the stream keeps the value of the object before, and sees nothing of the new one, also when it becomes true (C199_false, C199_counterexample); a stream made on it has no value (C199_counterexample_made). One that is true when it arrives is followed until the next one arrives, also if it becomes false (C199_true_partial). For any comparison, the values fired are exactly those the property takes while it is followed, each that differs from the one before (C199_fires).",
"C200": "False. Reading raises exactly if the value cannot be read (C200_raises_iff), but texts and dicts are read into arrays as lists of texts, and texts and lists into records if no field is called as a part of them (C200_counterexample_text, C200_counterexample_list). If it raises, what comes before is read and what comes after is not, and arrays have the new number of items (C200_record, C200_array exactly; C200_counterexample, C200_counterexample_array). True of records and values that are no dicts, and of arrays and values without elements (C200_unchanged_partial).",
"C201": "False: the setter does not take the lock. A removal from the old container that reaches the filtered list after the assignment takes an item of the new container from it (C201_counterexample_late); an insertion not told of when the listeners are closed makes the setter raise KeyError, with nothing heard of the container any more (C201_counterexample_raises); an insertion into the new container while it is copied makes the setter raise AssertionError, with items missing (C201_counterexample_twice); the same for flattened lists (C201_counterexample_flattened_late, _raises, _twice). Proved for every schedule in which no call of the new container is under way during the assignment, and none of the old one until its list has been copied (C201_filtered_partial, C201_flattened_partial). Child lists that change meanwhile, change blocks, selections and items that change are left out.",
"C202": "The part about the storage is false: defining and undefining do not tell the storage. A property defined with a value is not stored until it is assigned (C202_counterexample_default); the value of one that is defined again (C202_counterexample_again) or undefined (C202_counterexample_undefined) stays stored. Proved: definitions and values (C202_values), what the storage has (C202_storage) and what is written (C202_dict) after every history; both agree for properties assigned since they were defined (C202_assigned_partial), what they are for those not assigned since (C202_defined) and those undefined (C202_undefined). The comparison is for properties that keep their keys, with distinct keys, and with their name as key where nothing is written (C59 has the others). Hidden and read-only properties and custom writers are left out.",
"C203": "The target is told of a first part of the changes, then, while only the listener for removals is open, of removals, then of nothing; of the changes made before close at most the one in progress is not in the first part. If nothing is removed while close is at work, the target is a list the source had. Otherwise it need not be: an insertion is missed and the removal after it is not, which removes another item or has no such index; and a call in progress comes after close has returned.",
"C204": "Every call that ends did what it should, or raised because it overlapped with close. With tuples, or a function that makes another object, a call that raises has changed nothing. An attribute that is set in the object itself stays set when the source is found to be gone: the call raises, the property is not assigned, nobody is told.",
"C205": "The members are right, for insertions at places that exist, of objects not in use. The storage has them and, behind them, everything it had when the relationship was defined (C205_stored): it is right exactly if that was nothing. Members at the time of a new definition keep the context for good, and can neither be removed nor inserted again (C205_left). Indexes that count from the end are another place in the storage then (C205_counterexample_index). Callbacks are left out.",
"C206": "Violated: a list of pairs makes a record as a field but raises as an item of an array, and is silently ignored when read into the record (C206_counterexample); a text makes an array of letters and zero a record (C206_counterexample_text). Proved exactly: what raises (C206_raises_iff, C206_item_raises_iff) and what the model has (C206_record, C206_array, C206_scalar); with dicts fields and items agree (C206_dict_partial).",
"C207": "Violated: fields that were None stay set (C207_counterexample), and an array of scalars with items raises (C207_counterexample_scalar). Proved exactly: when a model is brought back (C207_restored_iff_partial), when the dict can be had (C207_values_iff); without changes in between nothing changes (C207_self); for models reached by building and reading: C207_reached_partial.",
"C208": "Violated: a point is equal to a size, to a longer tuple and to a text, a size to a tuple of None (C208_counterexample); comparing a point with a rectangle, a number, an empty tuple or a word raises (C208_counterexample_raises). Proved exactly what is equal and what raises (C208_point_partial, C208_size_partial, C208_rect_partial), != (C208_ne), equivalence (C208_equivalence) and that two of the same kind are compared as expected (C208_same_class). Floats are in C93 and C168."
}