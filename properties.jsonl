{"id": "C01", "title": "Index arrays stay canonical", "statement": "Whatever sequence of add, remove, clear, shift_left, shift_right, update and item deletion is applied to a ParameterIndexOperations (directly or through views), the array stored for every property is strictly increasing (sorted, no duplicate), and items()/properties()/indices() never list a property whose array is empty.", "quantifier": "every finite sequence of operations with arbitrary property keys, index arrays (unsorted and with duplicates), starts, sizes and view windows", "why_tests_cant": "the history of operations is unbounded; a test fixes one sequence and one set of arrays", "anchors": ["paramz/core/index_operations.py:ParameterIndexOperations", "paramz/core/index_operations.py:combine_indices", "paramz/core/index_operations.py:remove_indices", "paramz/core/index_operations.py:ParameterIndexOperationsView"]}
{"id": "C02", "title": "Index operations are set algebra", "statement": "Seen as a relation 'element i carries property t', add(t, I) adds exactly the pairs (t,i), i in I; remove(t, I) deletes exactly the pairs (t,i), i in I, and returns exactly the indices that were present and are now gone; del x[t] and clear() delete exactly the pairs of t / all pairs; update(other, offset) adds other's pairs moved by offset; nothing else changes.", "quantifier": "all states, all properties, all index arrays (including arrays with repeated entries)", "why_tests_cant": "needs every index array and every state; the returned value depends on numpy set routines whose preconditions (assume_unique) tests never violate", "anchors": ["paramz/core/index_operations.py:ParameterIndexOperations.add", "paramz/core/index_operations.py:ParameterIndexOperations.remove", "paramz/core/index_operations.py:ParameterIndexOperations.update", "paramz/core/index_operations.py:ParameterIndexOperations.clear", "paramz/core/index_operations.py:ParameterIndexOperations.__delitem__"]}
{"id": "C03", "title": "Shifts open and close a gap exactly", "statement": "shift_right(start,size) moves the properties of every element at or after start up by size and leaves the others and leaves the gap [start,start+size) empty; shift_left(start,size) drops the properties of [start,start+size) and moves later ones down by size; shift_left after shift_right with the same arguments restores the original contents.", "quantifier": "all states, all starts and sizes, directly and through views", "why_tests_cant": "universally quantified over positions and sizes; off-by-one errors only show at particular boundaries", "anchors": ["paramz/core/index_operations.py:ParameterIndexOperations.shift_right", "paramz/core/index_operations.py:ParameterIndexOperations.shift_left", "paramz/core/index_operations.py:ParameterIndexOperationsView.shift_right", "paramz/core/index_operations.py:ParameterIndexOperationsView.shift_left"]}
{"id": "C04", "title": "A view is exactly a window onto its parent", "statement": "Reading through ParameterIndexOperationsView(parent, offset, size) shows index i under t iff 0<=i<size and the parent lists offset+i under t; adding or removing indices inside the window through the view changes precisely the corresponding parent pairs and no pair outside the window; clear() empties the window only; copy() is an independent ParameterIndexOperations with the window's contents. The same holds for views of views.", "quantifier": "all parents (real or themselves views), offsets, sizes, properties and in-window index arrays", "why_tests_cant": "nesting depth, offsets and contents are unbounded", "anchors": ["paramz/core/index_operations.py:ParameterIndexOperationsView", "paramz/core/index_operations.py:ParameterIndexOperationsView._filter_index", "paramz/core/index_operations.py:ParameterIndexOperationsView.copy", "paramz/core/index_operations.py:ParameterIndexOperationsView.clear"]}
{"id": "C05", "title": "properties_for and properties_dict_for agree with the index arrays", "statement": "properties_for(I) returns a list of the same length as I whose k-th entry lists exactly the properties carried by I[k], each once, in the order of items(); properties_dict_for(I) returns for each property carried by some element of I exactly the elements of I carrying it, in the order of I.", "quantifier": "all states and all index arrays", "why_tests_cant": "depends on all states and all queries", "anchors": ["paramz/core/index_operations.py:ParameterIndexOperations.properties_for", "paramz/core/index_operations.py:ParameterIndexOperations.properties_dict_for", "paramz/core/index_operations.py:extract_properties_to_index"]}
{"id": "C06", "title": "Observers are called by descending priority, first come first served", "statement": "After any sequence of add_observer, remove_observer and change_priority, notify_observers() calls every registered live (observer, callback) pair, highest priority first and in registration order within one priority; with min_priority=q exactly the pairs of priority > q are called, in the same order; nothing is called while updates are off.", "quantifier": "all histories of registrations and all priorities; observers compared by identity (C79 treats observers with an == of their own)", "why_tests_cant": "ordering must hold for all interleavings of registrations and removals", "anchors": ["paramz/core/lists_and_dicts.py:ObserverList.add", "paramz/core/lists_and_dicts.py:ObserverList.remove", "paramz/core/lists_and_dicts.py:ObserverList.flush", "paramz/core/observable.py:Observable.add_observer", "paramz/core/observable.py:Observable.notify_observers", "paramz/core/observable.py:Observable.change_priority"]}
{"id": "C07", "title": "remove_observer removes exactly the matching registrations", "statement": "remove_observer(o, c) leaves no pair (o, c) registered and keeps every other registration in its order; remove_observer(o) leaves no registration of o and keeps all others.", "quantifier": "all observer lists, observers and callbacks, including repeated registrations; observers compared by identity (C79 treats observers with an == of their own)", "why_tests_cant": "removal while iterating is order sensitive; every list shape has to be covered", "anchors": ["paramz/core/observable.py:Observable.remove_observer", "paramz/core/lists_and_dicts.py:ObserverList.remove"]}
{"id": "C08", "title": "A notification round is not disturbed by its own callbacks", "statement": "If callbacks add, remove or re-prioritise observers of the same observable while a notification is running, the running round still calls exactly the pairs that were registered when it started, each once; the changes take effect from the next round.", "quantifier": "all observer lists and all behaviours of callbacks (arbitrary list edits after each call); observers compared by identity (C79 treats observers with an == of their own)", "why_tests_cant": "reentrancy schedules are unbounded", "anchors": ["paramz/core/lists_and_dicts.py:ObserverList.__iter__", "paramz/core/lists_and_dicts.py:ObserverList.flush", "paramz/core/lists_and_dicts.py:ObserverList.add", "paramz/core/lists_and_dicts.py:ObserverList.remove", "paramz/core/observable.py:Observable.notify_observers"]}
{"id": "C09", "title": "A cached call returns what the operation would return now", "statement": "In every history of cached calls, in-place changes of observable inputs (with updates on), evictions, resets, enabling/disabling, failing operations and garbage collection with reuse of memory addresses, each call of a Cacher returns the value its operation returns for the present contents of the arguments (for operations that are functions of the non-ignored argument contents).", "quantifier": "all histories, all operations, all limits, all argument lists (positional and keyword)", "why_tests_cant": "coherence is a property of all interleavings of calls, writes, evictions and address reuse", "anchors": ["paramz/caching.py:Cacher.__call__", "paramz/caching.py:Cacher.combine_inputs", "paramz/caching.py:Cacher.prepare_cache_id", "paramz/caching.py:Cacher.add_to_cache", "paramz/caching.py:Cacher.ensure_cache_length", "paramz/caching.py:Cacher.on_cache_changed"]}
{"id": "C10", "title": "The cache never exceeds its limit and evicts oldest first", "statement": "After every step of every history a Cacher with limit n>=1 holds at most n results, its order queue, stored inputs, stored outputs and change flags describe the same set of entries, and a new entry displaces the entry stored longest ago.", "quantifier": "all histories and all limits", "why_tests_cant": "resource bound over unbounded histories", "anchors": ["paramz/caching.py:Cacher.ensure_cache_length", "paramz/caching.py:Cacher.add_to_cache", "paramz/caching.py:Cacher.reset"]}
{"id": "C11", "title": "The operation is not re-run for unchanged cached inputs", "statement": "If a call stored its result as a new entry, and since then fewer than `limit` calls have run the operation, none of its inputs announced a change, nothing was reset or disabled and no call failed, repeating it does not run the operation and returns the stored result. (Entries are dropped in the order they were stored, not by last use.)", "quantifier": "all histories between the two calls", "why_tests_cant": "the intermediate history is arbitrary", "anchors": ["paramz/caching.py:Cacher.__call__"]}
{"id": "C12", "title": "The cacher observes exactly the inputs it stores", "statement": "At every point of every history the Cacher is registered as observer on an observable input iff some stored entry has that input (so reset or eviction leaves no dangling registration, and no stored input can change unnoticed).", "quantifier": "all histories", "why_tests_cant": "balanced registration over unbounded histories with shared and repeated inputs", "anchors": ["paramz/caching.py:Cacher.add_to_cache", "paramz/caching.py:Cacher.ensure_cache_length", "paramz/caching.py:Cacher.reset", "paramz/caching.py:Cacher.on_cache_changed"]}
{"id": "C13", "title": "Cache keys are unambiguous", "statement": "Two argument combinations get the same cache id iff they are the same sequence of objects (after dropping ignored positions): concatenating the hexadecimal addresses never confuses two different sequences.", "quantifier": "all sequences of addresses, of any length", "why_tests_cant": "injectivity over infinitely many address sequences", "anchors": ["paramz/caching.py:Cacher.id", "paramz/caching.py:Cacher.prepare_cache_id", "paramz/caching.py:Cacher.combine_inputs"]}
{"id": "C14", "title": "A failing operation leaves a clean cache", "statement": "If the operation raises, the exception reaches the caller unchanged and the cache afterwards holds nothing and observes nothing; the next call recomputes.", "quantifier": "all states and all failing calls", "why_tests_cant": "must hold from every cache state", "anchors": ["paramz/caching.py:Cacher.__call__", "paramz/caching.py:Cacher.reset"]}
{"id": "C15", "title": "Transformed values satisfy their constraint", "statement": "For every real optimiser value x, Logexp, Exponent give f(x)>0, NegativeLogexp, NegativeExponent give f(x)<0, Square gives f(x)>=0 and Logistic(l,u) gives l<f(x)<u.", "quantifier": "all real x; all l<u", "why_tests_cant": "continuum of inputs", "anchors": ["paramz/transformations.py:Logexp.f", "paramz/transformations.py:Exponent.f", "paramz/transformations.py:NegativeLogexp.f", "paramz/transformations.py:NegativeExponent.f", "paramz/transformations.py:Square.f", "paramz/transformations.py:Logistic.f"]}
{"id": "C16", "title": "f inverts finv on the constrained domain", "statement": "For every value y of the constrained domain for which no clipping limit is hit, f(finv(y)) = y: reading a parameter into optimiser space and writing it back does not change it.", "quantifier": "all y in the domain (positive, negative, non-negative, or between bounds) within the stated clipping limits", "why_tests_cant": "continuum of inputs; tests sample a few points with tolerance", "anchors": ["paramz/transformations.py:Logexp.finv", "paramz/transformations.py:Exponent.finv", "paramz/transformations.py:NegativeLogexp.finv", "paramz/transformations.py:NegativeExponent.finv", "paramz/transformations.py:Square.finv", "paramz/transformations.py:Logistic.finv"]}
{"id": "C17", "title": "finv inverts f on optimiser space", "statement": "For every optimiser value x within the clipping limits, finv(f(x)) = x (for Logexp up to an error below 2.4e-16 at the switch point 36): what an optimiser writes is what it reads back.", "quantifier": "all real x within the limits", "why_tests_cant": "continuum of inputs", "anchors": ["paramz/transformations.py:Logexp.f", "paramz/transformations.py:Exponent.f", "paramz/transformations.py:NegativeLogexp.f", "paramz/transformations.py:NegativeExponent.f", "paramz/transformations.py:Square.f", "paramz/transformations.py:Logistic.f"]}
{"id": "C18", "title": "gradfactor is the chain rule", "statement": "For every optimiser value x within the limits and every model gradient df, gradfactor(f(x), df) = df * f'(x), so gradients handed to the optimiser are gradients with respect to the optimiser's variables.", "quantifier": "all x within the limits and all df", "why_tests_cant": "derivatives at all points; finite differences only approximate a few", "anchors": ["paramz/transformations.py:Logexp.gradfactor", "paramz/transformations.py:Exponent.gradfactor", "paramz/transformations.py:NegativeLogexp.gradfactor", "paramz/transformations.py:NegativeExponent.gradfactor", "paramz/transformations.py:Square.gradfactor", "paramz/transformations.py:Logistic.gradfactor"]}
{"id": "C19", "title": "initialize lands in the domain and keeps valid values", "statement": "For every real value v, initialize(v) lies in the (closed) constrained domain, equals v when v already is in the domain, and is idempotent.", "quantifier": "all real v", "why_tests_cant": "continuum of inputs", "anchors": ["paramz/transformations.py:Logexp.initialize", "paramz/transformations.py:Exponent.initialize", "paramz/transformations.py:NegativeLogexp.initialize", "paramz/transformations.py:NegativeExponent.initialize", "paramz/transformations.py:Square.initialize", "paramz/transformations.py:Logistic.initialize"]}
{"id": "C20", "title": "log_jacobian is the log of the derivative of f", "statement": "For Logexp and Exponent, log_jacobian(f(x)) = log f'(x) and log_jacobian_grad is its derivative with respect to the model value, for every x within the limits.", "quantifier": "all x within the limits", "why_tests_cant": "continuum of inputs", "anchors": ["paramz/transformations.py:Logexp.log_jacobian", "paramz/transformations.py:Logexp.log_jacobian_grad", "paramz/transformations.py:Exponent.log_jacobian", "paramz/transformations.py:Exponent.log_jacobian_grad"]}
{"id": "C21", "title": "Equal transformations are one object", "statement": "In every history of constructions, garbage collections included, two live results of the same parameterless transformation class are the same object, and two live Logistic objects built with equal bounds are the same object, so constraining and unconstraining by value address the same index set.", "quantifier": "all histories of constructor calls over any number of classes and bounds", "why_tests_cant": "identity over all histories of construction and collection", "anchors": ["paramz/transformations.py:Transformation.__new__", "paramz/transformations.py:Logistic.__new__"]}
{"id": "C22", "title": "Linking never changes any parameter's constraints", "statement": "After a successful link_parameter, for every Param in either hierarchy (the one linked into and the one linked) and every constraint t, that Param's constraints[t] lists the same local indices as before.", "quantifier": "all histories of link/unlink/constrain/fix/unfix leading to the state; all insertion positions; all depths and sizes", "why_tests_cant": "hierarchies of unbounded shape; each link moves offsets of all later parameters at all levels", "anchors": ["paramz/parameterized.py:Parameterized.link_parameter", "paramz/core/indexable.py:Indexable._parent_changed", "paramz/core/indexable.py:Indexable._offset_for"]}
{"id": "C23", "title": "Unlinking never changes any parameter's constraints", "statement": "After a successful unlink_parameter, for every Param (of the remaining hierarchy and of the removed one) and every constraint t, that Param's constraints[t] is as before; the removed parameter is its own root and owns its constraints.", "quantifier": "all reachable hierarchies, all parameters (histories of constructing, linking, unlinking, initialising, constraining and fixing calls in which every link request is well-formed: the new parent is not inside the parameter, the position is within the list, the new parent is a root or part of an initialised hierarchy)", "why_tests_cant": "hierarchies of unbounded shape", "anchors": ["paramz/parameterized.py:Parameterized.unlink_parameter", "paramz/core/indexable.py:Indexable._disconnect_parent"]}
{"id": "C24", "title": "Parameters tile their parent exactly", "statement": "At every reachable state every Parameterized's size is the sum of its children's sizes, each parameter's offset in any ancestor is the total size of the parameters before it, and the windows of distinct leaves are disjoint and cover 0..size.", "quantifier": "all reachable hierarchies (histories of constructing, linking, unlinking, initialising, constraining and fixing calls in which every link request is well-formed: the new parent is not inside the parameter, the position is within the list, the new parent is a root or part of an initialised hierarchy)", "why_tests_cant": "all shapes and sizes", "anchors": ["paramz/core/indexable.py:Indexable._offset_for", "paramz/core/indexable.py:Indexable._raveled_index_for", "paramz/parameterized.py:Parameterized.link_parameter", "paramz/parameterized.py:Parameterized.unlink_parameter"]}
{"id": "C25", "title": "The hierarchy stays a forest", "statement": "After any sequence of link and unlink calls parent and child pointers agree, no parameter occurs twice and no parameter is its own ancestor; a request that would break this is rejected with HierarchyError.", "quantifier": "all histories of link/unlink with arbitrary arguments", "why_tests_cant": "all histories and all argument choices", "anchors": ["paramz/parameterized.py:Parameterized.link_parameter", "paramz/parameterized.py:Parameterized.unlink_parameter"]}
{"id": "C26", "title": "Constraining overrides, and touches only its target", "statement": "After x.constrain(t) every element of x carries exactly t; elements outside x keep exactly the constraints they had; every element of the model carries at most one transformation besides being fixed, in every reachable state.", "quantifier": "all reachable hierarchies; every target (leaf, sub-hierarchy, root, indexed part); all transformations (histories of constructing, linking, unlinking, initialising, constraining and fixing calls in which every link request is well-formed: the new parent is not inside the parameter, the position is within the list, the new parent is a root or part of an initialised hierarchy)", "why_tests_cant": "all shapes, targets and histories", "anchors": ["paramz/core/constrainable.py:Constrainable.constrain", "paramz/core/constrainable.py:Constrainable.unconstrain", "paramz/core/indexable.py:Indexable._add_to_index_operations", "paramz/core/indexable.py:Indexable._remove_from_index_operations"]}
{"id": "C27", "title": "Fixing and unfixing are inverse and keep transformations", "statement": "x.fix() makes every element of x fixed and changes no other element's status and no transformation; x.unfix() makes every element of x unfixed and changes nothing else; unfix after fix of an unfixed target restores the constraint state; is_fixed is true iff all elements are fixed.", "quantifier": "all reachable hierarchies and targets (histories of constructing, linking, unlinking, initialising, constraining and fixing calls in which every link request is well-formed: the new parent is not inside the parameter, the position is within the list, the new parent is a root or part of an initialised hierarchy)", "why_tests_cant": "all shapes, targets and histories", "anchors": ["paramz/core/constrainable.py:Fixable.constrain_fixed", "paramz/core/constrainable.py:Fixable.unconstrain_fixed", "paramz/core/constrainable.py:Fixable.is_fixed", "paramz/core/constrainable.py:Fixable._set_fixed", "paramz/core/constrainable.py:Fixable._set_unfixed"]}
{"id": "C28", "title": "The fix mask of the model agrees with its fixed elements", "statement": "At every reachable state of a model, element i is passed to the optimiser iff it is not listed under constraints['fixed'].", "quantifier": "all histories of link/unlink/constrain/fix/unfix/unconstrain (histories of constructing, linking, unlinking, initialising, constraining and fixing calls in which every link request is well-formed: the new parent is not inside the parameter, the position is within the list, the new parent is a root or part of an initialised hierarchy)", "why_tests_cant": "two redundant representations kept in step by many operations", "anchors": ["paramz/core/constrainable.py:Fixable._ensure_fixes", "paramz/core/constrainable.py:Fixable._set_fixed", "paramz/core/constrainable.py:Fixable._set_unfixed", "paramz/core/constrainable.py:Fixable._connect_fixes", "paramz/core/constrainable.py:Fixable._has_fixes"]}
{"id": "C29", "title": "optimizer_array lists exactly the free elements", "statement": "Reading optimizer_array gives one entry per non-fixed element, in order: finv of the element's transformation applied to its value (the value itself if unconstrained); its length is size minus number of fixed elements.", "quantifier": "all parameter vectors, constraint assignments and fix patterns", "why_tests_cant": "all combinations of sizes, constraints and fixes", "anchors": ["paramz/core/parameter_core.py:OptimizationHandlable.optimizer_array", "paramz/core/parameter_core.py:OptimizationHandlable._size_transformed"]}
{"id": "C30", "title": "Setting optimizer_array never moves fixed elements and respects constraints", "statement": "Assigning any vector of the right length to optimizer_array leaves every fixed element bit for bit unchanged and puts every free constrained element at f(x) inside its domain.", "quantifier": "all vectors, constraint assignments and fix patterns", "why_tests_cant": "all combinations; continuum of vectors", "anchors": ["paramz/core/parameter_core.py:OptimizationHandlable.optimizer_array"]}
{"id": "C31", "title": "optimizer_array round trips", "statement": "m.optimizer_array = x followed by reading gives x back (x within the limits of C17); m.optimizer_array = m.optimizer_array leaves all parameter values unchanged (values within the limits of C16).", "quantifier": "all models, constraint assignments, fix patterns and vectors", "why_tests_cant": "all combinations; continuum of vectors", "anchors": ["paramz/core/parameter_core.py:OptimizationHandlable.optimizer_array"]}
{"id": "C32", "title": "optimizer_array is never stale", "statement": "Reading optimizer_array always reflects the parameter values and constraints at the time of reading, whatever reads, writes, (un)constrain and update_model calls happened before.", "quantifier": "all histories", "why_tests_cant": "the getter caches; staleness depends on the history", "anchors": ["paramz/core/parameter_core.py:OptimizationHandlable.optimizer_array", "paramz/core/parameter_core.py:Parameterizable._parameters_changed_notification", "paramz/core/constrainable.py:Constrainable.unconstrain"]}
{"id": "C33", "title": "Optimiser gradient is the chain-rule gradient of the free elements", "statement": "The gradient handed to the optimiser lists, for each free element in order, gradfactor of its transformation applied to its model gradient, and computing it does not change the model gradient the user sees.", "quantifier": "all gradients, constraint assignments and fix patterns", "why_tests_cant": "all combinations; in-place updates only show when the gradient is read afterwards or transformed twice", "anchors": ["paramz/core/parameter_core.py:OptimizationHandlable._transform_gradients", "paramz/model.py:Model._grads"]}
{"id": "C34", "title": "Transformed positions match optimizer_array", "statement": "_raveled_index_for_transformed(p) lists, for each free element of p in order, the position of that element in optimizer_array; positions of different parameters never coincide and jointly cover optimizer_array.", "quantifier": "all sizes, fix patterns and parameters", "why_tests_cant": "all fix patterns", "anchors": ["paramz/core/indexable.py:Indexable._raveled_index_for_transformed"]}
{"id": "C35", "title": "Linking and unlinking keep parameter values", "statement": "link_parameter and unlink_parameter change no Param's values anywhere in the hierarchies involved.", "quantifier": "all hierarchies (any depth), positions and contents, any contents of uninitialised memory", "why_tests_cant": "depends on depth, on buffer sharing and on uninitialised memory, which tests see as luck", "anchors": ["paramz/parameterized.py:Parameterized._connect_parameters", "paramz/parameterized.py:Parameterized.link_parameter", "paramz/parameterized.py:Parameterized.unlink_parameter", "paramz/core/parameter_core.py:Parameterizable._propagate_param_grad", "paramz/core/parameter_core.py:Parameterizable.param_array"]}
{"id": "C36", "title": "There is one copy of every parameter in memory", "statement": "In a connected hierarchy a write through any object (leaf, sub-hierarchy or root array) is immediately visible through every other object that contains the element, at the element's offset.", "quantifier": "all hierarchies and all writes", "why_tests_cant": "aliasing for all shapes and positions", "anchors": ["paramz/parameterized.py:Parameterized._connect_parameters", "paramz/core/parameter_core.py:Parameterizable._propagate_param_grad"]}
{"id": "C37", "title": "One write updates each ancestor exactly once, bottom up", "statement": "Changing a Param with updates on calls parameters_changed of each ancestor exactly once, nearest ancestor first, and of no other node.", "quantifier": "all hierarchies and leaves", "why_tests_cant": "all shapes and depths", "anchors": ["paramz/core/observable.py:Observable.notify_observers", "paramz/core/parameter_core.py:Parameterizable._parameters_changed_notification", "paramz/core/parameter_core.py:Parameterizable._pass_through_notify_observers"]}
{"id": "C38", "title": "trigger_update updates each affected node exactly once, children first", "statement": "x.trigger_update() calls parameters_changed exactly once on x and on every Parameterized below x that is reached through non-fixed nodes, each after all its own reached descendants, and then (trigger_parent=True) once on every ancestor of x bottom up; never on other nodes; with trigger_parent=False no ancestor is called.", "quantifier": "all hierarchies, targets and fix patterns", "why_tests_cant": "all shapes", "anchors": ["paramz/core/updateable.py:Updateable.trigger_update", "paramz/core/parameter_core.py:OptimizationHandlable._trigger_params_changed"]}
{"id": "C39", "title": "Switching updates off silences the whole hierarchy", "statement": "update_model(False) called on any node makes the whole hierarchy silent: no parameters_changed call results from writes or triggers until update_model(True), which re-enables all nodes and triggers one update of the whole hierarchy.", "quantifier": "all hierarchies, all nodes, all histories of writes in between", "why_tests_cant": "all shapes and histories", "anchors": ["paramz/core/updateable.py:Updateable.update_model", "paramz/core/updateable.py:Updateable.trigger_update", "paramz/core/observable.py:Observable.notify_observers"]}
{"id": "C40", "title": "traverse visits every node once", "statement": "x.traverse(visit) calls visit exactly once for x and each descendant, parents before children and children in order; x.traverse_parents(visit) calls visit exactly once for every node of the hierarchy outside x's own subtree, and both leave no mark behind so that they can be repeated, even if visit raises.", "quantifier": "all hierarchies, nodes and visit functions", "why_tests_cant": "all shapes; exception points", "anchors": ["paramz/core/parameter_core.py:Parameterizable.traverse", "paramz/core/parameter_core.py:Parameterizable.traverse_parents"]}
{"id": "C41", "title": "Sibling names are made unique", "statement": "After linking or renaming, the parameters of one parent have pairwise different names, the process terminates for all name clashes, and a parameter earlier in the list keeps its name in preference to a later one.", "quantifier": "all lists of sibling names, including clashes with already suffixed names", "why_tests_cant": "termination and uniqueness for all clash patterns", "anchors": ["paramz/core/parameter_core.py:Parameterizable._add_parameter_name", "paramz/core/parameter_core.py:Parameterizable._remove_parameter_name", "paramz/core/parameter_core.py:Parameterizable._name_changed"]}
{"id": "C42", "title": "Printed names are attribute names", "statement": "adjust_name_for_printing(name) returns a string usable as a Python identifier and is idempotent for every name it accepts.", "quantifier": "all strings", "why_tests_cant": "infinitely many strings", "anchors": ["paramz/core/nameable.py:adjust_name_for_printing"]}
{"id": "C43", "title": "Raveled indices are row-major positions", "statement": "For every array shape the raveled index of an element is its row-major position: the full index list of a Param is 0..size-1 in order, different elements get different positions below size, and indexing part of a Param yields the positions of precisely that part.", "quantifier": "all shapes and all per-axis index selections", "why_tests_cant": "all shapes and slices", "anchors": ["paramz/param.py:Param._raveled_index", "paramz/param.py:Param._indices", "paramz/param.py:Param._realshape_"]}
{"id": "C44", "title": "Assigning to several parameters at once assigns each selected element", "statement": "For a ParamConcatenation c (m['regex']), after c[s] = v exactly the selected positions of c.values() hold the assigned values and all others are unchanged; every assignment triggers an update of the parents.", "quantifier": "all parameter sizes, selections, values and numbers of assignments", "why_tests_cant": "selections crossing parameter boundaries, repeated assignment", "anchors": ["paramz/param.py:ParamConcatenation.__setitem__", "paramz/param.py:ParamConcatenation.__getitem__", "paramz/param.py:ParamConcatenation.values", "paramz/param.py:ParamConcatenation.update_all_params"]}
{"id": "C45", "title": "Numerical failures are tolerated a bounded number of times in a row", "statement": "During optimisation an objective/gradient evaluation that fails with LinAlgError, ZeroDivisionError or ValueError yields infinity (or clipped gradients) while at most ten failures happened in a row, raises from the eleventh consecutive failure on, and any success resets the count; other exceptions always propagate.", "quantifier": "all sequences of evaluation outcomes", "why_tests_cant": "all outcome sequences", "anchors": ["paramz/model.py:Model._objective", "paramz/model.py:Model._grads", "paramz/model.py:Model._objective_grads"]}
{"id": "C46", "title": "optimize_restarts ends at the best run", "statement": "After optimize_restarts in which at least one new run finished, the model parameters are those of a run with the lowest final objective among the new runs; if all runs fail and robust is set the parameters are the initial ones; without robust the first failure propagates.", "quantifier": "all numbers of restarts and all outcome sequences", "why_tests_cant": "all outcome sequences", "anchors": ["paramz/model.py:Model.optimize_restarts"]}
{"id": "C47", "title": "SCG never accepts a worse point and stops in time", "statement": "SCG returns a point whose objective value is the last entry of its function log, the log is non-increasing and starts at f(x0), and at most maxiters iterations (hence a bounded number of evaluations) are performed.", "quantifier": "all objective and gradient functions, starts and tolerances (no division by a vanishing curvature)", "why_tests_cant": "all functions", "anchors": ["paramz/optimization/scg.py:SCG"]}
{"id": "C48", "title": "Optimiser lookup is deterministic and exact names win", "statement": "get_optimizer(name) returns the first optimiser in alphabetical order whose name contains the given text (ignoring case), raises KeyError iff there is none, and every listed optimiser name selects its own optimiser.", "quantifier": "all strings", "why_tests_cant": "all strings", "anchors": ["paramz/optimization/optimization.py:get_optimizer"]}
{"id": "C49", "title": "randomize respects fixes and constraints", "statement": "randomize() with any generator leaves fixed elements unchanged, leaves every constrained element in its domain, and leaves the update flag as it was before.", "quantifier": "all models and all generated values", "why_tests_cant": "all fix patterns and random outcomes", "anchors": ["paramz/core/parameter_core.py:OptimizationHandlable.randomize"]}
{"id": "C50", "title": "Flat names line up with elements", "statement": "parameter_names_flat lists one name per element in param_array order (or per free element in optimizer_array order when fixed ones are left out), so position k of the names belongs to position k of the array.", "quantifier": "all hierarchies and fix patterns", "why_tests_cant": "all shapes and fix patterns", "anchors": ["paramz/core/parameter_core.py:OptimizationHandlable.parameter_names_flat"]}
{"id": "C51", "title": "Progress times decompose exactly", "statement": "The elapsed time shown by the progress printer, read back as days, hours, minutes and seconds with each component in its range, is the elapsed time up to the displayed resolution.", "quantifier": "all non-negative elapsed times", "why_tests_cant": "all values", "anchors": ["paramz/optimization/verbose_optimization.py:VerboseOptimization.print_out"]}
{"id": "C52", "title": "Parameters are attributes", "statement": "A linked parameter is available as an attribute of its parent under its printed name, and attributes added by the library never refer to anything else: after renaming or unlinking no old attribute is left behind.", "quantifier": "all histories of linking, unlinking and renaming", "why_tests_cant": "all histories and all names", "anchors": ["paramz/core/parameter_core.py:Parameterizable._add_parameter_name", "paramz/core/parameter_core.py:Parameterizable._remove_parameter_name", "paramz/parameterized.py:Parameterized._connect_parameters"]}
{"id": "C53", "title": "Positions in the optimiser's array", "statement": "For a model with fixed elements, the positions in optimizer_array computed for a parameter are those at which its free elements are held, in order, and there are none for fixed elements (checkgrad relies on this to perturb the parameters it was asked to check).", "quantifier": "all fix patterns and index lists", "why_tests_cant": "all fix patterns", "anchors": ["paramz/core/indexable.py:Indexable._raveled_index_for_transformed", "paramz/model.py:Model._checkgrad"]}
{"id": "C54", "title": "Reading several parameters at once", "statement": "For a ParamConcatenation c, the values of c[s] are the selected positions of c.values(), in order.", "quantifier": "all parameter sizes, values and selections", "why_tests_cant": "all values", "anchors": ["paramz/param.py:ParamConcatenation.__getitem__", "paramz/param.py:ParamConcatenation.values"]}
{"id": "C55", "title": "Params do not share memory", "statement": "Assigning to an element of one Param changes that element and no value of any other Param, whatever has been linked and unlinked before.", "quantifier": "all histories of construction, linking, unlinking and assignment, all elements", "why_tests_cant": "aliasing between parameters arises only after particular histories", "anchors": ["paramz/parameterized.py:Parameterized._connect_parameters", "paramz/core/parameter_core.py:Parameterizable.param_array", "paramz/core/parameter_core.py:Parameterizable._propagate_param_grad"]}
{"id": "C56", "title": "Optimisers get the derivative of what they minimise", "statement": "At every vector p in optimiser space, the gradient a model hands to an optimiser is the derivative of the objective it hands to the optimiser, as functions of p, whenever the model fills in the derivative of the objective by each parameter value: constraints, transformations and fixed elements are accounted for.", "quantifier": "all hierarchies, constraints, fixed elements, objectives, vectors", "why_tests_cant": "tests check a few models at random points, to a tolerance", "anchors": ["paramz/model.py:Model._grads", "paramz/model.py:Model._objective", "paramz/core/parameter_core.py:OptimizationHandlable._transform_gradients"]}
{"id": "C57", "title": "checkgrad leaves values alone", "statement": "After checkgrad, quick or verbose, of the model or any part of it, every parameter has the value it had before.", "quantifier": "all hierarchies, constraints, objectives, steps, random signs, parts", "why_tests_cant": "tests look at the answer only", "anchors": ["paramz/model.py:Model._checkgrad", "paramz/core/gradcheckable.py:Gradcheckable.checkgrad"]}
{"id": "C58", "title": "checkgrad tells right gradients from wrong ones", "statement": "For a smooth objective checkgrad answers True if the gradient is the derivative, and if it answers True the gradient is the derivative up to the tolerance (absolute, or relative to gradients larger than one) and the error of the three point estimate, for every free element checked.", "quantifier": "all hierarchies, constraints, smooth objectives, steps, tolerances up to 1, random signs, parts", "why_tests_cant": "all wrong gradients", "anchors": ["paramz/model.py:Model._checkgrad"]}
{"id": "C59", "title": "A copy is an equal, separate hierarchy", "statement": "x.copy() makes new objects for x and everything below it, with the same children in the same order, sizes, constraints and fixes, and without parent; every object that existed before keeps its parent, children, size and constraints; constraining, fixing or releasing parts of the copy later does not change the original, nor the other way round; the optimiser may change the same elements of the copy as of the original.", "quantifier": "all histories of calls (including earlier copies), all objects, all later calls", "why_tests_cant": "the copy is put together by nested __setstate__ calls from views of arbitrary depth; tests copy one or two fixed models", "anchors": ["paramz/core/pickleable.py:Pickleable.copy", "paramz/core/pickleable.py:Pickleable.__deepcopy__", "paramz/parameterized.py:Parameterized.copy", "paramz/parameterized.py:Parameterized.__setstate__", "paramz/param.py:Param.copy", "paramz/core/index_operations.py:ParameterIndexOperationsView.__deepcopy__"]}
{"id": "C60", "title": "A copy has the values of the original, in memory of its own", "statement": "Every parameter of x.copy(), and every array of a part of it that had been initialised, has the values of its original; copying changes no value of any existing parameter or initialised object; values assigned to any old objects are not seen in the copy and values assigned to the copy are not seen in any old object; parts of a copied Parameterized are initialised.", "quantifier": "all histories of calls and earlier copies in which no call raised (or which left no mark on the parents of x), all objects, all contents of unused and freed memory, all later sequences of assignments", "why_tests_cant": "the arrays of the copy are put together by nested _connect_parameters calls from deep copied pieces; tests copy one or two fixed models", "anchors": ["paramz/core/pickleable.py:Pickleable.copy", "paramz/core/pickleable.py:Pickleable.__getstate__", "paramz/parameterized.py:Parameterized.__setstate__", "paramz/parameterized.py:Parameterized._connect_parameters", "paramz/parameterized.py:Parameterized.copy", "paramz/param.py:Param.__deepcopy__"]}
{"id": "C61", "title": "Selecting and assigning parameters by name", "statement": "m[regexp] selects every object below m whose dotted name relative to m matches the regular expression at its start, each once, in the order of the hierarchy; m[regexp] = v sets every element of every selected parameter to v and changes no other value; if it raises nothing has changed.", "quantifier": "all hierarchies, names, regular expressions, values", "why_tests_cant": "all hierarchies and names; tests look up a handful of names from the root", "anchors": ["paramz/parameterized.py:Parameterized.grep_param_names", "paramz/parameterized.py:Parameterized.__getitem__", "paramz/parameterized.py:Parameterized.__setitem__", "paramz/core/nameable.py:Nameable.hierarchy_name", "paramz/param.py:ParamConcatenation.__setitem__"]}
{"id": "C62", "title": "A gradient given to the optimiser keeps its values", "statement": "The gradient that a model hands to an optimisation routine for a point still reads the gradient at that point after the routine has asked for other points; what optimize('scg') does depends only on the objective, its gradient and the tolerances, not on whether some other parameter of the model is fixed.", "quantifier": "all sequences of evaluations of objective and gradient, all objectives, starting points, numbers of iterations", "why_tests_cant": "gradients may share memory with the model; the routine still goes down, so tests that look at the final objective pass", "anchors": ["paramz/model.py:Model._grads", "paramz/model.py:Model._objective_grads", "paramz/model.py:Model.objective_function_gradients", "paramz/core/parameter_core.py:OptimizationHandlable._transform_gradients", "paramz/optimization/scg.py:SCG"]}
{"id": "C63", "title": "Finished runs are recorded truthfully", "statement": "When optimize returns, the model is at the point the routine found, and the last entry of optimization_runs holds this point, the objective there, the number of evaluations and the message for the way it ended; earlier entries keep what their runs found; a run that raises leaves no entry. optimize_restarts leaves the model at a recorded point with the least objective among the runs it finished.", "quantifier": "all histories of optimize calls with optimisers given by name or as objects, all results of the routines", "why_tests_cant": "all histories and all ways a routine can end", "anchors": ["paramz/optimization/optimization.py:Optimizer", "paramz/optimization/optimization.py:opt_tnc.opt", "paramz/optimization/optimization.py:opt_lbfgsb.opt", "paramz/optimization/optimization.py:opt_bfgs.opt", "paramz/optimization/optimization.py:opt_simplex.opt", "paramz/optimization/optimization.py:opt_SCG.opt", "paramz/optimization/optimization.py:Opt_Adadelta.opt", "paramz/model.py:Model.optimize", "paramz/model.py:Model.optimize_restarts"]}
{"id": "C64", "title": "Ridge regression: right objective and gradient for every basis", "statement": "For RidgeRegression with one output, every basis and both regularizers, after any changes and updates the objective is the squared error of predict on the training data plus the penalty, and the gradient is its derivative (for Lasso away from zero weights); if the gradient vanishes the weights are a global optimum; the parts given by phi add up to predict.", "quantifier": "all data, bases, degrees, weights, histories", "why_tests_cant": "all bases and histories; tests check the gradient at a few random points of one model", "anchors": ["paramz/examples/ridge_regression.py:RidgeRegression.parameters_changed", "paramz/examples/ridge_regression.py:RidgeRegression.predict", "paramz/examples/ridge_regression.py:RidgeRegression.phi", "paramz/examples/ridge_regression.py:Ridge.update_error", "paramz/examples/ridge_regression.py:Lasso.update_error", "paramz/examples/ridge_regression.py:Regularizer"]}
{"id": "C65", "title": "Observers hear of every change of values", "statement": "Whenever a call changes a parameter (assignment to the parameter, slice assignment to a node above it, setting the optimiser's array, randomize, constrain), everyone observing the parameter or an object above it is called, after the change; so at every moment every observer of a parameter has seen its current values, and after switching the updates off and on again at the root observers have caught up. Observers stay registered until they are removed.", "quantifier": "all hierarchies, observers, priorities and histories", "why_tests_cant": "depends on where in the tree the change is made, what is fixed, and the switches; tests register one observer on a flat model", "anchors": ["paramz/parameterized.py:Parameterized.__setitem__", "paramz/core/parameter_core.py:OptimizationHandlable.optimizer_array", "paramz/core/parameter_core.py:OptimizationHandlable.randomize", "paramz/core/constrainable.py:Constrainable.constrain", "paramz/core/observable.py:Observable.notify_observers"]}
{"id": "C66", "title": "Optimising a model improves it and respects its constraints", "statement": "m.optimize(optimizer='scg') leaves the model at values whose objective is not above the one at the beginning, with the hierarchy and constraints unchanged, fixed elements at their values, free constrained elements inside their domains, updates switched on and the gradient that of the final values; every entry of the trace is the objective of the model at some point, starting at the initial values and ending at the final ones. With any optimiser: the model ends at x_opt, and objective and gradient answers during the run depend on the point asked only, not on the history of calls.", "quantifier": "all hierarchies, constraints, objectives, numbers of iterations, optimisers, sequences of evaluations", "why_tests_cant": "composes transformation, fixing, caching of the optimiser's copy, and the optimiser's loop; tests run one model and look at the final value", "anchors": ["paramz/model.py:Model.optimize", "paramz/model.py:Model._objective_grads", "paramz/model.py:Model._grads", "paramz/optimization/optimization.py:opt_SCG", "paramz/optimization/scg.py:SCG", "paramz/core/parameter_core.py:OptimizationHandlable.optimizer_array"]}
{"id": "C67", "title": "Random restarts never end worse than the beginning", "statement": "m.optimize_restarts(n, optimizer='scg') keeps one record per restart, each with the objective of the model at its x_opt; the model ends at the best of these, which is not worse than the values at the beginning; hierarchy, constraints and fixed values are unchanged and free constrained elements are inside their domains.", "quantifier": "all hierarchies, constraints, objectives, numbers of restarts and iterations, random draws", "why_tests_cant": "random starting points; a record that does not belong to its x_opt shows only if a later run is worse", "anchors": ["paramz/model.py:Model.optimize_restarts", "paramz/model.py:Model.optimize", "paramz/core/parameter_core.py:OptimizationHandlable.randomize"]}
{"id": "C68", "title": "Caching can be switched off and on for a whole hierarchy", "statement": "After m.disable_caching(), until caching is switched on again for the object, an object above it, or the cacher itself, every call of a cached method of m or of an object below runs the method on that object, whatever was stored before; after m.enable_caching() repeated calls return stored results. Cached methods of a copy run on the copy, and a copy has the switch of the original.", "quantifier": "all hierarchies, cached methods (decorated or cachers in attributes), histories of calls, switches, copies and changes of the hierarchy", "why_tests_cant": "cachers are created lazily, and copies re-register cachers in the original's cache; tests switch one object once", "anchors": ["paramz/caching.py:FunctionCache", "paramz/caching.py:Cache_this", "paramz/caching.py:Cacher.__init__", "paramz/caching.py:Cacher.__deepcopy__", "paramz/core/parameter_core.py:Parameterizable.disable_caching", "paramz/core/parameter_core.py:Parameterizable.enable_caching"]}
{"id": "C69", "title": "Cached methods of objects in a hierarchy are never out of date", "statement": "A cached method of an object of a hierarchy (or a cached function taking the object) returns what it would compute from the current values of everything below the object, however the values were changed: assignment to a Param, to a node, the optimizer's array, randomize, constrain. The same holds when it is called inside parameters_changed of the object or of an object above it.", "quantifier": "all hierarchies, objects, cached methods, histories of calls, changes of values, constraints, observers, evictions", "why_tests_cant": "tests change one value and call once; which changes reach the cacher depends on the notification path and on the order of priorities", "anchors": ["paramz/caching.py:Cacher.__call__", "paramz/caching.py:Cacher.add_to_cache", "paramz/caching.py:Cacher.on_cache_changed", "paramz/core/observable.py:Observable.notify_observers", "paramz/core/parameter_core.py:OptimizationHandlable._trigger_params_changed", "paramz/parameterized.py:Parameterized.link_parameter"]}
{"id": "C70", "title": "A model that is saved and loaded is an equal, separate model", "statement": "m.pickle(file) followed by paramz.load(file) gives a model with the same hierarchy of objects, the same values in every Param and every node's array, the same constraints on every object and the same elements passed to the optimiser. It shares no memory and no constraints with the model saved, and the same constraining calls made on both lead to the same constraints. The same holds when the object saved is a part of a model.", "quantifier": "all hierarchies and histories, all objects saved, all orders in which objects are found in the attributes, all sequences of calls afterwards", "why_tests_cant": "tests load one model and compare printed values; the order in which the states are set depends on the nesting, and keys that come from the file are compared by identity", "anchors": ["paramz/core/pickleable.py:Pickleable.pickle", "paramz/core/pickleable.py:Pickleable.__getstate__", "paramz/core/pickleable.py:Pickleable.__setstate__", "paramz/parameterized.py:Parameterized.__setstate__", "paramz/core/indexable.py:Indexable.__setstate__", "paramz/core/indexable.py:Indexable._remove_from_index_operations", "paramz/core/observable_array.py:ObsAr.__reduce__", "paramz/__init__.py:load"]}
{"id": "C71", "title": "Observers of an array hear of every change", "statement": "Observers registered with an observable array are called after every change of its elements by item assignment or an in-place operator, made through the array, a part of it, or an array it is a part of, by descending priority and with the new values in place; a[sel] += x writes the same values whichever way numpy evaluates a[sel]. Observers of an array are not called for changes of other arrays, and set_updates(False) silences them.", "quantifier": "all sets of arrays, parts and copies, all selections, values and in-place operations, all histories of registering and writing", "why_tests_cant": "whether a part shares the observers, the memory or neither depends on the kind of index and on when the part was made", "anchors": ["paramz/core/observable_array.py:ObsAr.__array_finalize__", "paramz/core/observable_array.py:ObsAr.__new__", "paramz/core/observable_array.py:ObsAr.__setitem__", "paramz/core/observable_array.py:ObsAr.copy", "paramz/core/observable.py:Observable.notify_observers", "paramz/core/observable.py:Observable.set_updates"]}
{"id": "C72", "title": "A cached function of an observable array is never out of date", "statement": "A cached function that is given an observable array, or a part of one, returns what the function gives for the present values, however the values were changed: through the array, through a part of it, or through the array it is a part of; also after results have been dropped from a full cache.", "quantifier": "all cached functions of an array, all limits, all histories of calls, writes, parts and copies", "why_tests_cant": "the cacher recognises its inputs by identity while parts share the list of observers; only histories that mix an array and its parts show it", "anchors": ["paramz/caching.py:Cacher.on_cache_changed", "paramz/caching.py:Cacher.add_to_cache", "paramz/caching.py:Cacher.ensure_cache_length", "paramz/core/observable_array.py:ObsAr.__array_finalize__", "paramz/core/observable.py:Observable.remove_observer"]}
{"id": "C73", "title": "Constraining and fixing several parameters at once", "statement": "For c = m[regexp] selecting several objects, c.constrain(t) (and constrain_positive, constrain_negative, constrain_bounded), c.unconstrain(*ts), c.fix(), c.fix(v) and c.unfix() do to every element of every parameter at or below a selected object what the call does on a single parameter, once, and leave constraints and values of everything else alone; the optimiser afterwards gets exactly the elements that are not fixed; constraining and fixing update every object above the parameters, each time; a call that raises has changed nothing.", "quantifier": "all reachable hierarchies, all lists of selected objects (overlapping or not), all transformations, values and repeated uses of one c", "why_tests_cant": "selections overlap (a node and its own parameters), sizes differ, and what c does depends on how often it was used before", "anchors": ["paramz/param.py:ParamConcatenation.constrain", "paramz/param.py:ParamConcatenation.constrain_fixed", "paramz/param.py:ParamConcatenation.unconstrain", "paramz/param.py:ParamConcatenation.unconstrain_fixed", "paramz/param.py:ParamConcatenation.update_all_params", "paramz/core/constrainable.py:Constrainable.constrain"]}
{"id": "C74", "title": "Messages only show, and show the truth", "statement": "optimize(messages=True) leaves the model, its gradient and its count of failures as optimize(messages=False) would, gives the same result or the same exception, and afterwards - also after an exception - the model has the observers it had before. Each line printed shows the number of an evaluation and the objective and gradient of that evaluation, the last one those of the end. Random restarts with a given seed go the same way with messages and without.", "quantifier": "all models, all optimisers (whatever they ask, depending on the answers), all failures of evaluations at any moment, all clocks", "why_tests_cant": "what is printed is not inspected by tests, depends on the clock, and goes wrong for models with an objective of a certain kind or for evaluations that fail at a certain moment", "anchors": ["paramz/optimization/verbose_optimization.py:VerboseOptimization.__init__", "paramz/optimization/verbose_optimization.py:VerboseOptimization.print_status", "paramz/optimization/verbose_optimization.py:VerboseOptimization.update", "paramz/optimization/verbose_optimization.py:VerboseOptimization.print_out", "paramz/optimization/verbose_optimization.py:VerboseOptimization.__exit__", "paramz/model.py:Model.optimize", "paramz/core/observable.py:Observable.add_observer"]}
{"id": "C75", "title": "Printed tables tell the truth", "statement": "Printing a model or any part of it shows one row for each Param, in the order of their elements: the names on the way to it, its value if it has one element and its shape if it has more, plainly every constraint that all its elements have, and in braces every constraint that some but not all of them have - nothing else and nothing twice. Printing a Param or a part of one shows one row for each element of the part, in the order of its values: the index of the element in the Param, its value, and exactly the constraints that this element has.", "quantifier": "all hierarchies reachable by any history of constructing, linking, unlinking, constraining and fixing, all shapes, all index expressions", "why_tests_cant": "the columns come from four separate walks through the hierarchy that only happen to line up; tests compare a few printed strings, and print parts of parts or empty parameters nowhere", "anchors": ["paramz/parameterized.py:Parameterized.__str__", "paramz/parameterized.py:Parameterized.get_property_string", "paramz/parameterized.py:Parameterized._description_str", "paramz/param.py:Param.__str__", "paramz/param.py:Param.get_property_string", "paramz/param.py:Param._description_str", "paramz/core/parameter_core.py:Parameterizable.parameter_names"]}
{"id": "C76", "title": "A constrained value stays in its domain", "statement": "Once an element of a model carries a transformation, its value lies in the (closed) domain of that transformation and stays there: whatever sequence follows of assigning to the optimiser's array, randomising, constraining, unconstraining, fixing, unfixing, switching updates off and on, and reading - on the model, any object in it or any part of a parameter - and of linking, unlinking and copying objects.", "quantifier": "all hierarchies reachable by any history, all transformations of the library, all finite values, all sequences of calls", "why_tests_cant": "tests constrain once and look at the value right away; whether the value and the constraint agree after any later sequence of calls needs an invariant over histories", "anchors": ["paramz/core/constrainable.py:Constrainable.constrain", "paramz/core/constrainable.py:Constrainable.fix", "paramz/core/parameter_core.py:OptimizationHandlable.optimizer_array", "paramz/core/parameter_core.py:OptimizationHandlable.randomize", "paramz/transformations.py:Transformation.initialize"]}
{"id": "C77", "title": "The optimiser's array of any object of a model", "statement": "Every object of a model, not only the model itself, has an optimizer_array. Reading it lists exactly the free elements of that object in order, each in optimiser space, whatever calls were made before on this or any other object; setting it (or randomising the object) changes exactly those elements and nothing else in the model; the arrays of the objects above then differ in exactly those entries; and setting what was read changes nothing.", "quantifier": "all hierarchies reachable by any history, every object in them, all values and transformations, all sequences of calls on any of the objects, arrays of any length", "why_tests_cant": "tests use the optimiser's array of the whole model; copy, flag and mask exist once per object and depend on which notifications reached it", "anchors": ["paramz/core/parameter_core.py:OptimizationHandlable.optimizer_array", "paramz/core/parameter_core.py:OptimizationHandlable.randomize", "paramz/core/parameter_core.py:Parameterizable.unfixed_param_array", "paramz/core/constrainable.py:Constrainable._ensure_fixes", "paramz/param.py:Param._ensure_fixes"]}
{"id": "C78", "title": "The optimiser sees the Params, not the hierarchy", "statement": "After any history of constructing, linking, unlinking, constraining, fixing, assigning and copying, the optimizer_array of an initialised model is made of one piece for each Param in flattened_parameters, in that order, and each piece depends on the values, constraints and fixes of that Param alone. Setting it gives every Param its piece and touches no other model. Moving Params inside a model or to another model keeps every piece, so that a model with the same Params has the same entries; what was set through one model is read through the model the Param is in now; and a copy of a model has the array of the model.", "quantifier": "all histories from no objects at all, all models, all values and transformations, all arrays of the right length, all sequences of structural calls", "why_tests_cant": "tests link a few parameters once; index shifts, memory moves, masks and offsets must agree after every sequence of moves", "anchors": ["paramz/core/parameter_core.py:OptimizationHandlable.optimizer_array", "paramz/parameterized.py:Parameterized.link_parameter", "paramz/parameterized.py:Parameterized.unlink_parameter", "paramz/parameterized.py:Parameterized._connect_parameters", "paramz/parameterized.py:Parameterized.copy"]}
{"id": "C79", "title": "Observers are told apart by identity, whatever their equality", "statement": "remove_observer(o, c) and change_priority(o, c, p) concern the registrations of the very object o: they never raise, they remove every asked registration of o, and no registration of another object is lost, also when observers are arrays, Params or other objects with an == of their own.", "quantifier": "all histories of registrations, all equalities of the observers (with or without a truth value, changing from call to call), all priorities and callbacks", "why_tests_cant": "tests register plain objects, for which == is identity; the comparison with == only shows for arrays of two or more elements, equal numbers or not-a-number at equal priority", "anchors": ["paramz/core/lists_and_dicts.py:ObserverList.remove", "paramz/core/observable.py:Observable.remove_observer", "paramz/core/observable.py:Observable.change_priority"]}
{"id": "C80", "title": "Further index operations follow the hierarchy like constraints", "statement": "Index operations added with add_index_operation (for instance priors) behave like constraints under every name: linking and unlinking keep the properties of every Param, a group reports exactly the properties of the Params inside it, setting or unsetting a property of one name changes exactly the elements and the name it is made on, the other names (and constraints) are not affected, a copy has the properties of the original under every name and shares none of them, and linking objects with different names either works or changes nothing.", "quantifier": "all histories of constructing, linking, unlinking, initialising, constraining, fixing, setting, unsetting and copying, all lists of names, all shapes of the hierarchy", "why_tests_cant": "paramz itself only uses the name constraints, so the loops over the names never run more than once in its tests; the interplay of several names with linking in nested hierarchies is unbounded", "anchors": ["paramz/core/indexable.py:Indexable.add_index_operation", "paramz/core/indexable.py:Indexable._parent_changed", "paramz/core/indexable.py:Indexable._disconnect_parent", "paramz/parameterized.py:Parameterized.link_parameter", "paramz/parameterized.py:Parameterized.unlink_parameter", "paramz/core/pickleable.py:Pickleable.copy"]}
{"id": "C81", "title": "Arithmetic in place on selected parameters", "statement": "m[regexp] op= c (+=, -=, *=, /=, **=, ...) replaces every element v of every selected parameter by v op c, each once even if it is selected in several ways, and changes nothing else; m.name op= c and m[positions] op= v do the same for the parameter and the positions named, element by element; everything above a changed parameter is recalculated once, with the final values; if the statement raises nothing has changed; a variable holding the selection still holds it afterwards.", "quantifier": "all hierarchies, names, regular expressions, selections of positions, operators and operands", "why_tests_cant": "python turns one statement into a read, an operator and an assignment, each with its own branch for parameters, concatenations, parts, positions and None; all operators of ParamConcatenation and ObsAr are excluded from coverage", "anchors": ["paramz/param.py:ParamConcatenation.__iadd__", "paramz/core/observable_array.py:ObsAr.__iadd__", "paramz/parameterized.py:Parameterized.__getitem__", "paramz/parameterized.py:Parameterized.__setitem__", "paramz/parameterized.py:Parameterized.__setattr__"]}
{"id": "C82", "title": "The gradient of a hierarchy is made of the gradients of its Params", "statement": "In an initialised hierarchy m.gradient is the gradients of the parameters one after the other, at every level; p.gradient = g for any parameter or object sets exactly its elements of m.gradient (a number sets all of them, an array of another size raises and changes nothing), and m.gradient = g sets the gradients of all parameters below; assigning the gradient of one parameter never changes that of another; constructing, linking, unlinking, initialising and constraining keep the gradients of all parameters; copying or saving and loading an object keeps all gradients, and afterwards assigning gradients in the new object does not change those of the original, nor the other way round.", "quantifier": "all hierarchies, all histories of construction, linking, unlinking, initialisation, constraining, copying and assignments to gradients, whatever the contents of unused and freed memory", "why_tests_cant": "the gradients share memory by assigning buffers to arrays that own theirs; which array is a window of which buffer depends on the whole history", "anchors": ["paramz/parameterized.py:Parameterized._connect_parameters", "paramz/core/parameter_core.py:Parameterizable._propagate_param_grad", "paramz/core/parameter_core.py:Parameterizable.gradient", "paramz/core/parameter_core.py:Parameterizable.gradient_full", "paramz/param.py:Param.gradient", "paramz/core/pickleable.py:Pickleable.copy", "paramz/core/pickleable.py:Pickleable.__getstate__"]}
{"id": "C83", "title": "Names stay different and found at every level of a hierarchy", "statement": "After any calls of the library, also calls that raised, every attribute it has added to an object is a parameter of that object under the printed form of its current name. In a hierarchy built from the bottom, every finished object at every level has parameters with pairwise different names, and finds each under its printed name (unless the object has an attribute of its own, or another parameter, with that printed name); this lasts through renaming, unlinking, moving, initialising and setting attributes. With printable names every call returns or is refused with HierarchyError.", "quantifier": "all sets of objects, all histories of construction, linking, unlinking, moving, renaming, initialisation and setting attributes, all names, all recursion depths", "why_tests_cant": "renaming one parameter renames others, attributes of several objects change in one call, and a call that raises half way leaves a state from which all further calls start", "anchors": ["paramz/core/parameter_core.py:Parameterizable._add_parameter_name", "paramz/core/parameter_core.py:Parameterizable._remove_parameter_name", "paramz/core/parameter_core.py:Parameterizable._name_changed", "paramz/parameterized.py:Parameterized.link_parameter", "paramz/parameterized.py:Parameterized.unlink_parameter", "paramz/parameterized.py:Parameterized._connect_parameters", "paramz/core/nameable.py:Nameable.name"]}
{"id": "C84", "title": "A cached function may call itself", "statement": "If a cached function calls itself through its cache, every call returns, and returns (or raises) what the function without cache would for the present contents of the arguments, after any history of calls, announced writes, resets, switching the cache off and on, creation and collection of objects. In particular what inner calls add to the cache, and what they make it forget, does not spoil the result of the outer call or of later calls.", "quantifier": "all recursive functions that return (any depth, any number of inner calls, inner exceptions caught or not), all limits other than 0, all histories", "why_tests_cant": "the inner calls change the dictionaries of the cache between the moment the outer call looks at them and the moment it stores its result; which entries are forgotten in between depends on the whole history, on the limit and on exceptions", "anchors": ["paramz/caching.py:Cacher.__call__", "paramz/caching.py:Cacher.ensure_cache_length", "paramz/caching.py:Cacher.add_to_cache", "paramz/caching.py:Cacher.reset"]}
{"id": "C85", "title": "Random restarts in several processes find what serial restarts find", "statement": "`m.optimize_restarts(n, parallel=True)` returns with one record per restart in the order of the jobs, each telling the objective at its `x_opt`; the model ends at the first best of them, never worse than it began, with fixed elements unchanged and constrained elements in their domains; with the same random draws the runs are those of the serial variant and the final objective is the same. If a job fails, `robust=True` skips it; otherwise the call raises and the parameters of the model are as before.", "quantifier": "all numbers of restarts and processes, all hierarchies and constraints, all objectives and draws, all combinations of jobs that return, return nothing or raise", "why_tests_cant": "tests of the parallel branch are excluded from coverage (`pragma: no cover`); which job fails and which exception the pool delivers depends on scheduling, and agreement with the serial variant is a statement about all draws and all hierarchies", "anchors": ["paramz/model.py:Model.optimize_restarts", "paramz/model.py:opt_wrapper", "paramz/core/pickleable.py:Pickleable.copy"]}
{"id": "C86", "title": "Optimising a model that cannot be evaluated everywhere", "statement": "When `m.optimize('scg')` meets points where evaluating the model raises a numerical error, such a point counts as infinitely bad and the search goes on. If the call returns, the model is at the point found, it can be evaluated there, its gradient is the gradient there, the objective is not above that of the start and the trace never goes up; what the status says about gradient, objective or iterations is true. Fewer than eleven failures in a row never stop a run that starts where the model can be evaluated. Other exceptions, and the eleventh failure in a row, reach the caller with the parameters as before. A model that never fails is optimised as SCG optimises its objective.", "quantifier": "all models (which points fail, with which exception, what is left in the gradient array), all starts, iteration limits, tolerances, with and without fixed parameters, all counts left by earlier runs", "why_tests_cant": "which points SCG asks for depends on all earlier answers, and the gradient array is shared between optimiser and model; tests cannot range over the patterns of failures", "anchors": ["paramz/model.py:Model.optimize", "paramz/model.py:Model._objective", "paramz/model.py:Model._grads", "paramz/optimization/scg.py:SCG"]}
{"id": "C87", "title": "A part of a parameter kept in a variable stays that part", "statement": "After `q = p[1:3]`, `q` stands for these elements of `p` for good: reading and writing `q` is reading and writing those elements, and constraining, unconstraining, fixing and unfixing `q` does what it does for `p[1:3]` obtained anew, whatever calls have been made in between.", "quantifier": "all reachable states, parameters, slices, and all sequences of calls between taking the part and using it", "why_tests_cant": "the part has copies of attributes and of the memory address of the parameter as they were; which calls make them out of date depends on the whole history", "anchors": ["paramz/param.py:Param.__getitem__", "paramz/param.py:Param.__array_finalize__", "paramz/core/constrainable.py:Constrainable._set_fixed", "paramz/core/constrainable.py:Constrainable._get_original"]}
{"id": "C88", "title": "Assigning to an attribute assigns the parameter it refers to", "statement": "If `m.a` is a parameter of `m`, then `m.a = v` assigns `v` to the elements of that parameter (for an object with parameters: to those of all parameters below it), changes no other value, and `m.a` is still that parameter; if it raises nothing has changed. If `m.a` is no parameter of `m`, `m.a = v` is an ordinary attribute: `m.a` is then `v`, and no value, parameter or other attribute changes.", "quantifier": "all objects, attributes and values, after any calls of the library and any assignments to attributes", "why_tests_cant": "the assignment looks the name up in a list, reading looks it up in the attributes; whether both find the same object depends on the history of names, renamings and assignments", "anchors": ["paramz/parameterized.py:Parameterized.__setattr__", "paramz/core/parameter_core.py:Parameterizable._add_parameter_name", "paramz/core/parameter_core.py:Parameterizable.parameter_names"]}
{"id": "C89", "title": "Parameters saved to a file are complete and can be set again", "statement": "After `m.save(file)` the file has for every Param below `m` a dataset with its values, named by its dotted name with `_` for dots, a dataset `param_array` with all values in the order of the hierarchy, and nothing else; a model built in the same way has all values of `m` after `m2[:] = file['param_array']`. Every model whose parameters have different names can be saved.", "quantifier": "all hierarchies, objects, names and values", "why_tests_cant": "names and Params are collected by two different walks over the hierarchy and paired by position; that they agree, and that names stay different, depends on the shape of the whole hierarchy", "anchors": ["paramz/core/parameter_core.py:Parameterizable.save", "paramz/core/parameter_core.py:OptimizationHandlable.parameter_names", "paramz/core/parameter_core.py:Parameterizable.traverse"]}
{"id": "C90", "title": "An update that raises can be recovered from", "statement": "If `parameters_changed` of some object (or a callback) raises during an assignment, `optimizer_array = ...`, `randomize`, `trigger_update` or `update_model(True)`, the exception reaches the caller, the values assigned are in place, updates are not left switched off, and neither the hierarchy nor the observers change. Objects told before the one that raised are up to date; the others are as before. `optimizer_array` is not stale afterwards. Repeating the assignment with a value that is accepted brings everything above the parameter up to date; updating the root without an exception brings every object that is not fixed up to date. Failed attempts to set the optimiser's array leave no trace once it can be set.", "quantifier": "all hierarchies, histories of calls some of which raised, exceptions depending on the values in any way", "why_tests_cant": "which objects are skipped depends on the shape of the hierarchy, on what is fixed and on which object raises at which values; recovery must hold after any number of failures in any order", "anchors": ["paramz/core/parameter_core.py:Parameterizable._parameters_changed_notification", "paramz/core/parameter_core.py:OptimizationHandlable.optimizer_array", "paramz/core/parameter_core.py:OptimizationHandlable._trigger_params_changed", "paramz/core/observable.py:Observable.notify_observers", "paramz/core/updateable.py:Updateable.update_model"]}
{"id": "C91", "title": "A copy of a model is optimised like the model", "statement": "After `m2 = m.copy()`, `m2.optimize(...)` starts from the same point as `m.optimize(...)` would, evaluates the model at the same points, gets the same objectives and gradients (also where evaluations raise) and ends with the same parameter values. The same holds for a model that was saved and loaded, and for any two models whose parameters are equal (values, constraints, fixes) and come in the same order, whatever nodes they are nested in. Optimising either of the two leaves the other, and every other model, as it was, also fixed elements and constraints; so a copy can still be optimised from the old values after the original has been optimised.", "quantifier": "all hierarchies and histories, objectives and gradients that are functions of the parameter values or raise exceptions, transformations, and optimisers (deterministic given their settings) that ask the model one point after the other", "why_tests_cant": "Tests copy a few models and compare values; the claim is about every sequence of evaluations an optimiser may choose, depending on all earlier answers, on all hierarchies, and about memory that two models must not share.", "anchors": ["paramz/model.py:65-116", "paramz/model.py:225-282", "paramz/core/parameter_core.py:66-152", "paramz/core/pickleable.py:70-128"]}
{"id": "C92", "title": "Watching an optimisation does not change it", "statement": "Code that only looks at the model while `m.optimize(...)` runs (a `parameters_changed`, an observer or a callback that reads `m.optimizer_array` or takes `m.copy()`) does not change the optimisation: the optimiser evaluates the same points, gets the same objectives and gradients, and the model ends with the same parameter values as without that code.", "quantifier": "all models, fixes and constraints, objectives and gradients that are functions of the parameter values, all optimisers (whatever they do with the array they are started with), and all choices of the evaluations at which the model is read", "why_tests_cant": "Tests run one optimiser on one model and do not read during the run; whether a read interferes depends on which array the optimiser works in and on whether a step is rejected, so the claim is about all optimisers and all schedules of reads.", "anchors": ["paramz/model.py:65-116", "paramz/core/parameter_core.py:66-124", "paramz/parameterized.py:352-370", "paramz/optimization/scg.py:44-174", "paramz/optimization/optimization.py:222-355"]}
{"id": "C93", "title": "A model behaves like the list of its parameters", "statement": "Whatever is called on a model, on the nodes and `Param`s inside it and on parts of them (assigning values, `constrain`, `unconstrain`, `fix`, `unfix`, looking at the values, looking at and setting `optimizer_array`, `optimize`), the model behaves like a plain list of elements, each with a value, a transformation or none, and a mark whether it is fixed: everything the calls show (values, the optimiser's array, the points, objectives and gradients of an optimisation and its result) and everything they leave can be computed from this list. How the model is nested is of no influence, other models are not changed, and a copy answers all later calls as the original would have.", "quantifier": "all programs that built the models, all models, all finite sequences of such calls with values and points of the right length, all transformations, all objectives and gradients that are functions of the values, and all optimisers", "why_tests_cant": "Tests look at single calls on a few small models; that no sequence of calls can make the arrays, views, masks and index dictionaries of a hierarchy disagree with the simple picture is a statement about all sequences and all hierarchies.", "anchors": ["paramz/model.py:65-116", "paramz/model.py:225-282", "paramz/core/parameter_core.py:66-152", "paramz/core/constrainable.py:52-165", "paramz/core/observable_array.py:117-119", "paramz/parameterized.py:311-330"]}
{"id": "C94", "title": "Linking and unlinking cut and paste lists of parameters", "statement": "`link_parameter` puts the elements of the linked object, with their values, transformations and fixes, into the list of elements of everything that contains the new place, at this place, and leaves every other list as it was. `unlink_parameter` cuts them out again and leaves them to the unlinked object. Linking an object of another hierarchy moves them, linking a parameter again with a position moves them within the list. Taking a parameter out and linking it back at its old place gives a model that answers all later calls as if nothing had happened.", "quantifier": "all programs that built the hierarchies, all depths and positions (also negative ones), all objects linked; for the last sentence all finite sequences of later calls (those of C93)", "why_tests_cant": "The position of an element in a model results from offsets that are recomputed at every level, and values and constraints move by different mechanisms (copying memory, shifting index arrays); tests check a few shapes, the claim is that they always move together.", "anchors": ["paramz/parameterized.py:128-226", "paramz/parameterized.py:228-277", "paramz/core/parameter_core.py:66-93", "paramz/core/index_operations.py:106-122"]}
{"id": "C95", "title": "Settings of an optimisation take effect, are refused, or are warned about", "statement": "Every setting given to `optimize` or `optimize_restarts` (limits, tolerances, the settings of single optimisers) reaches the routine that minimises, with the value given and under every name the routine has for it, or an exception is raised before anything is done, or a warning names it. The routine is handed nothing but settings that were given and documented defaults. Unknown settings are always refused. All restarts have the same settings. The optimisers of climin take `max_iters` steps.", "quantifier": "all optimisers, all sets of keyword arguments with all values (numbers or None), any number of restarts", "why_tests_cant": "There are eight optimisers with their own names for the settings and many combinations; a setting that is dropped silently changes nothing a test of a converging optimisation would notice.", "anchors": ["paramz/optimization/optimization.py:30-47", "paramz/optimization/optimization.py:70-352", "paramz/model.py:65-111", "paramz/model.py:154-181"]}
{"id": "C96", "title": "A whole program behaves like a plan of lists", "statement": "Take any program that constructs Params and Parameterizeds, links them (at any place), moves them between models, unlinks them, copies them, and in between assigns values, constrains, fixes and frees parameters or parts of them, looks at arrays, sets the optimiser's array and optimises, on any number of models. Everything the program sees, and every object at its end, is what a plan shows, in which a Param is a list of elements (value, constraint, fixed or not), every other object a list of its parameters, linking inserts into such a list, unlinking removes from it, copying makes new lists with the same contents, and calls of link or unlink that raise change nothing. In particular models share nothing they do not contain, and a parameter keeps values and constraints wherever it is moved.", "quantifier": "all programs of any length on any number of objects, all values and constraints, all optimisers, objectives and gradients", "why_tests_cant": "The memory of models is shared, re-created at each link and unlink and re-read lazily. Which of these interact wrongly depends on the history of the program.", "anchors": ["paramz/parameterized.py:47-66", "paramz/parameterized.py:128-277", "paramz/core/parameter_core.py:66-124", "paramz/core/parameter_core.py:270-350", "paramz/core/constrainable.py:52-165", "paramz/param.py:50-240", "paramz/model.py:65-116", "paramz/core/pickleable.py:70-95"]}
{"id": "C97", "title": "Printed tables line up", "statement": "Printing an object shows a table: a line with headings, then one line for every parameter (of a Param: for every element). All lines have the same fields of the same widths, in which name or index stand at the left, the value at the right and constraints in the middle, so that the bars stand below each other and no cell is cut off; the cells can be read back from the line. Printing several Params at once shows one table with the same widths for all. The lines with the details of a model line up as well. In html every tag that is opened is closed.", "quantifier": "all names, values, properties and numbers of parameters, elements and index operations; all formats of numbers; with and without header and terminal codes", "why_tests_cant": "Widths depend on the longest cell of each column; examples fix a few names and values.", "anchors": ["paramz/parameterized.py:382-448", "paramz/param.py:266-347", "paramz/param.py:513-543", "paramz/model.py:429-440"]}
{"id": "C98", "title": "What a model does depends on what is in it, not on how it was made", "statement": "Take two models with the same parameters in the same order, with the same values, constraints and fixed elements, made in whatever ways: parameters linked in other orders, taken from other models, unlinked and linked again, copied, values assigned before or after. From then on both do the same: the same calls on both show the same arrays and the same runs of optimisers, and leave models that are again the same, whatever is done with other models in between. In particular a copy does what its original does.", "quantifier": "all pairs of programs, all contents of unused memory, all later calls on the two models, with any calls aside", "why_tests_cant": "A test compares two ways of making a model. Memory, offsets, masks and cached arrays depend on the whole history.", "anchors": ["paramz/parameterized.py:47-66", "paramz/parameterized.py:128-277", "paramz/core/parameter_core.py:66-124", "paramz/core/parameter_core.py:270-350", "paramz/core/pickleable.py:70-95"]}
{"id": "C99", "title": "Which links of a program are refused is known from the program", "statement": "In any program that constructs, links, moves, unlinks and copies objects and works on the models in between, a call of link_parameter raises exactly when it links to a Param, when it links a parameter again to the object it belongs to without saying where, or when it moves something within one model; unlink_parameter raises exactly when the parameter is not there. No earlier call, refused or not, changes which calls are refused, and together with that everything the program sees follows from the program alone.", "quantifier": "all programs of any length on any number of objects, all values and constraints, all optimisers, objectives and gradients", "why_tests_cant": "The search that decides on a refusal marks the objects it passes and relies on every earlier search having removed its marks, so a wrong answer depends on the history of the program.", "anchors": ["paramz/parameterized.py:128-226", "paramz/core/parameter_core.py:368-392", "paramz/core/observable.py:75-96", "paramz/core/pickleable.py:70-95"]}
{"id": "C100", "title": "The drawing of a model shows its hierarchy and its observers", "statement": "build_pydot of any object that is not a Param gives a picture with exactly one node for the object, for everything inside it and for each of their observers, labelled with its name; exactly one black arrow from every object to each of its parameters and no other; and one orange arrow for each registration of an observer and no other. Objects of the model are drawn as boxes if they are Parameterized and as trapezoids if they are Params.", "quantifier": "all models of any depth that can be built, all registrations of observers inside and outside of the model, all names", "why_tests_cant": "build_pydot is excluded from the tests; nodes are shared between the drawing of the hierarchy and that of observers, so what is drawn depends on the order of both over the whole tree.", "anchors": ["paramz/parameterized.py:450-501", "paramz/param.py:349-389", "paramz/core/lists_and_dicts.py:135-138"]}
{"id": "C101", "title": "A Param is the array it was made of until it is in a model, and never again", "statement": "Param(name, X) of a writeable C-ordered array of floats X is X: until the Param is handed to link_parameter, assigning to one changes the other, also when other Params are made of the same X. Once the Param is in an initialised model it has left X for good: nothing that is done to X changes it and nothing that is done to it changes X, also after it is taken out of the model again. No other object and no copy ever shares memory with X, and nothing but assignments to X and to Params made of X changes X. When all Params made of X are in models, a program has the same effect with and without its assignments to X.", "quantifier": "all arrays, all programs of calls, copies, assignments to objects, assignments to X and further Params made of X, in any order, whatever freed and new memory contains", "why_tests_cant": "Who shares memory with X depends on the whole history of linking and unlinking, and connecting moves memory several times per call; that two programs have the same effect is a statement about pairs of runs.", "anchors": ["paramz/param.py:73-93", "paramz/core/observable_array.py:56-67", "paramz/parameterized.py:228-277", "paramz/core/parameter_core.py:270-296"]}
{"id": "C102", "title": "A program sees the same whatever else is done around it", "statement": "A program that makes parameters and models, links, moves, unlinks, copies, sets, fixes, constrains, reads and optimises them has the same answers to every call (arrays, results of optimisations, refusals of links) and leaves the same objects with the same parameters, values and constraints, whether it is run alone or interleaved with any other calls that link, unlink and use only objects of their own, including calls that copy its objects. What new and freed memory contains does not matter either.", "quantifier": "all programs, all other calls interleaved in any way, all initial contents of memory, all optimisers and transformations, as far as the arrays are not out of date (C96) and up to the first refused move within a model (C99)", "why_tests_cant": "It compares a program with all its interleavings with unknown other programs; objects of both programs are made in turn, so that nothing but a correspondence maintained along both runs can be compared.", "anchors": ["paramz/parameterized.py:128-226", "paramz/parameterized.py:228-277", "paramz/core/parameter_core.py:66-124", "paramz/core/pickleable.py:70-95", "paramz/model.py:65-116"]}
{"id": "C103", "title": "Making a Param of a Param leaves the models alone", "statement": "Param(name, p) with a Param p gives an unconstrained parameter. No other object gains or loses constraints, and changes of any other parameter are told to the same objects as before. If p is a parameter of a model, p stays what it was: it has its constraints, fixing and unfixing it take effect, and the model hears of its changes.", "quantifier": "all states reached by any calls, all parameters p, all further calls", "why_tests_cant": "whether a parameter is cut off from its model shows only in later calls, and some of them put things right again; it is a statement about all continuations", "anchors": ["paramz/param.py:86-98", "paramz/core/observable_array.py:56-67", "paramz/core/observable.py:40-44", "paramz/core/constrainable.py:35-41"]}
{"id": "C104", "title": "A printed list of observers shows who will be called", "statement": "str(a.observers) has one line for every registration whose observer still exists, in the order in which notify_observers() calls them; the first line of each priority begins with the priority and the others of that priority are indented as far. len(a.observers) is the number of lines, and a.observers[i] is the registration on line i, a.observers[-i] the i-th from the end. If different priorities, observers and callbacks are printed differently and without line breaks, two lists with the same text make the same calls in the same order.", "quantifier": "all histories of registering, removing, changing priorities and of observers going away; all texts of priorities, observers and callbacks", "why_tests_cant": "that the text leaves nothing open is a statement about all pairs of lists; observers go away at any time", "anchors": ["paramz/core/lists_and_dicts.py:ObserverList.__str__", "paramz/core/lists_and_dicts.py:ObserverList.__len__", "paramz/core/lists_and_dicts.py:ObserverList.__getitem__", "paramz/core/lists_and_dicts.py:ObserverList.__iter__"]}
{"id": "C105", "title": "Checking the gradients of several parameters at once", "statement": "For c = m[regexp] selecting several objects, c.checkgrad() checks the free elements of all selected objects, each of them once even if an object and another one inside it are selected, and nothing else: c.checkgrad(verbose=True) answers True exactly if checkgrad(verbose=True) of every selected object does, and the quick check moves exactly these elements at once and compares with exactly their gradients. Afterwards every parameter has the value it had before.", "quantifier": "all hierarchies, constraints and fixes, all lists of selected objects (overlapping or not), all objectives, gradients, steps, tolerances and random signs", "why_tests_cant": "positions in the optimiser's vector depend on everything fixed before a parameter, and selections overlap", "anchors": ["paramz/param.py:ParamConcatenation.checkgrad", "paramz/param.py:ParamConcatenation.__init__", "paramz/core/indexable.py:Indexable._raveled_index_for", "paramz/core/indexable.py:Indexable._raveled_index_for_transformed", "paramz/model.py:Model._checkgrad"]}
{"id": "C106", "title": "Arrays of indices are not shared", "statement": "Different index operations (constraints, priors, copies of them, objects updated from one another) never share their arrays: a call on one of them changes nothing that another one says, and shifting, which is done in place, moves each index once. An array that was given out, by x[t] or by remove, keeps its entries whatever is called later, and writing into it changes no constraints.", "quantifier": "all histories of calls on any number of index operations and views, with writes of the user into arrays given out at any time", "why_tests_cant": "arrays are changed in place by some calls and replaced by others; sharing shows only in later calls on another object", "anchors": ["paramz/core/index_operations.py:ParameterIndexOperations.shift_right", "paramz/core/index_operations.py:ParameterIndexOperations.shift_left", "paramz/core/index_operations.py:ParameterIndexOperations.add", "paramz/core/index_operations.py:ParameterIndexOperations.remove", "paramz/core/index_operations.py:ParameterIndexOperations.__getitem__", "paramz/core/index_operations.py:ParameterIndexOperationsView.__getitem__"]}
{"id": "C107", "title": "Counting constrained elements, and deleting what is not there", "statement": "x.size of index operations is the number of pairs (property, element) that x shows, on the owner and on views. del x[t] leaves no element with t, and raises KeyError exactly if x shows no element with t.", "quantifier": "all histories of calls on the owner and on views, all properties", "why_tests_cant": "properties without elements are stored or not depending on the calls before", "anchors": ["paramz/core/index_operations.py:ParameterIndexOperations.size", "paramz/core/index_operations.py:ParameterIndexOperationsView.size", "paramz/core/index_operations.py:ParameterIndexOperations.__delitem__", "paramz/core/index_operations.py:ParameterIndexOperationsView.__delitem__"]}
{"id": "C108", "title": "Parameters are looked up by identity", "statement": "In m.parameters (and in the list of what m[regexp] selected) objects are looked up by identity, never by their values: x in l is True exactly if x itself is in l, l.index(x) is its first position and raises ValueError exactly if x is not in l, l.remove(x) takes out x and nothing else, and l.count(x) counts x only; none of them compares arrays.", "quantifier": "all lists of objects, all equalities that the objects may define, including ones that raise", "why_tests_cant": "comparisons depend on the values and shapes of all other parameters in the list", "anchors": ["paramz/core/lists_and_dicts.py:ArrayList.__contains__", "paramz/core/lists_and_dicts.py:ArrayList.index"]}
