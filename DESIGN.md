# Formal model of paramz in Lean 4

The model covers the Python code under `/repo/paramz`. It is written function by function; every
definition cites the file and lines it models. Properties are listed in `properties.jsonl`, the
theorem names per property in `MANIFEST.json`, seeded faults in `seeded/LOG.jsonl`.

## Layout of `lean/Verif`

Each area has a directory with `Model.lean` (the code), optionally `Spec.lean` (a small independent
specification), `Lemmas.lean` (helper proofs) and `Props.lean` (the property theorems, each with a
concrete instance beside it).

| directory    | code modelled |
|--------------|---------------|
| `IndexOps`   | `core/index_operations.py` |
| `Observer`   | `core/lists_and_dicts.py` (ObserverList), `core/observable.py` |
| `Cache`      | `caching.py` |
| `Transform`  | `transformations.py` (over the reals), singleton construction |
| `Hier`       | `parameterized.py` link/unlink, `core/indexable.py`, `core/constrainable.py`, `traverse*`, `copy` on an object heap |
| `Mem`        | `_connect_parameters`, `_propagate_param_grad`, `param_array` on a buffer heap |
| `Notify`     | `_trigger_params_changed`, notification, `update_model` |
| `Opt`        | `optimizer_array`, `_transform_gradients`, `randomize`, `_objective`, `_grads`, `_checkgrad`, `optimize` and `optimize_restarts` of a model with SCG |
| `Names`      | sibling names, `adjust_name_for_printing` |
| `Ravel`      | `Param._raveled_index`, `_indices`, `_raveled_index_for_transformed` |
| `Concat`     | `ParamConcatenation` |
| `Run`        | `Model._objective*`, `optimize`, `optimize_restarts`, `Optimizer` records, `SCG`, `get_optimizer`, progress times |
| `Ridge`      | `examples/ridge_regression.py` (over the reals) |
| `Select`     | `grep_param_names`, `__getitem__`, `__setitem__` with names, `hierarchy_name` |

## Conventions

* Python functions become total computable Lean functions (except over `ℝ`); Python exceptions are
  values (`Except`), never silently defaulted.
* numpy integer arrays are `List Nat` (raveled indices are never negative).
* Floating point is idealised to `ℝ` where arithmetic matters (`Transform`, `Opt`, `SCG`); elsewhere
  values are an arbitrary type.
* Where the code violates the property, the negation is proved for a concrete witness in the model
  (theorem name ends in `_fails`), and the provable part carries `_partial` with its exact extra
  hypothesis.

## Trusted base

* Lean 4.33 kernel; axioms used at most `propext`, `Classical.choice`, `Quot.sound`.
* The reading of Python/numpy semantics in the model (list of numpy facts used below).
* Idealisation of floats to reals where stated.

numpy/Python facts relied on: `union1d` returns the sorted unique union; `setdiff1d(a,b,True)` for
duplicate-free `a` keeps the elements of `a` not in `b` in order; `intersect1d(a,b,True)` sorts the
concatenation and returns each entry equal to its successor; boolean mask selection keeps order;
`a.flat[mask] = v` assigns `v[0], v[1], ...` to the selected positions in turn; `np.put` assigns by flat
position; slicing shares memory; `np.empty` has arbitrary contents; assigning `arr.data` rebinds
the memory of `arr`; dictionaries iterate in insertion order; `id` is unique among live objects.

## Plan per property

| id | modelled | proof |
|----|----------|-------|
| C01 | dictionary of sorted index lists, views by offset/size over it | invariant by induction over operation lists |
| C02 | same | refinement to relation `prop × Nat`; returned array of `remove` with repeated input indices is wrong: witness + partial |
| C03 | same | algebraic laws on the relation |
| C04 | nested views as `base | view parent offset size` | refinement to windowed relation; in-window hypothesis for add/remove |
| C05 | `properties_for`, `properties_dict_for` | decision logic, all lists |
| C06–C08 | observer list with liveness; notification loop with arbitrary edits | sortedness + stability invariant; snapshot lemma |
| C09–C14 | Cacher state machine, heap of addresses with contents, free/alloc, change notifications | invariant by induction over histories; keyword-name collision: witness + partial; hex key injectivity |
| C15–C20 | transformations over `ℝ` with clipping | real analysis (Mathlib); NegativeExponent and Square faults: witnesses + partials |
| C21 | registry of live instances | invariant by induction |
| C22–C28 | object heap: parent, children, size, index operations, fix masks | well-formedness invariant over all histories; per-leaf constraint preservation; cycle and bad-index requests: witnesses |
| C29–C34 | optimiser view as list functions | list lemmas; staleness and in-place gradient scaling: witnesses + partials |
| C35–C36, C55 | buffers, array views, ownership, `np.empty` oracle, freed memory | invariants over all histories (sharing, separation, sizes of arrays); deep link, emptied root: witnesses + partials |
| C37–C40 | notification and traversal as trace semantics | induction over the tree; stuck visit marks: witness |
| C41–C42, C52 | sibling renaming loop, name adjustment, attributes | termination measure; character-level proof |
| C43, C53 | strides and index lists, free positions | induction over shape |
| C44, C54 | mask assignment and reading | list lemmas; witnesses for partial masks and second update |
| C45–C48 | counters, run selection, SCG loop, substring lookup | induction over outcome lists / iterations |
| C49–C51 | randomize, flat names, time format | list lemmas, arithmetic |
| C56 | objective and gradient as functions of the optimiser's vector | chain rule through C18, C30, C33; NegativeExponent: witness + partial |
| C59 | new numbers for the copied subtree, then `__setstate__` bottom up | isomorphism of forests; invariant extended to histories with copies; mask of a copied `Param`, marks left behind: witnesses + partial |
| C60 | arrays of copied `Param`s in new buffers, then `_connect_parameters` bottom up, as in C35 | induction over the nesting of `__setstate__`; buffers of copies are newer than all others; C35, C36, C55 extended to histories with copies |
| C61 | object heap with names and values, traversal with visit marks | grep = filter of the preorder; paths of printed names as an inductive specification; search below the root, unprintable name: witnesses + partial |
| C62 | arrays held by the optimiser: own or the array of the model; SCG with shared gradients | induction over evaluations; SCG with shared gradients is gradient descent (invariant over passes): witnesses + partial |
| C63 | optimiser objects as a store, `optimize` by name or with an object | induction over histories; reused object, climin, undocumented codes: witnesses + partial |
| C64 | weights, gradient, error and objective as state | derivatives (Mathlib), convexity; induction over histories; update of the basis alone, several outputs: witnesses + partial |
| C65 | values of all elements, what each observer saw last, over the notification model | reachability of observers in notification rounds; invariant over histories; fixed parameters, lowest priority, linking: witnesses + partial |
| C66–C67 | `optimize` and `optimize_restarts` over the model of the optimiser's array, with SCG plugged in (objective and gradient go through the transformations) | composition of C17–C25, C16, C47 and C46: states during a run are alike, lengths kept, starting point maps back; a transformation whose inverse is wrong: witness + partial |
| C68 | cachers with owner and switch, `obj.cache` dictionaries, attributes holding cachers, traversal, copies | invariant over all histories (decorated cachers follow the object's switch; each cacher is registered once); copies and replaced cachers: witnesses + partial |
| C69 | one key of a cacher on top of the notifications and values of C65 | invariant over all histories (stored and not marked: computed from the current values); order of calls inside one update by induction over rounds; witnesses + partial |
| C70 | the graph of objects in the file as for a copy, states set in the order `pickle` writes them, keys of the dictionary foreign, arrays owning memory or not | the order is a post-order, so every `__setstate__` finds its children; C59/C60 lemmas; simulation for ownership; calls on twins; witnesses + partial |
| C71 | array objects with cells, a list object and a switch; indexing makes a new object on the same list | invariant: arrays that share a cell share the list; induction over histories for an observer that notes what it sees; witnesses + partial |
| C72 | a cacher for functions of one array on top of C71 | invariant over histories; witnesses + partial |
| C73 | the loops over the parameters on top of the hierarchy, its notifications and values | C26, C27 for one parameter, induction over the list without repetitions; witnesses + partial |
| C74 | the display as observer of priority 0, evaluations with the handlers of C45, any optimiser as a tree of questions and answers | induction over the optimiser, comparing the two runs; order of the calls from the model of notifications; witnesses + partial |
| C75 | the walks that make the columns, over the hierarchies of C22-C28, and the raveled indices of C43 | every walk equals a map over the flattened parameters; then the constraints of each row from the invariant; witnesses + partial |
| C76 | the histories of C57 over the optimiser view | invariant by induction over histories, from the specifications of the setter and of every constraint call; instantiated with C02/C06 for the library's transformations; a second invariant over histories that build, link, unlink and copy objects in memory; witnesses + partial |
| C77 | all objects of a hierarchy with their own copy, flag and mask (`Whole`), the windows of C19, the constraint views of C23, the rounds of C36 | every object is an instance of the optimiser model; invariant of copy and mask by induction over histories, each call either tells the node or leaves its window and transformations alone; witnesses + partial |
| C78 | the memory of C35, the hierarchy of C22 and the optimiser's array of C29 together | the list of free elements is cut along the `Param`s; pieces are kept by every structural call (C22, C23, C35, C59, C60); witnesses + partial |
| C79 | `ObserverList.remove` with an arbitrary `==` that may raise | exact set of registrations removed and exact condition for raising, by induction over the list; with a faithful `==` it is the model of C06-C08; witnesses + partial |
| C80 | loops over `_index_operations` in `link_parameter`, `unlink_parameter`, `_parent_changed`, `_disconnect_parent`, with `KeyError` in the middle | every name is simulated by a heap of the model of C18-C23 with the same pointers, whose dictionaries have no `__fixed__` key; its theorems carry over, also those on copies (FamiliesCopy.lean); witnesses + partial |
| C81 | python's `t = x[k]; t = t.__iop__(v); x[k] = t` over `__getitem__`, the operators of `Param` and `ParamConcatenation`, `__setitem__`, `__setattr__`, with the announcements | composition of C44, C61, C37; case analysis on the matches; witnesses + partial |
| C82 | a second memory for `_gradient_array_` that goes through the steps of C36, with `Param`s that own their arrays; the setters of `gradient`; copies and loaded models, whose gradients are new arrays with arbitrary contents | simulation of arrays that own memory by arrays that do not (`Twin`), then C35, C36 and C55; witnesses + partials |
| C83 | all objects of all hierarchies with names, attributes, parents and flags; the recursion of `_add_parameter_name` with the state kept when it raises; linking, unlinking, renaming, constructors, `__setattr__` | refinement to the recursion of C41; invariant over all histories; eventually constant in the depth; witnesses + partials |
| C84 | `__call__` entered again while the operation runs (caching.py:149-192), operations as programs that call the cached function and may catch exceptions, at any depth | a recursive call is the same as its inner calls one after the other followed by itself, so C09's refinement applies; induction over depth and over the program; witnesses + partials |
| C85 | `optimize_restarts(parallel=True)` (model.py:118-190) after the pool has ended: results, exception of a job, or Ctrl-C; jobs as SCG runs of copies, all but the last randomized | loop by induction, argmin as C46; each job's run is a run of C67's model; the order of the records is a rotation; witnesses + partials |
| C86 | `SCG` (scg.py:44-174) against an oracle with state: `_objective`, `_grads` (model.py:225-269), the gradient array it shares, `_fail_count`; `optimize` (model.py:97-116) | invariants over the loop (failures in a row; best value so far), refinement to the SCG of C47 by simulation; witnesses + partial |
| C87 | `Param.__getitem__`, `__array_finalize__` (param.py:100-118, 155-168): a part with the memory, parent and position of the moment and the shared dictionary; `_set_fixed` through the old parent (constrainable.py:94-132, indexable.py:130-141) | invariant over histories: window, parent and siblings of `p` are unchanged; induction over the loop of `unconstrain`; witnesses + partial |
| C88 | `__setattr__` (parameterized.py:332-339) on top of the names of C83 and the assignment of C61, with the attributes the program stores itself | soundness of library attributes over all histories, uniqueness of the printed name; witnesses + partial |
| C89 | `save`, `parameter_names` (parameter_core.py:174-199, 540-577), file = list of named datasets | both walks shown to list the Params in the same order by induction over the hierarchy, dotted names by `Path`; round trip through `m[:] = ...`; witnesses + partial |
| C90 | calls of `Verif.Notify.Model` made in order up to the first that raises (parameter_core.py:66-134, 228-250, 502-510); per object the values it last computed with and those of its optimiser's copy | every call = values, then one round; prefix of the round; induction over histories; witnesses + partial |
| C91 | `optimize` with an arbitrary optimiser as a tree of questions (model.py:65-116, 225-282), run on the memory and hierarchies of `Verif.Mem`; the answers contain the gradient array that may be shared (C62) | equal `Param`s in the same order give equal values, constraints, arrays and answers at the root; setting equal lists keeps them equal; induction over the optimiser; a loaded model mirrors a copy (`Mirror`); for raising evaluations a second model with `_fail_count` and the gradient array (`Bench`) and simulations of it; witnesses + partial |
| C92 | `optimize` with an arbitrary optimiser as a tree of questions that may also write into and read from the array it was started with (model.py:65-116), reads of `optimizer_array` at arbitrary evaluations (parameter_core.py:66-93), SCG as such a tree (scg.py:44-174) | states that differ in the stored copy only give equal evaluations; induction over the optimiser; in-place optimisers by C31; the same with evaluations that fail, as a function of the values (WatchFail.lean); witness + partial |
| C93 | the calls of C26-C33, C78 and C91 on objects of one model in one program state, with the optimiser's copy and its flag (`Box`) | `Sheet`: a list of lists of cells with pure functions for every call; relation `IsSheet` between state and sheet; simulation, one call at a time, then induction over the calls; corollaries for other models, equal sheets and copies; witness for the stale array |
| C94 | `link_parameter`, `unlink_parameter` of C22, C23, C35 and the sheets of C93 | `paste`, `cut` on lists of rows; `Gap`: how many Params come before a place; induction over the path to the place for the order of Params, C22, C23 and C35 for their contents; return to the old place by C93 |
| C95 | constructors of the optimisers, `opt`, `optimize`, `optimize_restarts` as functions from keyword arguments to the arguments of the routine and warnings | independent table of the names of the settings in the manuals; case analysis over optimisers, lookup lemmas for keyword arguments; induction over restarts |
| C96 | memory and optimiser's arrays of all objects as one world, programs as lists of constructions, links, unlinks, copies and the calls of C93 | simulation between the world and a plan of nested lists, using C93 for calls, C94 for links and unlinks, and the frame lemmas of C80 for other models; induction over the program; with `update_model` in PlanOff.lean, where the plan is unchanged and only the notes on what is announced are extended |
| C97 | the formats, widths and joins of __str__ and _repr_html_ on lists of characters and html tokens; cells and the formats of numbers are parameters | widths bound lengths, lists of fields; read-back by stripping blanks; stack of open tags for html |
| C98 | the programs of C96; a correspondence between the objects of two models as specification | both programs follow plans (C96), corresponding plans stay corresponding; induction over parallel lists of calls; with links, unlinks and copies of the two models (Match, Share) as in C102 |
| C99 | the programs of C96; the reasons for a refusal in terms of the plan's lists | the plan decides refusals itself; no calls but refused moves within a model leave marks (invariant), so the search is exact (C25); induction over the program |
| C100 | build_pydot over the hierarchy of C20, pydot's pictures as lists of nodes and edges | the recursion adds flat lists of nodes and edges; first node of a name wins; induction over the depth |
| C101 | the memory of C01 with an array of the user on which Params are made | every call's work on memory is a list of connects that depends on pointers only (Moves); connecting never gives the array's buffer to anyone, writes it or (if nobody holds it) reads it (Tame); two runs compared by overwriting the buffer |
| C102 | the programs of C96; Share = the same program with other calls in between, Match = the same objects up to renumbering | both runs follow plans; calls of the program keep plans corresponding (PMatch), other calls do not touch what corresponds; induction over the interleaving |
| C103 | the second run of the constructor on the hierarchy, constraints and observers of C37 | invariants of Hier and Notify for a p in no model; induction over all later calls for the observers; witnesses |
| C104 | `__len__`, `__getitem__`, `__str__` of the lists of C06 on lists of characters; texts of priorities, observers and callbacks arbitrary | the loop's line i computed by induction; injectivity of the lines, then of the text by splitting at line breaks; witnesses |
| C105 | `ParamConcatenation.checkgrad`, `_raveled_index_for` and `_raveled_index_for_transformed` of a concatenation, on the model of C57 and the concatenations of C73 | positions of several objects are those of each of them (C34: every position belongs to exactly one `Param`); both checks for an arbitrary list of positions; witness |
| C106 | the dictionaries of C01 with references to arrays; which calls write in place and which make new arrays; copies, `update` between objects, reading, and writes of the user | arrays are stored in one place only (invariant over histories), hence every call acts as in the model without memory; arrays of the user are not stored; witness |
| C107 | `size` and `__delitem__` of both classes on the model of C01 | the pairs listed by `items` are distinct (C01) and those that `x[p]` shows; which calls store a key; witness |
| C108 | `ArrayList.__contains__`, `index`, and `remove` and `count` of `list`, on objects with an arbitrary `==` that may raise | induction on the list; witness |
| C57–C58 | both forms of checkgrad | simulation by states that differ in free values only; error of the difference quotient (mean value theorem); quick check: witnesses |

## Findings: where the code disagrees with the English property

Each is proved on the model as a theorem ending in `_fails`; line numbers refer to `/repo/paramz`.

* `remove` returns indices it did not remove when the argument has repetitions (C02).
* A keyword named like a positional argument collides in the cache key (C09). Views of one array share an
  observer list, so evicting the entry of a view unregisters the array (C12).
* `NegativeExponent` (f, finv, gradfactor, log_jacobian) and `Square` at negative values (C16-C18, C20).
* Unpickling makes second instances of singletons (C21).
* Hierarchies (C22-C28, C40): linking a root into itself or its own subtree is not rejected; a position beyond
  the end half-links; linking below a root that is not initialised leaves stale views; an exception inside
  `traverse` leaves `__visited` marks, after which a rejected move succeeds; the mask of a sub-model is not kept
  up to date; fixing a part of a parentless `Param` does not take the element from the optimiser.

* `optimizer_array` (C31-C33): stale after `unconstrain`, after link/unlink (then even uninitialised memory) and
  after any change made with updates off; without fixes the returned array is the internal copy; computing the
  optimiser gradient scales the model gradient in place, so asking twice scales twice.

* Memory (C35, C55): `_connect_parameters` copies values only one level deep before it moves the arrays. Linking
  something below a grandchild of the root therefore replaces the values of everything in that grandchild by
  uninitialised memory (parameterized.py:243-277, parameter_core.py:270-296), and so does unlinking one level
  further down, and initialising three levels made with `initialize=False`. `param_array` keeps an array whose
  length happens to fit (parameter_core.py:347): a root whose last parameter was unlinked still holds that
  parameter's memory, so that linking another one of the same size overwrites the first and leaves both with the
  same memory.

* `update_model` (C39): switching on at an object below the root updates neither its siblings nor anything else
  that is not above or below it; objects linked while updates are off still update themselves, and a part unlinked
  while updates are off stays silent.

* Names (C41, C42, C52): a parameter linked below the root is neither renamed nor made an attribute until the
  parent is connected for another reason; renaming recurses (2 levels per increment), so enough equal names
  exceed any recursion limit; a line break at the end of a name passes `adjust_name_for_printing`, and so do
  Python keywords; `a b` and `a_b` share one attribute.

* Raveled indices (C43): an empty selection (and a `Param` without elements) raises `ValueError`; index arrays
  separated by a slice, and indexing a `Param` that has been indexed already (`p[2:][0]`), give positions of
  other elements, so `fix`, `constrain` etc. act on the wrong ones.
* `ParamConcatenation` (C44, C54): `c[s] = v` with a selection inside a parameter stores values of other
  positions (`flat[mask] = ...` takes the values from the start); only the first assignment (or `constrain`)
  updates the parents, since `map` is an iterator in python 3; `c[s]` leaves out parameters whose selected
  values are all zero.

* Optimisation runs (C45, C46): when the gradient itself fails its first failure is raised, since the handler
  computes it again; the failure count is neither reset after it raised nor at the start of `optimize`.
  `optimize_restarts` takes a run with objective `nan` for the best one; a run whose `x_opt` is the start itself
  (SCG with no accepted step, no fixed parameters) shares memory with `_optimizer_copy_`, which the next run
  overwrites: if it was the best, the model ends at another run's random start. With everything fixed and
  `verbose`, `optimization_runs[-1]` raises `IndexError`.
* `max_f_eval` is ignored: `Optimizer.__init__` stores `max_iters` instead (optimization.py:40), and SCG does not
  look at it. The documented optimiser `sgd` does not exist, `lbfgs` is L-BFGS-B (C48).
* `checkgrad` (C57, C58): the quick check moves two elements always in the same direction, so for two free
  elements every gradient with the right sum passes and the right gradient of a difference never does; with the
  default step and tolerance a gradient that is zero everywhere passes for derivatives up to about 500. The
  verbose check is exact. Both replace values constrained by `NegativeExponent` by their reciprocals.
* Copies (C59): `_fixes_` is not copied and `Param.copy` does not restore it, so the optimiser of the copy of a
  `Param` sees its fixed elements; after a rejected `link_parameter` the marks left behind hide the parents from
  `copy`, and the copy brings copies of its parents along.
* Selection by name (C61): names are compared from below the root, also when searching in a part of the
  hierarchy, so `m.rbf['variance']` finds nothing (`m.rbf['rbf.variance']` does). A name that cannot be printed
  raises `NameError` in every search and leaves visit marks, after which searches find nothing.
* Gradients given to the optimiser (C62): without fixed parameters `_transform_gradients` returns the gradient
  array of the model, which every later evaluation overwrites. In SCG `gplus - gradnew` and `gradold - gradnew`
  are then always zero: no curvature, no conjugate directions. Fixing any parameter turns them on.
* Records of runs (C63): Adadelta, RProp and Adam leave `f_opt` `None`, so two restarts end in `TypeError`; an
  optimiser object used twice makes earlier entries of `optimization_runs` show the last run, and
  `optimize_restarts` ends at the last run instead of the best; TNC's "unable to progress" and BFGS's `nan`
  codes raise `IndexError` after the run, TNC's "infeasible" is reported as "Function is constant".
* Ridge regression (C64): `m.basis.trigger_update()` makes the gradient wrong (the model subtracts its part from
  the gradient that is there, and only the regulariser resets it); `Y` with as many columns as `X` (more than one)
  is accepted but gets a wrong gradient.
* Observers (C65): `m[:] = v` changes parameters that are wholly fixed without telling their observers, so a
  cached function of such a parameter keeps returning the old result; the same if the fixed parameter is written
  to while updates are off; linking and unlinking tell nobody, so cached functions of a node become stale.
* Optimising (C66): with `NegativeExponent` on a parameter at -1/2 the optimiser starts from log 2, which means -2:
  an objective of -9/4 at the beginning becomes 0, for every number of iterations (no iteration at all included).
* Caching switches (C68): `Cacher.__deepcopy__` makes a cacher for the method of the *original* object and registers it
  there. So after `m.copy()` of a ridge regression, `copy.basis._basis` runs `m.basis.basis` (a basis with parameters of
  its own would use those of the original), and `m.disable_caching()` no longer reaches `m.basis._basis`. Copies also
  forget that caching was switched off, and `enable_caching` switches on cachers made with `cacher_enabled=False`.
* Cached methods (C69): linking or unlinking below an object notifies nobody, so cached methods of the object keep the
  result for the old set of parameters. During `m.optimizer_array = x` (every step of an optimisation) the cachers of an
  object are told only when its turn comes: `parameters_changed` of an earlier sibling, or of an object below, that uses
  a cached method of the object gets the result for the previous step.
* Pickling (C70): `part.pickle(file)` writes the whole model (through `_parent_`) and the file cannot be loaded: the state
  of the parent is set first and connecting the part raises `AttributeError` (it has no name yet). `unconstrain()` and
  `constrain` look for the key `'fixed'` by identity (`t is __fixed__`, indexable.py:267); the key of a loaded dictionary
  is another string, so the constraint is removed but the mask is not, and the optimiser never gets the element. A
  `Param` loaded on its own has constraints but no mask. Not modelled in loading: names, observers, caches (an attribute
  holding a `Cacher` makes `pickle` raise; `RidgeRegression` is such a model), a second instance of `Logistic` (C21).
* Observable arrays (C71): indexing copies the switch `_update_on` but shares the list of observers. A part made while
  updates are off never notifies; a part made before still does. Copies by fancy indexing or `flatten()` notify the
  observers of the original, and `a[[1, 2]] += 1` calls them once before anything changes. Callbacks get the part as
  argument, not the array they are registered with. `ObsAr(a)` drops the observers of `a`; `ObsAr(x)` does not copy an
  array of floats, although the comment says so.
* Cached functions of arrays (C72): `on_cache_changed` looks for the array that notified by identity, so a write through
  a part `a[1:3]` leaves the stored result for `a` in use. Dropping the result for a part unregisters the cacher from
  the list shared with `a`, and later writes to `a` itself are not noticed either. The same holds for `Param`s.
* Constraining several parameters (C73): `c.fix(array)` stops at the first parameter the array does not fit, after those
  before it have been changed and fixed. `c.constrain('fixed')` on a `c` that was used before fixes the parameters but
  updates no object, so the optimiser's array stays as it was (C32).
* Messages (C74): the display is called before the model's own `parameters_changed` (priority 0 against -100). If the
  objective is computed there, as in `RidgeRegression`, every line shows the objective of the evaluation before, and the
  gradient is always that of the evaluation before. A model whose objective cannot be computed before its own update fails
  in every evaluation when messages are shown, and works otherwise.
* If the objective raises when `optimize(messages=True)` is called, the display stays registered (the bound method keeps it
  alive) without having been started: from then on every change of the model raises `AttributeError` (no `start`), and
  the model's `parameters_changed` is never called again.
* `print_out` draws from `np.random`, so that with messages random restarts depend on the clock, also with a fixed seed.
* Printing (C75): a `Param` without elements makes `print(m)` of every hierarchy that contains it raise `IndexError`
  (`_description_str` takes element 0 for sizes up to 1), and printing it alone raises `ValueError`.
* The table of `p[2:][:1]` shows the value of element 2 with the index and constraints of element 0, because
  `_current_slice_` is that of the last indexing (C43). A fixed element can be shown as free.
* Domains (C76): `p[[0, 2]].constrain_positive()` moves the values of the copy that the index made into the domain, and
  records the constraint for the elements of the model, whose values stay negative. The optimiser then starts at
  `log(exp(x) - 1)` of a negative number, which is `nan`. `p[0:3:2]` does not have this problem.
* Arrays of parts (C77): (i) `optimizer_array` of a `Param` with fixed elements lists these too, because `Param._ensure_fixes`
  makes a mask without looking at the constraints; its setter expects an array without them, so
  `p.optimizer_array = p.optimizer_array` moves values to the wrong elements. (ii) A `Param` is not registered with
  itself, so after the first read its array never changes again unless it is set on the `Param` itself. (iii) A node
  below the root stores a mask at the first read, and fixing or unfixing afterwards only updates the mask of the root.
  (iv) `unconstrain`, and writing to a wholly fixed node through the model, leave the old array in place.
  (v) `unfixed_param_array` of a `Param` reads `_param_array_`, which a `Param` does not have (not modelled).
  (vi) Reading the array of a constrained two-dimensional `Param` uses raveled indices on the unraveled array (not
  modelled: parameters are raveled here).
* `ObserverList.remove` (lists_and_dicts.py:85) compares observers with `==` although `remove_observer` finds them with `is`: an array observer of two or more elements cannot be removed (`ValueError`), it also prevents the removal of any other observer of the same priority, a one-element array takes equal ones with it, and NaN is never removed (C79).
* `link_parameter` (parameterized.py:152-154, 160-163) shifts the index operations of the parent before it looks the name up in the parameter: linking a parameter that lacks one of the parent's names raises `KeyError`, links nothing, but moves the constraints of the parameters already linked and gives them those of the other one. A parameter with a name the parent lacks is linked although `KeyError` is raised (indexable.py:234-236), and loses the name and its properties for good (C80).
* The operators of `ParamConcatenation` (param.py:547-584) have no `return`: after `c = m['rbf']; c += 1` the variable `c` is `None`. `m['rbf'] += 1` works only because `__setitem__` ignores `None` (parameterized.py:320-321). If the expression matches one `Param` the model is recalculated twice, if it matches one part `TypeError` is raised, and on a model that is not initialised the values are changed before `AttributeError` is raised. `m[3]` can be read, but `m[3] = v` and `m[3] += v` raise `TypeError` (`int` is missing in parameterized.py:322) (C81).
* Gradients (C82): `m.gradient = g` on an object that has not been initialised raises `AttributeError` (parameter_core.py:438 uses `_gradient_array_`, not `gradient`), although `m.gradient` can be read. The gradient array of a `Param` comes from `np.empty` (param.py:147) and owns its memory, so connecting frees it (parameter_core.py:291, parameterized.py:272): the gradient of a part `p[:1]` made before `p` is connected (param.py:165) is left with freed memory.
* Names in hierarchies (C83): `link_parameter` puts the parameter into the list before it looks at the name (parameterized.py:149-183), so a parameter named `1a` is linked although `NameError` is raised; from then on every link, unlink, initialisation and attribute assignment on that object raises. `unlink_parameter` (parameterized.py:205-211) takes such a parameter out of the list, raises, and leaves it its parent: it can be linked nowhere again, and renaming it gives its former parent an attribute for an object that is not its parameter. Linking or moving below an initialised root connects only the root: siblings with equal names are not renamed, and a moved parameter loses its attribute.
* Recursive cached functions (C84): `__call__` looks whether the inputs are new or changed before the operation runs and stores afterwards (caching.py:174-190). If inner calls evict the entry that is being renewed, or an inner exception that the function catches empties the cache, caching.py:185-186 put the outputs back without `cached_inputs`, `order` and observers: the entry is never marked as changed again and never evicted, so all later calls with these arguments return the old result. If the recursion runs over an ignored argument the same key is appended to `order` twice; when the second one is due `ensure_cache_length` raises `KeyError` (caching.py:106) in an unrelated call.
* Parallel restarts (C85): `robust` has no effect on failures in workers; `pool.map` raises the first exception it gets (model.py:158), only `KeyboardInterrupt` is caught (model.py:161), so one bad start loses all results and the pool is not closed. After Ctrl-C `jobs` is unbound (model.py:174): `UnboundLocalError`, or with `robust` one warning per restart and the parameters set again to their initial values. A model with nothing to optimise makes every job return `None` (model.py:89-91), which is appended to `optimization_runs` and then fails at `o.f_opt` (model.py:185). Updates that were switched off stay off (serial restarts switch them on, model.py:93-95), so the parameters change without the gradient being computed.
* Failing evaluations (C86): an exception in a run leaves the model at the point that failed; `optimize` (model.py:110-113) has no handler that restores it. The handler in `_grads` (model.py:240-246) transforms the gradient array that `_transform_gradients` (parameter_core.py:143-152) has already changed in place, so with constraints the gradient of a failing point is the last one with the factors applied again, and again with each further failure. Started exactly at an optimum SCG divides by zero (scg.py:96-97), the model is evaluated at nan, and if that fails `optimize` raises at the eleventh failure although nothing was wrong with the start. If the start cannot be evaluated and no step is accepted, setting `x_opt` (model.py:113) raises outside any handler. `_fail_count` is carried over from one run to the next.
* Kept parts (C87): `q = p[1:3]` remembers the address of the memory, the parent and the position of `p` at that moment (param.py:104-113). Linking or unlinking anything in the model moves the memory of `p` (parameterized.py:243-277), so writes through `q` reach nothing any more (and the memory they go to is no longer held by the model), while observers of `p` are notified as if `p` had changed. `q.fix()` marks the elements of whatever parameter is now at the old position (constrainable.py:132), or none if `p` had no parent when `q` was taken, or raises IndexError after the constraint was added: mask and constraints disagree from then on.
* Attributes (C88): `m.a_b` returns the parameter with that printed name that was linked first, `m.a_b = v` assigns the one that is first in the list (parameterized.py:337, parameter_core.py:467-469): with `a b` and `a_b` these can be different parameters. After `self.a = x; self.link_parameter(x); x.name = 'b'`, `m.a` is still `x`, but `m.a = 3` replaces the attribute by the number and `x` keeps its value. With `m.a = 5` before a parameter `a` is linked, `m.a` stays 5 for good, and `m.a = 9` silently assigns the hidden parameter.
* Saving (C89): `save` replaces dots by underscores, so a parameter `rbf_variance` beside a part `rbf` with a parameter `variance` (or any parameter called `param_array`) makes it fail, with `TypeError: exceptions must derive from BaseException`, since a string is raised (parameter_core.py:576-577); the file stays open. An object that is not initialised is saved with the contents of fresh memory as `param_array` (parameter_core.py:347-350). If an earlier `m.part['regexp']` raised because of a name that cannot be printed, the marks it left make `traverse` skip that part, but not `parameter_names`: the file has values under names of other parameters, without any error.
* Exceptions in updates (C90): an exception raised by `parameters_changed` of a part of a model leaves the objects above it untold. `_optimizer_copy_transformed` of the root therefore stays true and `m.optimizer_array` still shows the values from before the assignment (parameter_core.py:83, 507), although `m.param_array` has the new ones; `m.optimizer_array = m.optimizer_array`, and `m.optimize()`, which starts from it, silently take the assignment back. A later assignment to another parameter returns normally while the part that raised still holds what it computed for old values.
* Optimising a copy (C91): a copy starts from an optimiser's array computed from its constraints, the original may start from a stale one (C32), e.g. after `unconstrain`. The two runs are then different although the models print the same.
* Optimising again after a failed run (C91): the eleventh failed evaluation in a row ends `optimize` with the exception and leaves `_fail_count` at 10 (model.py:237-242); the next `optimize` raises at its first failed evaluation, whereas an equal new model tolerates ten (`tired_start_fails`).
* Gradients of failing evaluations (C91): `_transform_gradients` writes into the gradient array (parameter_core.py:143-152) and `_grads`, hence `checkgrad`, leaves it so. If the next `parameters_changed` raises before setting the gradient, the handler transforms it a second time (`other_gradient_fails`).
* Reading while SCG runs (C92): without fixes `start = self.optimizer_array` is the stored copy of the model itself (model.py:98, parameter_core.py:93), and SCG keeps it as `x` until a step is taken. A `parameters_changed` that reads `optimizer_array`, or a callback that takes `m.copy()` (parameterized.py:355), refreshes this array in place, so `x` jumps to the point under trial; if the trial is rejected SCG goes on from, and returns, the rejected point. `watching_scg_fails`: the objective goes from 2 to 32 where an unwatched run finds the minimum.
* The one thing the simple picture misses (C93): between calls a model is its list of elements except for the flag of the optimiser's copy. `sheet_stale_fails`: read `optimizer_array`, `unconstrain`, read again: the second read is not what the list shows (C32).
* What keeps C94 partial is C35: when something is linked below a child of a child of the root, the rows are put in the right place but with destroyed values (`link_values_fails`).
* Settings (C95): accepted and ignored without a word are `max_f_eval` (all but SCG, which warns), `bfgs_factor` (all but L-BFGS-B), tolerances (Adadelta, RProp, Adam), `decay` of Adam (always `1-1e-8`), and every setting, also a misspelt one, when an optimiser object is given. `max_iters` limits evaluations for TNC and simplex, iterations for BFGS and SCG, both for L-BFGS-B.
* Programs (C96): an array of the optimiser that was looked at before a Param is linked is re-allocated but not re-read: it shows undefined memory (`plan_stale_fails`), until something announces a change.
* Programs (C96): a change made while updates are off is not seen in an optimiser's array that was looked at before, although the values show it (`off_stale_fails`); switching updates on, or `optimize`, repairs it.
* Printing (C97): `_max_len_values` measures values with the format `g`, `__str__` prints them with `f`, so that tables of Params with short names do not line up (`param_lines_up_fails`). `Param._repr_html_` opens a table and never closes it (`param_html_fails`). `Model.__str__` computes `max_len` from the length of the pairs, which is 2, so that the colons never line up (`details_fails`). Html escapes neither names nor values.
* History (C98): two models with the same contents can differ: the one whose optimizer_array was looked at before its last Param was linked shows undefined memory (`alike_stale_fails`).
* Refusals (C99): a refused move within a model is carried out when the program asks for it again (`move_again_fails`).
* Drawing (C100): an object that observes a parameter drawn before it is not drawn as a box or trapezoid (`shape_fails`), because `add_node` ignores a second node of the same name. `build_pydot()` of a `Param` raises `TypeError`: its argument has no default.
* Param and array (C101): the documentation of `Param` (param.py:73-75) says that the memory of the array given stays the memory of the `Param`. It does until the `Param` is connected; afterwards neither sees assignments to the other (`param_is_array_fails`). For `Param('b', a)` of a `Param` `a` see C103.
* Param of a Param (C103): `Param('b', p)` returns `p` itself (observable_array.py:65) after running its constructor again (observable.py:43, indexable.py:53). If `p` is in a model, the model keeps it, but its changes no longer reach the model (`remade_is_not_heard_fails`), and `p` and the model disagree about its constraints until the next link or unlink (`remade_denies_fails`).
* Observer lists (C104): `observers[i]` (lists_and_dicts.py:74-76) does not flush as `len`, `str` and iteration do, so after an observer has gone `observers[0]` may be `(p, None, c)` while `len(observers)` is already smaller (`getitem_dead_fails`).
* Checking several parameters (C105): `m[regexp].checkgrad()` looks the model up through its first `Param` (param.py:504), so it raises `IndexError` when the selected objects hold none, where the check of a single object prints that there is nothing to check and answers True (`many_empty_fails`). `_raveled_index_for` (indexable.py:161) hands a generator to `np.hstack`, which newer versions of numpy refuse (`TypeError`).
* Arrays of an owner (C106): `m.constraints[t]` of the model itself gives the stored array, that of a parameter inside a model a new one. `a = m.constraints[t]; m.link_parameter(p, 0)` therefore changes `a`, and `a[0] = 3` changes which elements are constrained (`owner_array_fails`).
* Deleting an absent property (C107): `del x[t]` raises `KeyError`, but not after `x[t]` has been read, because reading stores an empty array (`IntArrayDict`), and never on the index operations of a parameter inside a model (`del_absent_fails`).
* Lists of parameters (C108): `ArrayList` looks up by identity in `in` and `index`, but inherits `remove` and `count`, which compare with `==`: `m.parameters.remove(b)` takes out another `Param` of one element that has the same value, and raises `ValueError` in front of a `Param` with several elements (`inherited_fails`).
* Flat names (C50): a `Param` without elements gets a name, shifting all later ones.

## Not modelled

Printing other than the tables of C97 and the drawing of C100, plotting, notebook widgets, MPI, the processes behind `optimize_restarts(parallel=True)` (C85 models their results),
third-party optimisers (scipy, climin, rasmussen), pickling format, logging, thread safety, float
rounding, numpy dtypes. 
