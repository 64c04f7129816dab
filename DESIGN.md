# Formal model of lionherd-core: design

## Layout

* `lean/Verif/Py/*` – tiny library of Python semantics used by the models (insertion-ordered
  dicts as association lists, list indexing/slicing, exceptions as values).
* `lean/Verif/Model/*` – the model. Every definition cites the file and lines in `/repo` it models and
  says where it simplifies (an auxiliary definition with no Python counterpart of its own says which definition
  and lines it serves, is built on, or is part of). Functions mirror the Python branch by branch; a method that mutates an
  object becomes a function returning the new state *and* the result, also when it raises
  (`State × Except Exc α`), so that partial updates before an exception are visible.
* `lean/Verif/Spec/*` – small specifications, independent of the model's helpers (ordered maps, walks in
  a directed graph, edit scripts, ...).
* `lean/Verif/Lemmas/*` – helper lemmas.
* `lean/Verif/Props/*` – the property theorems, one file per area, with concrete `example`s showing that the
  hypotheses are met by non-trivial cases.
* `MANIFEST.json` maps properties to theorem names; `seeded/LOG.jsonl` records mutation experiments.

## Trusted base

* Lean 4.33.0's kernel. No axioms are added; theorems depend at most on `propext`, `Classical.choice`
  and `Quot.sound` (run `#print axioms`). No `sorry`, `admit`, `native_decide`, `bv_decide`.
* The reading of the Python source: the model was transcribed by hand from `/repo` (the code was not run).
* Assumed Python semantics: dict insertion order, list methods, `sorted` being a stable sort, `heapq`
  algorithms (modelled from CPython's pure-Python `heapq.py`), `set` iteration order is
  unspecified (modelled by an arbitrary list/permutation parameter), weak references die at arbitrary points.
* UUIDs are an abstract type with decidable equality (in the models: a type parameter or `Nat`). Fresh ids
  are modelled by parameters with freshness hypotheses.
* asyncio/anyio scheduling is modelled by explicit small-step interleavings or by arbitrary completion orders where
  a property speaks about schedules; real time and the memory model of threads are not modelled (threads
  appear as interleavings of the reads and writes that the model names).
* pydantic validation, orjson, yaml, regular expressions and `ast` parsing are outside the model except where stated
  (they appear as function parameters with arbitrary behaviour).
* Floats: modelled by rationals (or an ordered parameter type); rounding error is not modelled.

## Theorem name suffixes

* no suffix – the property, or part of a property whose claim is `proved`.
* `_partial` – proves the property on a restricted domain; the docstring says what is missing.
* `_violation` – a kernel-checked witness that the code does not satisfy the full property; the claim is then `partial`.
* `_limit` – a witness that a restriction which the property statement itself makes is needed.

## Not modelled

* pydapter itself and the `register_*` methods (which arguments `adapt_to`/`adapt_from` of nodes, piles and graphs pass on is modelled); the stubs of
  `protocols.py` (the decorator `implements` is modelled);
* `CapacityLimiter` in `libs/concurrency/_primitives.py` (what it does depends on the version of AnyIO), and AnyIO itself: `Lock`, `Semaphore`,
  `Event`, `Condition`, `Queue` and `TaskGroup` hand their calls to it, and their models state its documented behaviour;
* the prompt text (`lndl/prompt.py`), the string style of `_minimal_yaml.py` and YAML emission itself,
  the code generator that `schema_to_model` calls (its naming and loading logic is modelled), real files (`acreate_path` is modelled over an
  abstract directory tree);
* the cache of one serializer in `types/model.py` (`_get_default_hashable_serializer`; `_cached_default` of `json_dumps` is modelled), logging, `__repr__`, docstrings;
* `testing.py` except for its factories of nodes, graphs and flows.

## Which model covers which file

| file in `src/lionherd_core` | models in `lean/Verif/Model` citing it | functions without any citation |
| --- | --- | --- |
| `base/_utils.py` | Element, Event, EventSerial, EventShare, ItemType, Pile, Progression, Sync |  |
| `base/broadcaster.py` | BroadcastConc, BroadcastRefs, Broadcaster |  |
| `base/element.py` | ClassTree, ContainerKeys, ContainerText, DumpHeap, EdgeAssign, Element, ElementText, Embedding, Event, EventSerial, Exclude, FlowEdit, FlowSerial, LoadHeap, Nested, Pile, PileLoadKeys | `_get_default_serializer` |
| `base/event.py` | DumpHeap, Event, EventAssign, EventSerial, EventShare, ExecStatus, Executor, Streaming |  |
| `base/eventbus.py` | EventBus, EventBusConc |  |
| `base/flow.py` | ClassTree, ContainerText, DumpHeap, Exclude, Flow, FlowEdit, FlowInit, FlowSerial, FlowSync, Flows, ItemType, LoadHeap, Sync |  |
| `base/graph.py` | Adapt, ClassTree, ContainerKeys, ContainerText, DumpHeap, EdgeAssign, Exclude, FindPathConc, FlowSync, Graph, GraphCond, GraphDirect, LoadHeap, PileSync, Sync |  |
| `base/node.py` | Adapt, ClassTree, DumpHeap, Element, Embedding, Exclude, LoadHeap, NodeContent, ToDict |  |
| `base/pile.py` | Adapt, ClassTree, ContainerKeys, ContainerText, DumpHeap, Exclude, Flow, FlowSerial, FlowSync, GraphDirect, ItemType, LoadHeap, Nested, Pile, PileConc, PileLoadKeys, PileLoop, PileScope, PileSync, Sync |  |
| `base/processor.py` | EventShare, ExecLoop, ExecSlots, ExecStatus, Executor, Processor, Streaming |  |
| `base/progression.py` | Flow, FlowEdit, Flows, PileLoop, Progression | `Progression.__reversed__`, `Progression.__list__` |
| `errors.py` | Errors, EventSerial |  |
| `libs/concurrency/_cancel.py` | Deadline, Event |  |
| `libs/concurrency/_errors.py` | Deadline, ExcGroup | `get_cancelled_exc_class` |
| `libs/concurrency/_patterns.py` | EventBusConc, Fanout, Patterns, RaceLive, StreamFail |  |
| `libs/concurrency/_primitives.py` | Alcall, Condition, EventFlag, PileScope, PriorityQueue, Queue, Semaphore | `CapacityLimiter.__init__`, `CapacityLimiter.acquire`, `CapacityLimiter.release`, `CapacityLimiter.remaining_tokens`, `CapacityLimiter.total_tokens`, `CapacityLimiter.borrowed_tokens`, `CapacityLimiter.available_tokens`, `CapacityLimiter.acquire_on_behalf_of`, `CapacityLimiter.release_on_behalf_of`, `CapacityLimiter.__aenter__`, `CapacityLimiter.__aexit__` |
| `libs/concurrency/_priority_queue.py` | HeapRaise, PriorityQueue, PriorityQueueCancel | `PriorityQueue.__init__` |
| `libs/concurrency/_resource_tracker.py` | LeakTracker | `track_resource`, `untrack_resource` |
| `libs/concurrency/_run_async.py` | RunAsync |  |
| `libs/concurrency/_task.py` | TaskGroup |  |
| `libs/concurrency/_utils.py` | BroadcastRefs, RunAsync | `sleep` |
| `libs/schema_handlers/__init__.py` | – | `__getattr__` |
| `libs/schema_handlers/_function_call_parser.py` | CallArgs, CallParse |  |
| `libs/schema_handlers/_minimal_yaml.py` | Prune, YamlText | `MinimalDumper.ignore_aliases`, `_represent_str` |
| `libs/schema_handlers/_schema_to_model.py` | SchemaModel | `_get_python_version_enum` |
| `libs/schema_handlers/_typescript.py` | TypeScript |  |
| `libs/string_handlers/_extract_json.py` | FuzzyJson, Validate |  |
| `libs/string_handlers/_fuzzy_json.py` | FuzzyJson, FuzzyRead, Json |  |
| `libs/string_handlers/_string_similarity.py` | SeqMatch, Similarity |  |
| `libs/string_handlers/_to_num.py` | ToNum |  |
| `ln/_async_call.py` | Alcall, AlcallTime, AsyncCall, Fanout, LazyInit, ParamCall, RunAsync |  |
| `ln/_fuzzy_match.py` | KeyMatch, ParamCall, Validate |  |
| `ln/_fuzzy_validate.py` | Validate |  |
| `ln/_hash.py` | HashDict, LazyInit |  |
| `ln/_json_dump.py` | ElementText, EventSerial, HashModel, Json, JsonCached, JsonDefault, JsonDump, JsonEncode | `_safe_exception_payload` |
| `ln/_list_call.py` | ToList |  |
| `ln/_to_dict.py` | ToDict, Validate | `_is_na`, `_enum_class_to_dict` |
| `ln/_to_list.py` | LazyInit, ParamCall, ToList |  |
| `ln/_utils.py` | CreatePath, CreatePathConc, ImportModule, KeyMatch | `now_utc` |
| `lndl/fuzzy.py` | Fuzzy, Lndl, Parser |  |
| `lndl/lexer.py` | Lexer | `Lexer.__init__`, `Lexer.current_char`, `Lexer.peek_char`, `Lexer.skip_whitespace` |
| `lndl/parser.py` | LndlValue, Parser, Resolver | `ParseError.__init__`, `Parser.__init__`, `Parser.peek_token`, `Parser.match` |
| `lndl/prompt.py` | – | `get_lndl_system_prompt` |
| `lndl/resolver.py` | Lndl, LndlValue, Resolver |  |
| `lndl/types.py` | LndlOutput, LndlTypes, Resolver | `ParsedConstructor.has_dict_unpack` |
| `protocols.py` | Implements | `ObservableProto.id`, `Serializable.to_dict`, `Deserializable.from_dict`, `Containable.__contains__`, `Invocable.invoke`, `Hashable.__hash__`, `Allowable.allowed` |
| `testing.py` | Fixtures | `mock_element`, `mock_node`, `create_test_nodes`, `create_typed_pile`, `create_empty_graph`, `create_spec`, `get_sample_validators`, `get_sample_params_classes`, `get_sample_hashable_models`, `validate_and_dump_pydantic`, `get_sample_lndl_text`, `get_sample_pydantic_models` |
| `types/_sentinel.py` | Sentinel | `UndefinedType.__or__`, `UndefinedType.__ror__`, `UnsetType.__or__`, `UnsetType.__ror__` |
| `types/base.py` | CopyContainers, ParamCall, Params | `Enum.allowed`, `DataClass._is_sentinel`, `DataClass._normalize_value` |
| `types/model.py` | HashModel |  |
| `types/operable.py` | Operable | `Operable.allowed`, `Operable.create_model` |
| `types/spec.py` | Spec | `Spec.name`, `_is_factory` |
| `types/spec_adapters/_protocol.py` | Validate | `SpecAdapter.create_field`, `SpecAdapter.create_model`, `SpecAdapter.validate_model`, `SpecAdapter.dump_model`, `SpecAdapter.create_validator`, `SpecAdapter.fuzzy_match_fields` |
| `types/spec_adapters/pydantic_field.py` | Field, Validate | `_get_pydantic_field_params`, `PydanticSpecAdapter.validate_model`, `PydanticSpecAdapter.dump_model` |

## Properties: what is modelled and how it is proved

### C01 Progression reordering never loses or duplicates ids

Model `Progression` as a state holding a list of ids, every method as a function. Prove permutation laws, involutions, and positional specifications of `move`/`swap` for all lists and integer indices.

### C02 Progression index domain and error behaviour

Exact iff-characterisation of the success domain of each index-taking method; failing calls return the same state.

### C03 Progression include/exclude change exactly one membership

`include` in full; exact effect of `exclude` on multiplicities, with the idempotence as a corollary for ids that occur once; `_limit` shows that repeated ids stay.

### C04 Failed progression operations leave the sequence unchanged

Per-operation theorem: error implies state unchanged, for every op except `extend`; exact effect of a failing `extend` (generator-based `list.extend` keeps the prefix).

### C05 Pile order and contents always agree

Pile as dict + progression; invariant (keys = order, no duplicates) by induction over arbitrary operation histories.

### C06 Pile behaves like an insertion-ordered map

Refinement: abstraction of a pile to an association list (ordered map spec written independently); each op's result and post-state equal the spec's.

### C07 Pile type constraint is never violated

Class hierarchy = arbitrary subclass relation; invariant over histories that each stored item satisfies the constraint.

### C08 An explicit order given at construction is a permutation of the items

Witness that subset / repeated orders are accepted and break consistency; `_partial` theorem when order is a permutation. Exact rules: `C08_accepted_partial` (which orders are accepted, which exception otherwise), `C08_consistent_iff_partial` (an accepted order gives a consistent pile iff it lists every item once), `C08_taken_out` (what remove, pop and exclude do in any pile, listed or not).

### C09 Pile queries return exactly the selected items in order

Exact functional characterisation of every query against list-level specs. Slices: positions picked are specified per position from the language reference (Spec/Slice.lean, `C09_slice_picks`). `C09_id_list_missing`, `C09_index_list_outside`: the exception when a key of a list does not resolve.

### C10 Pile serialisation round trip

Serialisation as structured value; round-trip theorem for all consistent piles given item round trip. The domain (non-empty constraint, usable name) is explicit; `_limit` witnesses show it is needed.

### C11 Flow referential integrity

Flow = two piles + name index. Witness history with a repeated id leaving a dangling reference; `_partial`: integrity invariant for histories in which progressions are duplicate-free. `C11_created`: when construction succeeds, and which exception otherwise. Exact: C11_exact_partial says which single call breaks integrity (remove_item of an id some progression lists twice).

### C12 Flow progression names identify progressions

Name-index invariant by induction over histories from any flow constructed with distinct names; `_limit` witness for construction with duplicate names.

### C13 Flow.remove_item removes the item everywhere and nothing else

Post-state characterisation of `remove_item`; witness with duplicates. Exact: C13_exact_partial.

### C14 Flow operations are all-or-nothing

Atomicity theorem for the operations which are atomic and witness for those which are not. Exact: C14_exact_partial and C14_left_partial (what a failing add_item leaves).

### C15 Graph edges always connect existing nodes and neighbour queries are exact

Graph = nodes, edges, two adjacency maps; invariant over histories linking adjacency to edges; query theorems from the invariant. `C15_contains` (membership and length), `C15_malformed` (malformed references and directions).

### C16 Removing a node removes exactly its incident edges

Post-state of `remove_node` equals filter of edges/nodes, from the invariant.

### C17 is_acyclic decides cycle freedom

Recursive three-colour DFS with the interpreter's recursion limit as a parameter; soundness and completeness against `Walk`; for every limit a deeper chain is a `_limit` witness (RecursionError).

### C18 topological_sort is correct and complete

Kahn loop; invariants; completeness through acyclicity: a finite graph in which each remaining node has a remaining predecessor contains a cycle.

### C19 find_path returns a shortest valid path or None exactly when unreachable

BFS with parent map; invariants relating distance levels; path reconstruction.

### C20 Graph serialisation preserves structure

Rebuild of adjacency from the edge list equals (as sets) the maintained one for every reachable graph.

### C21 An event's body runs at most once

Small-step semantics of n invoke tasks with an async lock; invariant by induction over schedules.

### C22 invoke maps every outcome to the documented status

Outcome table proved at the end of every schedule of the C21 transition system.

### C23 Retryability of failures

Exception trees as an inductive type; code only inspects direct members: witness for nested groups and `_partial`.

### C24 as_fresh_event gives an independent pending copy

Field-by-field theorem (the dropped `streaming` flag is C178).

### C25 Error serialisation terminates and is bounded

Exception-group graph with explicit object identities and cycles; recursion on depth bound; output depth bound theorem.

### C26 Processor never exceeds its batch capacity

Transition system of concurrent enqueue/process/stop/cancel steps over the heap model; trace specification (bag + one slot per call) and capacity invariant for non-overlapping calls.

### C27 Events are started in priority order

Trace specification: every take removes a minimum of the bag; order of takes without insertions in between.

### C28 Three denials abort an event

Denial count = number of denials visible in the log as long as nothing is evicted; `never early` in general; `_limit` witness for eviction.

### C29 Queue bound

Weight invariant (queue + in hand + pending enqueues) gives the exact excess; witnesses that max_queue_size itself is exceeded. For every configuration and all numbers of overlapping calls an explicit schedule reaches the bound (induction over its phases).

### C30 Each executor event is in exactly one status list

Executor = the Flow model + the Processor transition system; invariant: an id is listed exactly once iff stored; queued/held ids are listed pending, executing ids processing.

### C31 Executor cleanup removes exactly the requested statuses

Post-state characterisation of clean-up for every reachable state and status list, by induction over the list.

### C32 No accepted event is lost

Invariant: listed-pending = queued + about to be queued + held (counts); witnesses for QueueFull in append and start, and raising permission checks.

### C33 PriorityQueue is a correct bounded priority queue

heapq modelled and verified; concurrent transition system; trace specification of a bounded priority queue. `C33_observers`: what qsize, empty and full tell.

### C34 PriorityQueue wakes a waiter that can proceed

Same transition system; proved when no put can block; `_limit` witness: deadlock on a bounded queue.

### C35 EventBus delivers each emit to every current subscriber

`Verif/Model/EventBus.lean`; refinement of the per-topic list of live subscriptions over arbitrary histories (`C35_history`, `C35_delivery`).

### C36 EventBus unsubscribe removes exactly one subscription

Same refinement: `C35_history`, `C36_unsubscribe`, `C36_count`.

### C37 Broadcaster subscription is idempotent and unsubscription effective

`Verif/Model/Broadcaster.lean`; refinement of the per-class list of subscribers (`C37_history`, `C37_once`, `C37_unsubscribed`).

### C38 Broadcaster subclasses are isolated

Attribute lookup as a function `owner`; proved for classes with different owners (`C38_isolated_partial`); false for subclasses that inherit the list (`C38_inherited_violation`).

### C39 gather returns results in input order

`Verif/Model/Fanout.lean`: task group as a transition system over arbitrary schedules; invariants give ordered results, raised groups, progress (`C39_*`). `C39_cancelled`: external cancellation never returns a list.

### C40 bounded_map bounds concurrency and keeps order

Same model with a limit: `C40_bounded` (invariant on running tasks), `C40_results`, `C40_raises`, `C40_limit`, `C40_progress`.

### C41 retry attempt and delay discipline

`Verif/Model/Patterns.lean` retry loop with rational delays; `C41_shape` describes every run, the other `C41_*` read off counts, delays, deadline.

### C42 CompletionStream yields every result exactly once

Stream as a transition system; invariant `got ++ buffer = completion log` (`C42_prefix`, `C42_complete`, `C42_limit`). `C42_progress`: from every state the remaining results can be delivered, by a decreasing measure.

### C43 alcall keeps input order, bounds retries and applies defaults

`Verif/Model/AsyncCall.lean` on top of Fanout: per-item retry loop against a separate specification, ordered results, errors, concurrency, progress (`C43_*`).

### C44 bcall batches partition the input

Slicing modelled directly; `C44_concat`, `C44_batch`, `C44_sizes`. The flattening of the input is `to_list` (C56).

### C45 LNDL lexer is total and position-faithful

Lexer as total function on `List Char` (fuel proved sufficient); every token's text is where its position says; EOF, line monotonicity.

### C46 LNDL string literals round-trip

Escape function in the spec; lexing theorem for all strings and continuations.

### C47 LNDL parser alias uniqueness

Parser model over token lists; invariant on collected aliases.

### C48 An lvar's content is the text between its own tags

First-textual-match search model; witness program; partial: when the tag text occurs only once.

### C49 OUT block parsing

Printer for OUT blocks in the spec; parse(print b) = b for all blocks.

### C50 LNDL resolution validates fields and references

Resolver model with parsing of calls, conversion, construction and validators as parameters; soundness and completeness against a relational meaning of fields; kind of error in each failing case.

### C51 Only actions referenced in OUT are scheduled

Exact characterisation of the actions map.

### C52 Fuzzy name correction is sound and conservative

Similarity as an arbitrary function to rationals; exact characterisation of result and errors, independence of the order of candidates.

### C53 Fuzzy parsing never drops OUT fields silently

Witness collision; partial when corrections are injective.

### C54 Pending-action detection is complete

Values as an inductive type; iff with an independent `At` predicate; the reported paths are exactly those of the actions.

### C55 Revalidation removes all pending actions

Witness with nested action; partial for models whose actions are top-level. `C55_data_partial`: exactly which data are validated (Props/LndlTypesExact.lean, with an independent relation for plain data) and when it fails.

### C56 to_list flatten/dropna semantics

Values as nested inductive; specification by leaves; idempotence.

### C57 to_list unique keeps exactly one representative of each value

Hashing is a parameter. `firsts` (elements equal to no earlier one) is the specification. Proved when all leaves are hashable, and with unhashable mappings when keys are injective; witness for a collision in the hash fallback.

### C58 lcall applies the function to each element in order

Loop model. Order, first exception and output processing (the failing option combination is C179).

### C59 get_bins partitions indices within the size limit

Induction over the loop: concatenation, bounds, only the first bin can be empty (C180 for emptiness).

### C60 fuzzy_match_keys preserves exact matches and never mixes values

Loop model with arbitrary iteration orders of the sets; the result is described by a correspondence between unexpected and missing keys; invariant of the loop; no similar pair is left over. `C60_exact` gives result and exception for every input.

### C61 hash_dict is insensitive to dict insertion order

Representation function on nested data; equality as the least congruence closed under reordering; invariance proved when str separates keys and set elements are totally ordered; `_limit` witnesses for 1/True, 1/"1" and sets of frozensets.

### C62 Params equality is value equality

Params model with an arbitrary hash on representations; direction 'same values imply equal' and, under an injective hash, the converse; witnesses hash(-1)=hash(-2), None under a generated __eq__.

### C63 Params accepts exactly its declared fields

Class hierarchy with the inherited _allowed_keys cache as mutable state; proved for classes whose ancestors never cached keys; witness: parent used first. Exact rule in `C63_exact` (Props/ParamExact.lean).

### C64 Spec metadata keys are unique and updates are overrides

List-level theorems over the prepare and with_updates functions.

### C65 Operable field names are unique and lookups exact

List-level theorems; two unnamed specs count as equal names.

### C66 Equal Meta objects hash equally

Witness [1] vs [1.0] (unhashable, str differs); partial when == of unhashable values implies same str. Exact: C66_exact_partial, necessary and sufficient condition on the two values.

### C67 Levenshtein distance is the minimal edit count

DP table modelled as in the code (row by row); equality to inductive edit-script minimum.

### C68 Similarity scores lie in [0,1] and are 1 on identical strings

Rational-valued models; bounds.

### C69 string_similarity ranks and filters correctly

Stable sort specification.

### C70 fix_json_string balances brackets

Scanner as a state machine over characters; specification by a separate reading of strings and an inductive grammar of balanced brackets; balance, uniqueness of the completion and idempotence for text ending outside strings; `_limit` witness for text ending inside a string.

### C71 fuzzy_json returns only objects or lists of objects

Decision logic with an arbitrary parser; every outcome classified.

### C72 to_num respects its bounds

Floats as rationals plus infinities and NaN; partial (no rounding, or rounding monotone with the bounds as fixed points; integer bounds for int); witnesses for precision, truncation and NaN. Exact results and exceptions in `C72_exact_partial`, `C72_errors_partial`.

### C73 minimal_yaml pruning is complete and idempotent

Nested values as one inductive type; completeness, idempotence and preservation of the leaves with their paths, by structural induction.

### C74 Function-call arguments are never lost

Dict-level model of parsing, positional mapping and nesting; exact result for disjoint names; witnesses for collisions.

### C75 Element identity

Elements with an assignment operation (frozen fields); invariant over every history of assignments. `C75_assign`: the effect of every assignment.

### C76 Element serialisation round trip is polymorphic

Dict-level model of to_dict (three modes, three time formats, metadata key) and of both from_dict implementations with class dispatch; a relation between data and element is carried through every step; the external conversions are assumed to be inverse to each other, the class's own fields to survive validation. Sub-property isolated: C131.

### C77 Node content deserializer is applied once

Exact characterisation: once when no other class is named, twice when a registered subclass is named; witness.

### C78 Creation timestamps are timezone-aware

Decision logic with the library conversions as parameters; aware for all but ISO text without offset; witness. Exact: C78_exact_partial, which accepted arguments lead to a time without zone.

### C79 @implements rejects classes missing protocol members

Class bodies as sets of names; protocol members as the code collects them. Partial: every missing public member is rejected, and a class with all of them accepted; witness: dunder-only protocols accept any class. Exact condition (iff) under which the decorator accepts.

### C80 Custom JSON serializers are honoured

Types with a subclass relation, order list and table of serializers. Partial: listed types with no other match use the registered serializer, after every history; built-in types can be overridden. Witnesses: types absent from `order`, subclasses of `Path`. Exact serializer chosen for every type.

### C81 Splitting an exception group separates cancellations from errors

Exception groups as forests with labels. The leaves with their chains of enclosing groups are partitioned by filter; None iff empty; results are legal groups.

### C82 Leak tracker reports exactly the live tracked objects

Objects with addresses, finalizers keyed by address; refinement to an ideal tracker that knows object identities, for every history with address reuse. For objects that can be weakly referenced; `_limit` witness for the others.

### C83 Type registry round trip and lookups

Registry as a dict filled by class definitions; full names of module-level classes are injective through the import system.

### C84 TypeScript rendering marks optional fields correctly

The whole rendering function, with JSON Schema's notion of admitting null as specification. Partial: the usual shapes; witnesses for `null` types, unrestricted properties, nested enums and typed enums.

### C85 to_dict depth limits are enforced

Nested values with depth; exact accepted range, and nothing below the limit is rewritten.

### C86 Pile.include / exclude are atomic under concurrent threads

Threads with unlocked check and two-step locked sections, any number of threads and every interleaving: consistency of items and order, effect at the end of each call, membership afterwards, lock always released (return values: C181).

### C87 Flow.get_progression accepts an instance, id or name

By-id and by-name proved; for an instance the code filters the progression pile by the ids listed in the instance: violation witness. By name C87_by_name_partial; for the object C87_instance_exact_partial says when NotFoundError is raised.

### C88 Graph built from existing piles is consistent

Constructor model with silent skipping of unknown end points; exactness of the rebuilt adjacency for all piles; consistency when the end points exist; `_limit` witness for dangling edges.

### C89 A finished event is in a terminal status

Same transition system; proved for Exceptions and cancellation, `_limit` witness for other BaseExceptions.

### C90 add_error never loses an error

Exception heap with identities; containment relation through nested groups; `_limit` witness for BaseExceptions (ExceptionGroup constructor raises TypeError).

### C91 The capacity limits overlapping process() calls

Same transition system with overlapping calls; witness; `_partial` bound per reset. The bound is reached for every capacity and number of calls (phases of an explicit schedule, by induction); a single call is not bounded at all: rounds in which a second call resets the capacity, for every n.

### C92 The processor recovers after a failed process() call

Same transition system with cancellation; stall theorem (nothing is ever started again); `_partial` without failures.

### C93 Status lists stay consistent under every clean-up

Invariant 'the lists partition the stored events and every event in hand is stored'; exact condition: a clean-up is harmless in all continuations iff it removes no event in the hands of a process() call or executing; witness: clean-up of an executing event.

### C94 A finished event is listed under its final status

`_partial` for events whose finally block runs; witness: cancelled process() leaves the event listed as processing.

### C95 EventBus unsubscribe with handlers that define equality

False: `list.remove` compares weak references by the referents' `==` (`C95_equal_handlers_violation`); proved that exactly one equal subscription goes (`C95_equal_handlers_partial`).

### C96 EventBus delivers to bound methods

False in every state (`C96_bound_method_violation`); holds while the caller keeps the bound method object (`C96_bound_method_partial`).

### C97 EventBus isolates a handler whose call raises

False whenever one live handler's call raises (`C97_call_raises_violation`); emit is all-or-none (`C97_all_or_none_partial`).

### C98 Broadcaster treats bound methods like functions

False: `C98_bound_method_violation`, `C98_unsubscribe_violation` (for every state), `C98_callable_object_violation`; delivery itself holds (`C98_bound_method_partial`).

### C99 Broadcaster subclasses are singletons of their own

False for classes that inherit `_instance` (`C99_inherited_instance_violation`); proved for classes that declare it (`C99_singleton_partial`).

### C100 gather raises when an awaitable ends in cancellation

False (`C100_self_cancelled_violation`); only awaitables ending in their own cancellation can cause it (`C100_self_cancelled_partial`). Relies on the stated AnyIO task group behaviour.

### C101 Leaving a CompletionStream early cancels the rest

False: the exit waits for all awaitables in every execution (`C101_leave_waits_violation`, `C101_leave_early_violation`); no task leaks (`C101_no_leak_partial`).

### C102 race returns the first completion

Rendezvous stream modelled; `C102_first`, `C102_available`.

### C103 LNDL token columns are 1-indexed

Columns: partial on the first line; witness: column 0 after a newline.

### C104 The closing brace ends the OUT block

Witness: an empty value swallows the closing brace. Exact condition: for every body without closing brace, the fields are independent of what follows the brace iff the body does not end with a field name and colon (`Dangling`), by classifying every token list as complete, dangling or rejected.

### C105 Rejected LNDL raises ParseError

Witness: `1.2.3` raises ValueError; partial: all errors are ParseErrors when every number token is a number. `C105_failures_partial`: for every text, a failure is a ParseError or a ValueError from a number token that is not accepted.

### C106 Case-sensitive search returns every candidate above the threshold

Witness: with case_sensitive=True only the best-scoring candidates are returned; partial: exactly these are.

### C107 Including no fields selects no fields

Witness: the empty set selects all specs; partial: non-empty sets. Exact: C107_exact_partial.

### C108 Included fields come in a determined order

Witness: two enumerations of the set give two orders; partial: up to permutation. Exact: C108_exact_partial.

### C109 Actions are for fields their model has

Witness in fuzzy mode; partial: strict mode; exact: without required specs the guarantee holds iff the threshold is at least 1.

### C110 No reference of a model field is overwritten

Witness: two variables for the same field; partial: references for different fields.

### C111 The guard covers extra fields

Witness: action among extra fields; partial: models without extra fields.

### C112 Strict mode corrects nothing

Model of the whole pipeline after parsing; soundness of acceptance with an independent notion of known fields.

### C113 Fuzzy matching never changes a correct program

All corrections are the identity on exact names; the resolver is called with the same inputs.

### C114 The correction has the highest similarity

Witness TITLE / [title, Tile] with the real Jaro-Winkler; partial: similarity insensitive to case.

### C115 Capabilities bound the output

Corrected names are members of the capabilities; C50 for the rest.

### C116 Revalidation keeps the other fields

Witness: a field with exclude=True; partial: models without excluded fields.

### C117 lcall after an InterruptedError returns what it has

Same loop model; witness that output options are skipped. Exact: C117_exact_partial.

### C118 input_unique is honoured

Same model; witness that input_unique alone is ignored; partial with input_flatten. Exact: C118_exact_partial.

### C119 fuzzy_match_keys honours its mode when there are no expected keys

Witness for raise and remove; partial for ignore and fill. Exact: C119_exact_partial.

### C120 hash_dict separates different data

Canonical form of nested data; injectivity of the representation up to key-string collisions; `_limit` witness {1: x} vs {'1': x}.

### C121 Params.with_updates changes exactly the given fields

Dict-level model of to_dict, update and init.

### C122 with_updates keeps the untouched attributes exactly

Same model; witness use_enum_values; partial when that flag is off. Exact: C122_exact_partial (value after with_updates).

### C123 with_default replaces the default

Spec model; partial for specs without earlier default; witness default=5 then factory (rejected) and default=0 then factory (TypeError on use). Exact rule for all specs in `C123_exact_partial` (Props/SpecExact.lean).

### C124 annotated() depends only on the spec

LRU cache as state, invariant over every history; witness default=1 vs default=True; partial when key equality is sameness; size bound. `C124_kept`: an entry survives as long as fewer other keys than the limit were used since.

### C125 annotated() and annotation describe the same type

Spec model; witness listable; partial otherwise.

### C126 JSON repairs leave string contents alone

The regular-expression substitutions as functions on characters; witness where a value is altered; partial for text without anything to substitute and, with the token-level specification of C217, for every tokenised text: the repaired text holds the same string contents in the same order, plus only quoted bare words.

### C127 extract_json finds every fenced block

The block expression as a search for fences; documents built from text and blocks; exact result by induction over the blocks.

### C128 to_num keeps integers of double precision exact

Double rounding of integers modelled to 53 bits; exact below 2^53; `_limit` witness 2^53+1. `C128_nearest`, `C128_general`: every int becomes the nearest double (ties to even), OverflowError from 2^1024.

### C129 load_type_from_string is a function of the name

Import with a cache as state; invariant over every sequence of loads.

### C130 Nested Node classes keep their identity through the registry

Registry lookup by short name; partial when the short name is unique; witnesses for nested classes.

### C131 Every element survives to_dict / from_dict

Partial: the class's own from_dict restores nested classes too; witnesses for nested classes, for a metadata key equal to a field name and for a user entry under the tag's key.

### C132 Unusable creation times raise ValueError

Partial: everything but infinities; witness for "inf". `C132_exact_partial`: the outcome for every argument.

### C133 Node content survives serialisation

Content through the recursive to_dict. Partial: contents whose strings do not read as JSON and that are not None; witness otherwise.

### C134 Recursive to_dict does not fail on plain data

Partial: no sets with strings that read as containers; witness with a set. `C134_failure_partial`: it fails only with TypeError and only where a set is reached.

### C135 The JSON serializer chosen for a type does not depend on history

Cache invariant over every history.

### C136 The leak tracker never blocks the thread that uses it

Lock held/stuck model with collections at any point. Partial: collections outside of tracker calls; witness: a collection inside a call blocks for ever. `C136_exact_partial`: iff.

### C137 TypeScript rendering never fails on a valid JSON schema

Partial: no list types; witness.

### C138 A well-formed LNDL document is read back exactly

A character-level grammar of documents (Props/LndlText.lean), independent of the token grammar; lexing lemmas for concatenated texts (Lemmas/LexText.lean); tokens of the grammar satisfy the token grammar of C47-C49; the leftmost-match lookup finds the own content because no keyword occurs elsewhere and no two headers match each other's tags.

### C139 A Flow survives to_dict / from_dict

Model `Flow.to_dict`/`from_dict` over the Flow and Pile models with an abstract item codec; prove the round trip for every reachable flow, refute it for other metadata keys.

### C140 The metadata of a Pile survives serialisation unchanged

Model the metadata entries added and removed by `Pile.to_dict`/`from_dict`; prove that user entries survive and that reading is stable; refute equality (class tag and progression name stay).

### C141 fuzzy_validate_pydantic reports failures as ValidationError

Model the function over the `extract_json` and `fuzzy_match_keys` models with abstract parser and class; prove the claim without matching and for dicts with default matching; refute it for texts without JSON and raising options. `C141_exact_partial` gives the outcome (value or kind of exception) for every payload and option (Props/ValidateExact.lean).

### C142 Exact field names are validated as they are

From the specification of `fuzzy_match_keys` (C60): the correspondence is empty, so the entries are unchanged.

### C143 Key matching rejects nothing that is accepted without it

From C142 for exact names; counterexample with a field alias.

### C144 The lenient validate_response never raises and never invents data

Model the pipeline with its exception handler; prove by cases and C60; `_limit` witness: a validator that raises another exception. `C144_object`, `C144_no_object`: exactly when an object or an exception results.

### C145 update_model changes exactly the given fields

Model as dump, update, validate; prove for fields that `model_dump` writes; `_limit` witness with an excluded field.

### C146 fuzzy_validate_mapping raises ValueError when conversion fails

Model over `extract_json`/`to_dict`; prove by cases; counterexample: texts without JSON silently count as empty. `C146_text_partial`: what a text payload gives.

### C147 The exclude argument of to_dict is honoured

Model the names in the output of each `to_dict`; prove the equivalence for the accepted shapes; refute it for separately written fields, None, nested dicts and lists. `C147_raises_partial`: when it raises.

### C148 json_lines_iter writes one JSON document per line

Model a JSON writer with string escapes; prove by induction over values that compact output has no line break, then over the records. Each line, read by the JSON reader of C218, is the record it was written from.

### C149 json_lines_iter keeps one line per record whatever options are given

Every chunk ends with a line break for all options; counterexample with indentation. The exact chunk for each record is given for all options.

### C150 deterministic_sets gives the same output for every iteration order

Model the sort key and a stable sort; prove uniqueness of the sorted list when keys differ; `_limit` witness with equal keys.

### C151 Set ordering does not depend on memory addresses

Model the regular-expression substitution; induction over the text before the address.

### C152 safe_fallback never raises

Model the fallback with partial repr/str and the width check of textwrap.shorten; prove for printable objects and wide enough clips; counterexamples. Exact result of the fallback for every object, clip width and repr behaviour.

### C153 Nested deadlines combine to the earliest one

Scopes with deadline, cancelled flag and shield (Verif/Model/Deadline.lean); AnyIO's rule for the effective deadline assumed; induction over the nesting. Times are integers.

### C154 effective_deadline answers None only if there is no limit

Same model; violated in cancelled scopes (minus infinity is turned into None), proved for blocks that are not cancelled.

### C155 Timeouts are reported by fail_* and only there

Case analysis of leaving a scope in the same model.

### C156 Queue is a bounded FIFO queue

State machine of the memory object stream (Verif/Model/Queue.lean), traces of what callers see, invariant by induction over histories.

### C157 Closing a Queue loses no accepted item

Same model; violated since close() closes the receiving end too; proved if only the sending end is closed.

### C158 run_async returns what the coroutine returns or raises what it raises

Outcomes as values (Verif/Model/RunAsync.lean); `_limit` witness for BaseException (None is returned).

### C159 Async callables are recognised and awaited

Callables as a tree with the cache as state; violated for objects with async __call__ and unhashable objects; proved for functions, methods and partials over them. `C159_exact_partial`: the exact exception seen, for any nesting.

### C160 retry_timeout bounds every call

Jobs with a duration and the time of the last suspension; violated for synchronous functions, whose worker thread is waited for in a shielded scope, and for coroutine code that does not suspend; proved for coroutine functions suspended until they end. `C160_exact_partial`: the exact outcome for every callable, timeout and callee.

### C161 Calling a parameter object calls its function with the stored parameters

default_kw, dict merging and keyword binding over the Params model (Verif/Model/ParamCall.lean); violated for AlcallParams(retry_default=None), proved for stored values that are not sentinels of the class. `C161_refused`: which calls are refused.

### C162 Calling a BcallParams object runs bcall

Same model; refuted for every input: the call always raises TypeError.

### C163 Declared defaults of Params fields apply

What @dataclass leaves on the class with and without slots, and Params.__init__ over it; violated with slots=True and for factories, proved for plain defaults without slots. Exact rules in Props/ParamExact.lean.

### C164 Instances of Params and DataClass subclasses are hashable by content

The rule by which @dataclass replaces __hash__; violated for plain @dataclass and for unhashable values in frozen classes; proved for eq=False chains and for hashable values. Exact rules in Props/ParamExact.lean.

### C165 DataClass.with_updates changes exactly the given fields

Generated __init__ plus __post_init__ over attribute dictionaries; violated for fields holding Unset with another default or none; proved otherwise. Exact rules in Props/ParamExact.lean.

### C166 HashableModel.to_dict contains exactly the fields asked for

Fields as nested data with model_dump, selection and sentinel filter (Verif/Model/HashModel.lean); violated in json mode, proved in python mode. `C166_raises`: exactly when and what it raises. `C166_exact_partial`: the json mode shows the fields asked for exactly when every field without sentinel is asked for.

### C167 HashableModel.to_json is deterministic

Same model with sorted object keys; violated for sets, proved for data without sets by induction over equality.

### C168 to_dict(mode=json) shows the data of to_dict()

Same model; proved by induction for data with a JSON form; limit: nested models with unset fields show a sentinel, which is no JSON data. `C168_raises`: exactly when to_json and json mode raise.

### C169 HashableModel survives to_dict / from_dict

Classes as field tables with a per-field validator; violated for unset fields with another default or none; proved otherwise. `C169_exact_partial`: exactly which dicts from_dict accepts and with which instance.

### C170 Equal HashableModels have equal hashes

Same model over hash_dict (C61); violated for a set against a frozenset and for sets of models; proved otherwise. `C170_raises`: exactly when hashing raises.

### C171 is_sentinel identifies exactly the sentinels

Values by what identity and == answer (Verif/Model/Sentinel.lean); `_limit` witness for values whose == has no truth value. `C171_raises`, `C171_first`: when a comparison's exception escapes, and that the first answer decides.

### C172 Undefined and Unset are unique objects

Small-step machine of the metaclass call with threads; invariant over schedules.

### C173 A SingletonType class has one instance

Same machine; violated when first calls overlap; proved for calls that do not overlap.

### C174 Generated models use the default of the spec

create_field as a fold over metadata (Verif/Model/Field.lean) compared with the Spec model; violated for callable defaults and for falsy default with factory; proved otherwise.

### C175 Metadata of a spec reach the field

Same fold; violated if json_schema_extra comes later and for types; proved otherwise.

### C176 Making a field leaves the spec unchanged

Same fold with the aliasing of the json_schema_extra dict; violated when entries follow it; proved otherwise.

### C177 create_model makes the selected fields and validators

Fold over the selected specs; violated for lists of validators (TypeError); proved otherwise.

### C178 as_fresh_event keeps the streaming flag

Same model as C24; violation witness: the flag is not part of the serialised form. Exact: C178_exact_partial.

### C179 Every option combination lcall accepts works

Same model as C58; violation witness: output_unique with output_dropna only. Exact: C179_exact_partial, with the failure of unhashable leaves.

### C180 get_bins returns no empty bin

Same model as C59; proved when the first item is below the bound, violation witness otherwise. Exact: C180_exact_partial.

### C181 Pile.include and exclude report success under contention

Same machine as C86; proved when no other thread works on the same item, violation witness for two threads on one item.

### C182 Methods under one lock appear to happen one after the other

Machine of threads, reentrant locks and method bodies cut into atomic steps (Verif/Model/Sync.lean); forward simulation with a growing log of calls.

### C183 Synchronized methods do not deadlock

Same machine; lock ranks (graph or flow before its piles) as an invariant; `_limit` witness: two locks in both orders deadlock.

### C184 A graph changed by several threads stays a graph

Instance of C182 for the bodies cut into single reads and writes; refinement to the set-of-edges specification of C15.

### C185 Graph queries are safe while other threads change the graph

Rely-guarantee proof while nothing is removed: a query returns nodes of the graph, or raises RuntimeError and another thread adds an edge pointing to a node asked about (the loop runs over the live set). Violation witnesses: an edge added into the node asked about (RuntimeError), an edge removed between getting its id and looking it up (NotFoundError).

### C186 A flow changed by several threads keeps its references intact

Rely-guarantee proofs with a set of ids as parameter: an id that no remove_item call names is never dangling; an id of which remove_item has returned stays unlisted if no call adds it again and no call takes a progression away. Violation witnesses: remove_item (no lock) between check and insertion of add_progression; a progression skipped by the loop of remove_item over the live list; add_item.

### C187 A pile used by several threads behaves like a list of items

Instance of C182 for the bodies cut into single reads and writes; refinement to the ordered-map specification of C05.

### C188 Iterating over a pile is safe while other threads change it

Rely-guarantee proofs: while nothing is removed the iteration does not raise and yields everything; with arbitrary calls it yields first the items at the front that nobody takes out, only items that somebody put in, and raises at most KeyError. Violation witnesses: KeyError in the middle of a removal, and an item skipped after the removal of an earlier one (the lock is held only while the generator object is created).

### C189 The progression methods of a flow are atomic

Instance of C182; integrity carried through the log.

### C190 An embedding is absent or a non-empty list of floats

Validator as a function on Python values; specification as a relation; equivalence proved by induction on the list (Verif/Props/Embedding.lean).

### C191 A rejected embedding raises ValidationError

Holds for values whose ints fit in a float; violation witness: an int above the float range raises OverflowError through pydantic. Exact: C191_exact_partial, C191_overflow_partial.

### C192 Embeddings of finite floats survive serialisation

Composition of the serializer and validator models under an explicit assumption that the JSON library is faithful on finite floats; `_limit` witness for NaN.

### C193 Serialising a node leaves the context alone

Context as a mutable object in the model; violation witnesses: the format key is written into the caller's dictionary and stays, and an explicit context=None raises.

### C194 A content serializer takes effect once

Serializer as a stateful function; violation witnesses: it is called twice (a check call first), so a one-shot or counting serializer shows the difference.

### C195 A created path lies in the given directory

Paths as lists of segments; holds for file names without '..' segments and leading '/'; violation witnesses for those and for names made of dots.

### C196 A created file name consists of the parts asked for

Name assembly as a function; separate specification of the parts.

### C197 A backslash in a file name is refused

Holds for names without '/'; violation witness: a name with a subdirectory skips the check. Exact: C197_exact_partial.

### C198 acreate_path returns a free path and creates only directories

File system as a function from paths to entries; frame and post-conditions.

### C199 import_module returns what was asked for

Importer as a map of modules to attributes; violation witnesses: package plus module name without attributes returns the parent package; a list of one name returns the attribute itself; a missing attribute raises AttributeError.

### C200 parse_lndl gives what the document says

Composition of lexer, parser and resolver models; specification on the abstract document only (no dictionary, token or position); soundness, completeness, determinism (Verif/Props/LndlEnd.lean).

### C201 The fuzzy parser leaves correct documents alone

Corollary of C200, C112 and C113 on the text level.

### C202 The execution of an event is written as documented

Values and exceptions as trees; specification of plain data as an inductive predicate (Verif/Props/EventSerial.lean).

### C203 An event can be written in mode json whatever it returned or raised

Exact characterisation; violation witnesses: a response of bytes (or a bare integer beyond 64 bits, or a text with surrogates), an error whose details hold an object. `C203_raises_partial`: which exception and when.

### C204 An event survives to_dict and from_dict

Exact characterisation: completed events are restored; violation witnesses: pending events, failed events, and a restored event cannot be written again. `C204_refused_partial`.

### C205 The class name is taken from the title of the schema

Texts as lists of characters; the cleaned title as a separate inductive relation (Verif/Props/SchemaModel.lean).

### C206 The returned class is the one generated from the schema

Code generator as a parameter; the result is the attribute with the resolved name or `Model`; violation witnesses for a generator that renames a class BaseModel, and for one that calls the class of an untitled schema Model. `C206_exact_partial`: iff.

### C207 Only documented exceptions come from the schema loader

Holds if the generator writes its file and the class is found; violation witness: AttributeError for a title in lower case with a generator that capitalises class names. `C207_exact_partial`: exactly when FileNotFoundError, AttributeError and TypeError come.

### C208 The schema loader writes only in its temporary directory

Path model shared with C195; holds for names without a slash, so for all names taken from titles; violation witness for a given name with '../'.

### C209 Elements are written in the documented form

Key-wise specification of the written data, separate from the steps of to_dict (Verif/Props/ElementForm.lean).

### C210 Exactly the data that fit make an element

Relations for id, time, metadata and fields; both directions proved.

### C211 The class tag decides which class reads the data

Equation for from_dict in each case (Verif/Props/ElementForm.lean).

### C212 process() returns only when its events have ended

Invariant over all schedules of the executor model: executing events belong to calls that have not returned (Verif/Props/ProcessWaits.lean).

### C213 A pile survives every mode and metadata key

Pile model plus the key under which each dict keeps its metadata (Model/ContainerKeys.lean); exact condition for all combinations of write and read keys; refuted for mode db without meta_key.

### C214 A graph survives every mode and metadata key

Graph model over the keyed piles (Model/ContainerKeys.lean); round trip from C20 where the keys match, and an exception for every graph otherwise.

### C215 Fuzzy parsing is strict parsing of the corrected program

Relational specification of the corrected program, proved equivalent to the dictionaries of corrections the code builds; uniqueness and exact failure condition (Props/FuzzyCorrected.lean).

### C216 Default thresholds of fuzzy parsing

From the specification of the corrected program (C215) and the defaults of the thresholds.

### C217 fuzzy_json repairs text token by token

Specification on tokens (strings, bare words, punctuation), proved equal to the character-level substitutions for texts whose strings hold no quotes, special spacing or key-like patterns and whose bare keys are separated by white space; two witnesses where the substitution swallows punctuation into a key (compact objects, lists of objects) (Props/FuzzyTokens.lean).

### C218 JSON text is read back as the value written

orjson's writer and a reader as functions on characters; a separate grammar relation between texts and values; the reader accepts exactly the grammar (both directions), and written text is in the grammar and read back as the value (Props/Json.lean). Numbers are kept as their texts; orjson's depth limit, UTF-8 encoding and number conversion are not modelled.

### C219 Progression answers like a list of ids

Positions picked by a slice specified from the language reference as a condition on each position (Spec/Slice.lean), proved to determine the list uniquely and to be what the model computes; first occurrence by positions (Props/ProgressionApi.lean).

### C220 Extending a progression by a progression adds its ids once

The loop of list.extend over the live list iterator as a step function; proved for different objects and for an empty progression; for p.extend(p) with ids in it the call is shown to be still running after every number of rounds (Props/ProgressionApi.lean).

### C221 A CompletionStream never loses a failure or hands out a wrong result

Transition system over runners, the memory stream, the group's scope and the body of the block, outcomes arbitrary (Verif/Model/StreamFail.lean); invariant over all schedules, progress by a decreasing cost (Props/StreamFail.lean). `C221_cancelled_limit`: an awaitable that ends in a cancellation makes an unasked cancellation leave the statement.

### C222 A Spec accepts exactly consistent metadata and has the default it says

Specified by membership of entries (`Consistent`, `Named`, `DefaultIs`); exact equivalences for results and each exception (Props/SpecExact.lean).

### C223 to_dict returns a dict, kind by kind

False as stated: a text that parses to a list is returned as a list, and a frozenset of pairs becomes a dict of these pairs (`C223_violation`). Exact rules for results and exceptions, per kind (`C223_returns_partial`, `C223_errors_partial`, `C223_suppress`, `C223_dict_partial`) and per place in recursive conversion (`C223_texts`, `C223_objects`), in Props/ToDictApi.lean.

### C224 The parser given to to_dict reads every text

False: the recursion also passes the keyword use_enum_values to the parser, and the TypeError of a parser without that parameter is suppressed, so nested texts all stay (`C224_violation`, for all such parsers, values and places). Proved for no parser and for parsers that accept the keyword (`C224_partial`).

### C225 Every get on a Queue ends at most once, and a closed queue keeps nobody waiting

On Model/Queue.lean, counting the events that end a given get in the trace of any run from a new queue (`C225_once`, `C225_cancel`, `C225_closed`), Props/QueueClose.lean.

### C226 Loading a Pile from a dict checks all classes first, then loads all items or fails

On fromDict of Model/Pile.lean, with loading of names, declared classes and building of items as parameters: `C226_types`, `C226_fail_fast`, `C226_items`, `C226_loaded` (Props/PileExact.lean).

### C227 find_path stays correct while other tasks change the graph during an awaited condition

Small-step model of the coroutine (Model/FindPathConc.lean) with the set iterator of CPython and arbitrary graph calls at every await; inductive invariants (Lemmas/FindPathConc.lean): `C227_path`, `C227_none`, `C227_raises`; witnesses `C227_add_limit`, `C227_remove_limit`, `C227_node_limit`, `C227_reuse_limit`.

### C228 Similarity scores are symmetric and 1 only for equal strings

The greedy matching is the unique stable matching for 'earlier position first' (Props/SimilarityExact.lean), which is a symmetric notion: `C228_symmetric`; a full matching is a permutation, and permutations do not differ in exactly one place: `C228_identity`; `C228_scaling_limit` for scaling 1/4.

### C229 Exact values of the similarity scores

`C229_values`, `C229_jaro`.

### C230 Sloppy JSON is read as the value it stands for

Define by recursion on the value which token sequences are sloppy spellings of it (Sloppy); show removing trailing commas and quoting bare keys keep the value (nt_val, qb_val), that the result is a document of the JSON grammar of C218, that a document without its last brackets is not JSON and is completed by fix_json_string with exactly those brackets; use C217 for the character level. The spacing condition is turned into the hypothesis of C217 by a further induction (keys_val).

### C231 Cancelling blocked queue calls loses no item and no wake-up

Model as for C33 with the calls that are ready split into new and notified ones and three cancellation steps; reuse the history specification of C33 for the items, and prove the counting invariant waiters = [] or len(queue) <= notified gets. C231_lost_limit shows that the condition on outside cancellation is needed.

### C232 A queue operation that raises leaves the queue unchanged

Model heappush and heappop with a comparison that may raise, moving items by swaps as the C implementation does. Refuted (C232_raise_violation): a put that raises has stored its item, a get that raises has lost one. Proved: exactly that happens (C232_exact_partial), and with comparable items nothing raises and the operations are those of C33 (C232_comparable_partial).

### C233 All ways of writing the allowed types mean the same

Model extract_types over the argument forms; specify 'written in the argument' separately; prove membership, acceptance and congruence of Pile(...) and filter_by_type. C233_empty_limit: an empty list is 'nothing allowed' for Pile and 'everything allowed' for Flow.

### C234 An element is restored from its JSON text

Compose the JSON writer and reader of C218 with the to_dict/from_dict model of C76; the conversion of values other than ids, times, texts and metadata is a parameter with laws. Objects are read as dicts in which later members win; sorting is a stable sort by key.

### C235 The fields of a parsed LNDL output are its attributes

Model Python's attribute lookup with the class's __getattr__. Refuted (C235_missing_violation): a missing name raises KeyError, which hasattr, getattr with default and copy.deepcopy do not catch; a field named like an attribute of the class is hidden. Proved: exactly which names behave how.

### C236 alcall hands back what the function returned

Compose the task group of C43 with input preparation and the final to_list. Refuted (C236_iterable_violation): a generator, range, deque or array is returned as a list, also inside lists. Proved: the exact list returned, and that it is the objects themselves if and only if none of them has such an iterable in it.

### C237 alcall applies its input and output options as documented

Model alcall end to end over the to_list model (C56, C57) and the task group (C43); prove the items and the returned list for every schedule.

### C238 alcall rejects arguments it cannot honour before calling the function

Refuted (C238_unique_violation, C238_output_unique_violation): output_unique without output_flatten raises only after all items have been processed, losing the results; input_unique alone is ignored. Proved: exactly which arguments are rejected beforehand.

### C239 bcall yields batch by batch and stops at the first failure

Model the generator as a loop over batches with one alcall each; induction over the batches.

### C240 bcall rejects a batch size that is not positive

Refuted (C240_negative_violation): with a negative size the generator ends at once without an error and without processing anything. Proved: it raises exactly for 0.

### C241 Each property of a schema is rendered as exactly one line by fixed rules

State the text rules as relations independent of the model (type text, default text, line text), prove by induction over the schema that the renderer produces exactly such lines and that the rules determine the text.

### C242 Different enumerations are rendered differently

Refuted (C242_quote_violation): string values are put between double quotes without escaping, so the single value a" | "b is rendered like the two values a and b. Proved for values without double quotes: texts are equal if and only if the lists are.

### C243 A class name that cannot be loaded is reported by ValueError

Refuted (C243_violation): a name such as "..X" has a relative module path, for which importlib raises TypeError, which is not caught. Exact: TypeError if and only if the name starts with a dot and has another one after it, ValueError otherwise.

### C244 The sequence matcher score lies in [0,1] and is 1 exactly for equal strings

Model the parts of difflib.SequenceMatcher that run (popular characters, the rows of find_longest_match, the two extensions, the recursion over windows). Invariant of the row loop: the best block is the first largest among the cells seen (Top). Blocks split both strings, so the total is the length of a common subsequence; equality of the total with both lengths forces equality; for a string against itself the best block lies on the diagonal. The Ratcliff-Obershelp number is a separate inductive definition with a uniqueness proof.

### C245 What two strings have in common counts in the sequence matcher score

Refuted (C245_long_violation): of every length from 200 on there are strings that differ in one character and score 0, because difflib leaves frequent characters out. Holds for common parts without frequent characters, so for every t of fewer than 200 characters. Exact condition for the score 0 (C245_zero_exact_partial).

### C246 The sequence matcher score does not depend on the order of the arguments

Refuted (C246_order_violation, "tide" and "diet"). In both orders the score lies between the values for a longest common substring and a longest common subsequence; equal if these coincide.

### C247 A text field receives the text that was written

Model parse_value and the conversion to str, bool, int and float with ast.literal_eval as parameter, as an instance of the resolver model. Refuted (C247_rewritten_violation: true becomes True, null None, 1.50 1.5). Exact condition: the text is True or False, or none of the three words and no literal, or a literal that Python writes in the same way.

### C248 A boolean field is true only for text that says so

Same model. Refuted (C248_no_violation: no and off become True). Exactly: the field is False if and only if the text is false or null in any capitalisation, blank, or a literal Python counts as false; true and false in any capitalisation are read as such.

### C249 An integer field receives the number that was written

Same model. Refuted (C249_fraction_violation: 2.5 becomes 2, true becomes 1). Exactly: the number is the one written if and only if the text does not stand for a truth value, a compound value or a number with a fractional part.

### C250 parse_value always returns a value

Model `Verif/Model/LndlValue.lean` (literal_eval a parameter with three kinds of outcome). The exact condition is proved (`C250_exact_partial`); the claim itself fails for texts such as `{[]}` where literal_eval raises TypeError (`C250_raises_violation`).

### C251 stop() ends a running execute()

Model `Verif/Model/ExecLoop.lean` on top of the processor's transition system: stop flag, execution mode, any number of execute() and join() calls. Invariant over all quiet schedules (`C251_no_further_batch`), termination (`C251_returns`), log argument (`C251_events`).

### C252 Stopped stays stopped until start()

Exact condition for is_stopped() over all histories (`C252_exact_partial`). The claim fails: execute() clears the signal itself, so a stop() that comes before the task begins is lost and other loops go on (`C252_violation`).

### C253 execution_mode tells whether execute() runs

Fails when execute() ends with an exception (stays True) and when one of two overlapping calls returns (`C253_raised_violation`, `C253_two_violation`). For calls that do not overlap the exact condition is proved (`C253_exact_partial`).

### C254 join() waits for all queued events

Fails while a process() call holds an event (`C254_violation`: it is put back after join() has returned). Account of every event over all histories (`C26_account`) and the exact condition at the moment join() returns (`C254_exact_partial`).

### C255 A running execute() gets through the queue

Potential argument: 30 per undecided event minus 10 per counted denial plus the stage of the loop decreases with every step of the loop that has work (`C255_progress`).

### C256 All faulty OUT fields are reported together

Faults of a field as an inductive relation independent of the code (`Fault`, `RefFault`), the report as one line per faulty field (`Report`); induction over the block (`C256_report`), determinacy and completeness of the faults (`C256_exclusive`).

### C257 At most concurrency_limit events execute at once

Model `Verif/Model/ExecSlots.lean`: a layer of slots on the executor's transition system (anyio's semaphore as a counter, any waiting task may be next). Invariant (`C257_limit`), refinement of the executor (`C257_refines`), enabledness and a decreasing measure (`C257_enabled`, `C257_drains`).

### C258 Tasks use `async with pile` one at a time and in turn

State machine of the lock (owner, whether it has resumed, line of waiters) with an event log; the specification (who is inside, the line) is computed from the log alone; invariant over all schedules.

### C259 Inside `async with pile` nobody else changes the pile

Refuted: the methods do not look at the lock. Exact condition: no interference iff every call made meanwhile comes from a task in its own block; then the pile is the pile at entry followed by the calls of the task.

### C260 copy_containers changes identities, never values

Values as trees in which every mutable object has an identity; copying renames identities. Same shapes by induction over the dict and the constructor; identities field by field.

### C261 Objects made with copy_containers='deep' share nothing with the original

Refuted: a list inside a tuple (or inside an object that is no container) is shared, since only top-level mutable containers are copied. Exact condition for sharing per field; independence under any modification for the others.

### C262 A streaming event ends up completed or failed

Refuted: consume_stream neither records the error nor sets a status, so the event is filed under the status stream() assigned last, PENDING if none. Exact condition; and an invariant (listed as pending, nowhere queued) shows that such an event is never executed again.

### C263 An event is executed at most once per accepted append

Tokens: before start an event listed as pending, afterwards an entry in the queue, on its way into the queue, in the hands of a process() call or still to be back-filled. Every step creates at most as many tokens as it accepts events, and a start consumes one. No assumption on clean-ups.

### C264 An event that has ended stays ended

Invariant of later steps: listed under the status, nowhere queued, held, back-filled or executing.

### C265 The serialised error of an event is not larger than the error

Refuted: n+1 exceptions, each group listing the next twice, give 2^(n+1)-1 entries for every n up to 101. Proved where no exception is listed twice (a tree): at most one entry per object, any depth and width.

### C266 A creation time written as ISO text is the time it denotes

Refuted: every date written YYYYMMDD is read as a number of seconds and lands between 1970 and 1973, never on the day written. Exact condition: float() must not read the text, or the number must be no timestamp or that of the denoted time.

### C267 The test factories deliver the structures they describe

The factories as sequences of calls on the models of Graph, Pile and Flow; results via C12, C15 and C17; names prog_i are distinct because decimal numerals are.

### C268 A persistently denied event is eventually aborted

A parametric run: n events enqueued, every permission denied. Invariant over the number t of denials so far: the queue holds the entries of denials t .. t+n-1 and the table the last max_denial_tracking of them with count 1 (violation), or the exact counts when n is below the limit (third denial aborts). Together: abort happens iff n < max_denial_tracking.

### C269 A HashableModel is restored from its JSON text

to_json is dump, drop sentinels, write; from_json is read, then from_dict of model C258/C261. Violations: an unset field comes back as another default; a nested model with an unset field has no JSON text; mode python refuses every text. Partial: if validation returns each value from what its text reads as, and fields with a sentinel have it as default, the round trip is the identity (induction over the sorted entries written and read back). `C269_mode_partial`: the modes.

### C270 A subscribed bound method is called as long as its object lives

Invariant by induction over the history: while the method's objects are alive, its number of entries in the list is its number of subscriptions; collected objects stay collected, and the sweep before each broadcast drops their entries. The limit shows why unsubscribing the object itself is excluded.

### C271 The serialised error of an event shows every exception in it

A specification of 'shown' by looking up entries, independent of how the dictionary is built. Mutual induction over the exception and its members: shown iff no BaseExceptionGroup occurs in it and groups are nested at most 101 deep. Violation: for every BaseExceptionGroup the members are left out.

### C272 enum_as_name writes the names of enumeration members

orjson writes enumeration members itself (by value) and calls default only for other objects. Mutual induction over the value and the number of default steps: the output with the flag equals the output without it (violation for every value). Exact condition: the names are written iff each member's value is written as its name. `C272_default_partial`: the function itself, called with a member.

### C273 Batching uses as few batches as possible

The number of bins still to open is a function of the total of the open bin and the remaining lengths; it is monotone in the total and two totals differ by at most one bin (induction over the lengths). Induction over the parts of the competing division.

### C274 Capabilities act as a smaller operable

At the level of the text: every correction depends on the active specs and names only (inductions over the declarations and the OUT block), and the active specs and names are those of the smaller operable. An empty capability list is a limit: it still requires the required specs of the whole operable.

### C275 A default clean-up leaves only waiting and executing events

On top of the clean-up theorem C31: exact description of what the default list removes (completed, failed, aborted); the remaining events are all pending or processing iff none was cancelled or skipped. Witness: two timed-out events stay stored.

### C276 A container is restored from its JSON text

Model of the text written by to_json for the three containers (model_dump of the public fields) and of from_json on it (Model/ContainerText.lean, on top of the JSON reader and writer). False: to_json does not use the overridden to_dict, so the text has no items; from_json silently gives an empty container. Proved exactly: the restored container is always empty, so it is the same iff it was empty (and, for a pile, unnamed). The text of to_dict(mode='json') does come back.

### C277 adapt_from reads what adapt_to wrote

Model of the defaults chosen by adapt_to and adapt_from (Model/Adapt.lean) over the models of to_dict and from_dict with modes and keys. Proved for nodes. False for piles and graphs: adapt_to writes mode 'db', whose metadata key adapt_from does not rename back, so it raises on everything adapt_to wrote. Proved exactly which adapt_kw make the round trip work; for graphs a 4-key sharpening of C214.

### C278 Piles inside piles come back from their dict

Model/Nested.lean: contents indexed by nesting depth, write/read by recursion on the depth with the key handling of Container; theorem by induction on the depth over a relational version of the C10 round trip.

### C279 parse_function_call accepts exactly calls with literal arguments

Model/CallParse.lean: syntax trees, ast.literal_eval as mutual structural recursion, the two argument loops. Literals and their values are an inductive relation; conv_iff by mutual induction. Loops reduced to one loop with a last-wins invariant. Duplicate keywords, reserved names and unhashable set elements are refutations.

### C280 An error carries what it was constructed with

Model/Errors.lean: the four defaulting expressions of __init__ with their or / is None tests, to_dict, class-attribute lookup along the MRO. The promised values are a separate relation (Nearest, unique). Exact condition as iff; empty message and falsy cause are refutations.

### C281 Assigning a status between the steps of invoke

Model/EventAssign.lean: the status setter as an extra move next to the steps of Model/Event.lean. Invariants: one holder of the lock, only it runs the body; count of starts against resets. Exact iff for when an assigned status lasts; a status assigned during the run is overwritten (refutation).

### C282 Questions about a graph survive writing and reading

Model/GraphCond.lean: check_condition and the test in find_path. Walks of the stripped and original edge lists correspond; both searches satisfy the specification of C19. Conditions are not written, so with check_conditions the claim is false (violation); the exact condition is an iff over all graphs.

### C283 minimal_yaml shows a text as that text

Model/YamlText.lean: orjson.loads (the reader of C218), conversion to Python values with dict insertion, pruning of C73. Specification: the JSON grammar Doc. A text is shown as itself iff it is not a JSON document (a JSON text is longer than the text it denotes); refutations 123 and "1".

### C284 The events returned for a status have this status

Model/ExecStatus.lean: a layer on the executor's transition system with the events' own statuses. Invariant relating list and own status. Exact: outside PROCESSING an event in list S has status S iff S is not ABORTED (those are all still PENDING); conversely where an event with status S is found. Refutations: ABORTED, PROCESSING, events appended after they have run. `C284_tells_partial`: the own status tells exactly what has happened to the event: PENDING iff no invoke has begun, PROCESSING iff one has begun and none has ended, and otherwise how the first one to end ended.

### C285 A loop over a pile visits every item that stays

Model/PileLoop.lean: the generator as a machine with an index into the live order list, the body as a function from what was visited to a list of calls. Refuted: an item right behind one that the body takes out is skipped. Proved: no turn raises (`C285_no_error`); an item never taken out is visited at most once, and exactly once iff no turn moves it from a position still to come to one already passed (`C285_exact_partial`); bodies that take nothing out visit the final pile in order (`C285_kept_partial`); the loop that takes out each visited item visits the even positions and leaves the odd ones (`C285_remove_each_partial`).

### C286 A broadcast reaches exactly the callbacks subscribed when it began

Model/BroadcastConc.lean: the class-level list, dropped callbacks and any number of running broadcasts, each with its own list of resolved callbacks; steps in any order. Invariant: what call t has called is the prefix of its list up to its counter. `C286_exact` (which callbacks), `C286_order` (in which order), `C286_returns` (it returns).

### C287 No call after unsubscribe

Refuted: a broadcast that has begun works on its own list and calls the callback nevertheless. Proved exactly: a call can follow if and only if some running broadcast, begun before, has the callback still before it (`C287_exact_partial`).

### C288 Names and piles of a flow stay consistent under threads

Lemmas/SyncOwn.lean: a lock protects a part of the state; each program changes it only while holding the lock and restores the invariant before it releases it; preserved by every step of the machine. Lemmas/FlowOwn.lean: lock 0 protects the name index and the (id, name) pairs and order of the progressions, lock 1 the items. `C288_names`, `C288_items`, `C288_at_rest`.

### C289 A float field receives the number that was written

`C289_exact_partial`: the field holds the number written iff the text does not stand for a truth value, a compound value or a whole number that is no double (53 significant bits). `C289_value_partial`: a float literal arrives as it is, a whole number as the nearest double, `true` and `false` as 1 and 0; `None` is rejected. `C289_true_violation`: `true` is accepted for a float field and becomes 1.0.

### C290 Literals of the OUT block arrive converted to the type of the field

`C290_truth_values`, `C290_whole_numbers`, `C290_decimals` (Props/LndlFloat.lean): for each literal kind, the value of the field for each type, from the model of the resolver with Python's conversions (Model/LndlValue.lean).

### C291 No field written in the OUT block is dropped silently

Props/ParserFields.lean: `names` (the names followed by a colon) and `Valued` (each followed by an array, a string, a number or a name that is no field name itself). `C291_exact_partial`: for distinct names, all arrive iff `Valued`; nothing else arrives. `C291_valued_partial`: a valued block gives exactly its names, whatever follows it. `C291_dropped_violation`: `OUT{a: , b: 1}` loses `a`; `OUT{a:\n b: 1}` reads `b` as the value of `a` and loses the field `b`. By structural induction over the block.

### C292 An emission in progress reaches exactly its own audience

Model/EventBusConc.lean: a transition system over the bus of C35 with a list of emissions in progress (handlers, begun, ended, running, cancelled) and a log. Props/EventBusConc.lean: invariant `Inv`/`Per`/`Whom` by induction over the history; theorems state facts of the log alone, the audience being that of the C35 specification for the log before the call.

### C293 A handler that is no longer subscribed is not run

Same model. `C293_exact_partial`: whether a handler can be run next for a topic, exactly: some emission of the topic, called while it was subscribed, is in progress and has not run it. `C293_violation`: a handler unsubscribes another one, which is run afterwards.

### C294 A graph follows edges that get new end points

Model/EdgeAssign.lean on top of the graph model. Specification: two graphs, as seen now and as filed. `C294_answers_partial`: what every query answers (edges by the filed ends, nodes by the current ends, NotFoundError if one of these is no node). `C294_exact_partial`: the edges are listed for the right nodes iff each has the ends under which it was filed. `C294_refresh_partial`: assigning a field of the graph repairs it. `C294_violation`: a re-pointed edge, and the node that can no longer be queried or removed after remove_edge.

### C295 A renamed progression is found under its new name

Model/FlowEdit.lean on top of the flow model. The name under which each progression came in is a function of the history. `C295_answers_partial`: lookups, KeyErrors, rejected and accepted additions go by those names. `C295_exact_partial`: progressions are found under their own names, and no others, iff each bears the name it came in with. `C295_violation`: stale name, duplicate name, and a name lost after removal by id.

### C296 References of a flow stay intact when its parts are changed directly

Same model. `C296_exact_partial`: for each act on an intact flow, it stays intact iff the act respects the references (spelled out per act). `C296_kept_partial`: for histories. `C296_rebuild_partial`: rebuilding the flow from its parts fails with NotFoundError iff it is not intact. `C296_violation`.

### C297 throttle_period spaces out the calls

Model/AlcallTime.lean: clock, starts, calls and ends of tasks as actions, arbitrary schedules. `C297_not_before`: never before d + i*t. `C297_gap_partial`: the distance holds after every item that was called as soon as its task was started. `C297_exact_partial`: with a slot for every item and no delay by the scheduler the calls come exactly at d + i*t. `C297_violation`: with max_concurrent=1 and no delay by the scheduler two calls come closer than t.

### C298 Retries of alcall wait as documented

`attempts` in Model/AlcallTime.lean against the list of attempts and pauses written down with powers (`C298_pauses`), and the total duration as two sums (`C298_duration`).

### C299 max_concurrent limits the calls of alcall

On Model/Alcall.lean. On Model/AlcallTime.lean: `C299_clock_partial`. `C299_exact_partial`: the bound holds under all schedules iff m is not 0 or there is no item. `C299_violation`: 0 is accepted and means no limit, for lists of every length.

### C300 First calls from several threads see initialised tables

Model/LazyInit.lean: each read or write of a global is a step of one of unboundedly many threads. Invariants over all schedules: `C300_safe`, `C300_once` (with the lock). `C300_refill_limit`: without the lock a table may be assigned twice.

### C301 Calls on the piles of a graph

Model/GraphDirect.lean: calls on the piles change the piles and not the adjacency. `C301_exact_partial`: after such calls the answers fit exactly if node ids and edges with their ends are the same as before; `C301_kept_partial`: an assignment to a field rebuilds the adjacency; `C301_holds_partial`: what the piles hold; `C301_violation`: an unseen cycle, a dangling edge, `KeyError` from add_edge.

### C302 The type constraint given to a flow

Model/FlowInit.lean: the constructor by form of the items argument. `C302_exact_partial`: the flow keeps to the constraint exactly if every class that its items argument makes it take is allowed; `C302_holds_partial`: it does for elements and lists of elements and a non-empty item_type; `C302_refused_partial`: TypeError at the first element that does not fit; `C302_violation`: a pile, a serialised pile, a list of dicts and item_type=[] bypass the constraint.

### C303 Loading leaves the given dict alone

Model/LoadHeap.lean: the five from_dict on a heap of dicts, lists, elements and piles with identities. `C303_unchanged` and `C303_own_metadata` by a program logic for computations that write to new objects only, and induction over the recursion limit.

### C304 A loaded element shares nothing with the dict

Model/LoadHeap.lean. `C304_exact_partial`: the element shares an object exactly if one of the values it takes over (metadata except lion_class, other fields) is itself a dict, list or object; `C304_independent_partial`: otherwise writes to anything reachable from it leave the old heap alone; `C304_violation`: a list in the metadata.

### C305 Serialising leaves the element alone

Model/DumpHeap.lean: the five to_dict on the heap of LoadHeap, with model_dump as a copy that hands on objects of unknown classes. `C305_unchanged` by the program logic of C303.

### C306 A serialised element shares nothing with the element

Model/DumpHeap.lean. `C306_text`: holds in the modes json and db without a content serializer; `C306_plain_partial`, `C306_independent_partial`: in every mode for dicts, lists, elements and piles; `C306_exact_partial`: for plain elements in mode python exactly unless model_dump meets an object of a class it does not know; `C306_violation`: such an object, and a content serializer that returns the content.

### C307 Flows that share nothing do not affect each other

Model/Flows.lean: progressions and piles as objects that flows refer to. `C307_alone` (non-interference, by induction on the history with an ownership relation as invariant), `C307_untouched`; `C307_foreign_limit`: with an instance of another flow the other flow changes. `C307_single` and `C307_history`: what a call does to its flow is what the model of a single flow (Model/Flow.lean) says, so that the two models agree.

### C308 References of every flow stay intact whatever is called on any flow

Model/Flows.lean. `C308_exact_partial`: exactly which calls break the references of which flow; `C308_history_partial`, `C308_separate_partial`: histories; `C308_violation`: a shared items pile with remove_item, a foreign progression with add_item, a shared pile of progressions with add_progression.

### C309 A Semaphore admits as many tasks as it has slots, in turn

Model/Semaphore.lean: the wrapper over the documented behaviour of the AnyIO semaphore. Invariant by induction on histories: `C309_init`, `C309_bound`, `C309_count`, `C309_busy`, `C309_turn`, `C309_kept`; `C309_limit`: a release without a slot admits one task more.

### C310 An event in several executors runs once, and each lists how it ended

Model/EventShare.lean: one event with its lock, the listing of each executor, and each attempt as a small program. Invariants by induction on histories: `C310_once`, `C310_final` hold always; `C310_listed_partial`, `C310_exact_partial` for an executor with a smooth history (others may cancel and abort); `C310_violation`: the three stale listings.

### C311 A Lock is held by one task at a time and given in turn

Model/Condition.lean: lock with owner and line, over the documented AnyIO behaviour. Invariant by induction on histories: `C311_exclusive`, `C311_progress`, `C311_turn`, `C311_errors`.

### C312 A Condition wakes exactly the longest waiting tasks, and a wait ends with the lock held

Model/Condition.lean. Log of what happens to each task; invariant that the log of a task runs through slept, notified or cancelled, returned or raised: `C312_notify`, `C312_cause`, `C312_locked`.

### C313 No notification of a Condition is lost

Model/Condition.lean. `C313_exact_partial` by induction on the later history; `C313_violation`: two waiting tasks, one notification, lost.

### C314 An Event releases every task that waits for it, once set and not before

Model/EventFlag.lean: flag, waiting calls and calls that may go on, over the documented AnyIO behaviour. Invariant by induction on histories: `C314_set`, `C314_not_before`, `C314_released`, `C314_once`, `C314_waiting`.

### C315 A task group is left only when all its tasks have ended, and with all their exceptions

Model/TaskGroup.lean: a transition system over the documented AnyIO behaviour, to which the class hands every call. Invariant by induction on histories: `C315_joined`, `C315_leaves`, `C315_outcome`, `C315_cancelled`, `C315_closed`.

### C316 start gives what its task did first

Same model as C315; a second invariant ties the tasks before their report to the calls of start: `C316_answers`, `C316_handed_on`, `C316_ends`.

### C317 to_dict of a parameter object shows exactly its set fields, and rebuilds the object

Model/Params.lean. `C317_content`, `C317_once`, `C317_rebuilt`; `C317_limit` shows that the domain is needed.

### C318 as_nullable, as_listable and with_validator change only what they name, in any order

Model/Spec.lean. `C318_nullable`, `C318_listable`, `C318_validator`; `C318_order_partial` gives what the two orders have in common, `C318_exact_partial` when a repeated call gives an equal spec, `C318_violation` the witness.

### C319 race leaves no awaitable behind

Model/RaceLive.lean follows the awaitables, their runners, the stream without buffer and the task group until the call has ended. `C319_nothing_left`, `C319_waits`, `C319_outcome`, `C319_cancels`, `C319_ends`.

### C320 to_json(sort_keys=True) is canonical

On Model/ElementText.lean. `C320_canonical`, `C320_sorted`, `C320_unsorted`, `C320_separates` (from C234).

### C321 A broadcaster does not keep its subscribers alive

Model/BroadcastRefs.lean: subscriber lists plus the keys that functools.cache of is_coro_func keeps. Fails: `C321_violation` (after one broadcast the cache refers to the callback). `C321_exact_partial`: collected exactly if no broadcast called a callback that needs the object. `C321_released_partial`, `C321_kept_partial` (never released, cannot be unsubscribed).

### C322 A broadcast runs the code of every live subscriber

On Model/BroadcastRefs.lean. Fails for objects with an async __call__ and for objects that are not hashable: `C322_violation`. `C322_exact_partial` (exactly which bodies run, also when aborted), `C322_functions_partial`.

### C323 json_dumps handles an object by its type and the flags of the call only

Model/JsonCached.lean: the lru_cache of default functions, each with its own type cache (Model/JsonDefault.lean). `C323_history` against the specification `Handled` (first matching type of the list for the flags), `C323_bounded`.

### C324 Every dict with text keys is accepted as node content

Model/NodeContent.lean. Fails: `C324_violation` (metadata None; a dict that names a class is read as an element). `C324_exact_partial`: exactly which content is kept; `C324_read_partial`: exactly which is replaced by which element.

### C325 Rejected content raises ValidationError

On Model/NodeContent.lean. Fails: `C325_violation` (TypeError for other types, AttributeError for odd metadata). `C325_exact_partial`: exactly when something else is raised.

### C326 Classes are checked before items are built, whatever the metadata key

Model/PileLoadKeys.lean. Fails: `C326_violation` (the check looks under "metadata" only). `C326_exact_partial`: exactly when nothing is built; `C326_plain_partial`: the claim for items with metadata under "metadata".

### C327 Loaded items have the classes they declare, whatever the metadata key

On Model/PileLoadKeys.lean: `C327_loaded`, `C327_refused`, by induction over the items.

### C328 Every element comes back as an instance of its class, at every depth

Model/ClassTree.lean. Fails: `C328_violation` (Pile.from_dict and Graph.from_dict do not look at the class tag). `C328_exact_partial`, by mutual induction over the nesting: exactly when it holds; `C328_top_partial`: which class comes out at the top.

### C329 A path returned with file_exist_ok=False is free

Model/CreatePathConc.lean. Fails: `C329_violation` (the file is looked for, not created). `C329_looked_partial`: exactly when a call returns or raises, in terms of the files at the moment it looked; `C329_free_partial`: the path is free if nothing creates the file after that moment. `C329_exact_partial`: exactly when it is free.

### C330 dir_exist_ok=False gives a directory to at most one caller

Model/CreatePathConc.lean. `C330_one`, by an invariant over histories: a call past making its directory has its directory present, and with dir_exist_ok=False it was absent before. `C330_some`: a call is refused only when another one has the directory.

### C331 First calls from several threads never block each other for good

Model/LazyInit.lean (as for C300). `C331_ends`: invariant that the owner of the lock is inside the block, and a rank that every step of a thread nobody hinders lowers.

## Disagreements between code and property

See the theorems whose names end in `_violation` (or `_counterexample`) in `Verif/Props`: each is a kernel-checked
witness that the unchanged code does not satisfy the full property; the `_partial` theorem beside
it states what does hold.
