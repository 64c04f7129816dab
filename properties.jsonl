{"id": "C01", "title": "Progression reordering never loses or duplicates ids", "statement": "Progression.move, swap and reverse only permute the sequence: after the call the progression holds exactly the same ids with the same multiplicities; swap twice with the same indices and reverse twice restore the original order; swap exchanges exactly the two addressed positions, and move puts the addressed id directly before the id that stood at the target index (at the end for target len), keeping all other ids in their relative order.", "quantifier": "every progression (any length, duplicates allowed) and every pair of integer indices, negative ones included", "why_tests_cant": "Unit tests pick a handful of lengths and index pairs; off-by-one errors live at the from<to boundary, at negative indices and at to==len for arbitrary lengths.", "anchors": ["src/lionherd_core/base/progression.py: Progression.move, Progression.swap, Progression.reverse, Progression._validate_index"]}
{"id": "C02", "title": "Progression index domain and error behaviour", "statement": "swap and move(from) accept an index i exactly when -len <= i < len; move(to) exactly when -len <= i <= len; pop(i) returns the addressed id exactly when -len <= i < len and otherwise raises NotFoundError or returns the given default; popleft fails exactly on the empty progression; a rejected call leaves the progression unchanged.", "quantifier": "every progression and every integer index", "why_tests_cant": "The accepted domain is an infinite set of (length, index) pairs with two boundaries each.", "anchors": ["src/lionherd_core/base/progression.py: _validate_index, pop, popleft, move, swap"]}
{"id": "C03", "title": "Progression include/exclude change exactly one membership", "statement": "After include(x), x is in the progression, no other membership changed, and a second include(x) is a no-op returning False. exclude(x) removes exactly the first occurrence of x, if there is one, and nothing else; so if x occurred at most once it is gone and a second exclude(x) is a no-op returning False (of a repeated id the other occurrences stay). The returned flag says whether the progression changed.", "quantifier": "every progression and id, including progressions that already contain duplicates", "why_tests_cant": "Whether one removal suffices depends on the multiplicity of the id in the history, which tests of fresh progressions never vary.", "anchors": ["src/lionherd_core/base/progression.py: include, exclude, remove, append"]}
{"id": "C04", "title": "Failed progression operations leave the sequence unchanged", "statement": "Whenever a mutating Progression call other than extend raises (bad index, absent id, uncoercible item), the stored sequence is exactly what it was before the call; a failing extend keeps exactly the items before the failing one.", "quantifier": "every progression, every mutating method and every argument", "why_tests_cant": "Atomicity has to hold for a failure at every position inside a batch argument.", "anchors": ["src/lionherd_core/base/progression.py: extend, insert, remove, __setitem__, pop, move, swap"]}
{"id": "C05", "title": "Pile order and contents always agree", "statement": "After any sequence of Pile operations starting from a pile built without an explicit order, iteration yields every stored item exactly once, len equals the number of distinct stored ids, and id-membership, keys(), items() and iteration agree.", "quantifier": "every finite history of add, remove, pop, update, clear, include, exclude and reads, with arbitrary items and ids", "why_tests_cant": "The two internal structures could drift apart only after a particular history of operations.", "anchors": ["src/lionherd_core/base/pile.py: Pile.add, remove, pop, update, clear, include, exclude, __iter__, __len__, __contains__, keys, items"]}
{"id": "C06", "title": "Pile behaves like an insertion-ordered map", "statement": "Every Pile operation returns what an insertion-ordered map from id to item would return: add appends or raises ExistsError, update replaces in place keeping the position, remove and pop delete and close the gap, get/contains look up the latest value; a raised error leaves the pile unchanged.", "quantifier": "every history of operations and every operation after it", "why_tests_cant": "Equivalence with the abstract map is a statement about all histories, not about sampled ones.", "anchors": ["src/lionherd_core/base/pile.py: add, remove, pop, get, update, clear, include, exclude, __getitem__, __contains__"]}
{"id": "C07", "title": "Pile type constraint is never violated", "statement": "If a pile was created with an item_type constraint (strict or not), then after any history every item in it satisfies that constraint; an item violating it is never stored.", "quantifier": "every history of operations, every constraint set, every class hierarchy (any subclass relation)", "why_tests_cant": "Any single unchecked insertion path breaks it; class hierarchies are unbounded.", "anchors": ["src/lionherd_core/base/pile.py: _validate_type, __init__, add, update, include, from_dict"]}
{"id": "C08", "title": "An explicit order given at construction is a permutation of the items", "statement": "A Pile constructed with items and an explicit order iterates over exactly its items, each once; otherwise construction is rejected.", "quantifier": "every list of items and every order argument", "why_tests_cant": "Orders that are proper subsets or contain repeats are accepted silently; tests only pass permutations.", "anchors": ["src/lionherd_core/base/pile.py: Pile.__init__"]}
{"id": "C09", "title": "Pile queries return exactly the selected items in order", "statement": "pile[index], pile[slice], pile[list], pile[progression], pile[predicate] and filter_by_type return exactly the items selected, in pile order (or in the order of the given progression/list), as a consistent pile, and never modify the queried pile.", "quantifier": "every pile, every index/slice/list/progression/predicate", "why_tests_cant": "Selection correctness is a statement over all subsets and all index values including negative and out-of-range ones.", "anchors": ["src/lionherd_core/base/pile.py: __getitem__, _filter_by_progression, _get_by_index, _get_by_slice, _get_by_list, _filter_by_function, filter_by_type"]}
{"id": "C10", "title": "Pile serialisation round trip", "statement": "Pile.from_dict(pile.to_dict()) reproduces the items, their order, the type constraint, strictness and the progression name, for every pile whose constraint is absent or names some type and whose progression name is absent or non-empty (an empty constraint set comes back as no constraint; an unnamed pile must not have metadata of its own under 'progression_name').", "quantifier": "every consistent pile over items whose own serialisation round-trips", "why_tests_cant": "Round trip must hold for every content, including empty piles and any item order.", "anchors": ["src/lionherd_core/base/pile.py: to_dict, from_dict"]}
{"id": "C11", "title": "Flow referential integrity", "statement": "After any history of Flow operations, every id contained in any of the flow's progressions is the id of an item stored in the flow.", "quantifier": "every history of add_progression, remove_progression, add_item, remove_item and every argument, from every legally constructed flow", "why_tests_cant": "A dangling reference appears only after a specific interleaving of adds with repeated ids and removals.", "anchors": ["src/lionherd_core/base/flow.py: _validate_referential_integrity, add_progression, add_item, remove_item"]}
{"id": "C12", "title": "Flow progression names identify progressions", "statement": "In every flow constructed from progressions with pairwise distinct names (the constructor does not check this), after any history: get_progression(name) returns the unique progression bearing that name and fails exactly when there is none; two progressions never share a name.", "quantifier": "every history of add_progression/remove_progression (by name, uuid or instance) and every name, from every legally constructed flow", "why_tests_cant": "The name index is a second copy of the truth; drift needs specific histories (construction with duplicates, removal by id, ...).", "anchors": ["src/lionherd_core/base/flow.py: add_progression, remove_progression, get_progression, model_post_init"]}
{"id": "C13", "title": "Flow.remove_item removes the item everywhere and nothing else", "statement": "After a successful remove_item(x) the item is gone from the item pile and from every progression, all other items and all other progression entries keep their order; remove_item of an absent item raises NotFoundError.", "quantifier": "every flow state and every id, including flows whose progressions list an id several times", "why_tests_cant": "Needs all combinations of progressions and multiplicities.", "anchors": ["src/lionherd_core/base/flow.py: remove_item"]}
{"id": "C14", "title": "Flow operations are all-or-nothing", "statement": "If add_item, remove_item, add_progression or remove_progression raises, the flow is exactly as before the call.", "quantifier": "every flow state and every (valid or invalid) argument", "why_tests_cant": "Failure can occur after any prefix of the per-progression loop.", "anchors": ["src/lionherd_core/base/flow.py: add_item, remove_item, add_progression, remove_progression"]}
{"id": "C15", "title": "Graph edges always connect existing nodes and neighbour queries are exact", "statement": "After any history of add_node, remove_node, add_edge, remove_edge on an initially empty graph, every edge's head and tail are nodes of the graph; get_successors(n)/get_predecessors(n) are exactly the nodes joined to n by a stored edge in that direction; get_heads/get_tails are exactly the nodes without incoming/outgoing edges.", "quantifier": "every finite history of graph operations", "why_tests_cant": "The adjacency sets are redundant state maintained by four operations; drift depends on the history.", "anchors": ["src/lionherd_core/base/graph.py: add_node, remove_node, add_edge, remove_edge, get_successors, get_predecessors, get_heads, get_tails, get_node_edges"]}
{"id": "C16", "title": "Removing a node removes exactly its incident edges", "statement": "After remove_node(n) succeeds, n and every edge with head or tail n are gone, and all other nodes and edges are untouched; self-loops are handled.", "quantifier": "every reachable graph and every node", "why_tests_cant": "Self-loops and parallel edges make two loops delete from the same sets.", "anchors": ["src/lionherd_core/base/graph.py: remove_node, remove_edge"]}
{"id": "C17", "title": "is_acyclic decides cycle freedom", "statement": "Graph.is_acyclic() is True exactly when no non-empty directed walk of edges returns to its starting node; the only way it can fail is RecursionError, which needs more nodes than the interpreter admits nested calls (and then does happen).", "quantifier": "every reachable graph, of any size, with self loops and parallel edges", "why_tests_cant": "Correctness of a three-colour depth-first search is an unbounded graph-theoretic statement.", "anchors": ["src/lionherd_core/base/graph.py: is_acyclic"]}
{"id": "C18", "title": "topological_sort is correct and complete", "statement": "topological_sort() terminates; a returned list has every node exactly once with the head of every edge before its tail; it raises ValueError only if the graph has a directed cycle, and always then unless the recursion limit of C17 is hit, which needs more nodes than nested calls admitted.", "quantifier": "every reachable graph", "why_tests_cant": "Completeness of Kahn's algorithm needs an inductive argument over graph size.", "anchors": ["src/lionherd_core/base/graph.py: topological_sort"]}
{"id": "C19", "title": "find_path returns a shortest valid path or None exactly when unreachable", "statement": "find_path(s,e) returns a list of stored edges forming a walk from s to e with minimum number of edges (the empty list if s==e), None exactly when e is not reachable from s; with check_conditions only edges whose condition holds are used; unknown endpoints raise NotFoundError.", "quantifier": "every reachable graph, every pair of nodes, every condition valuation", "why_tests_cant": "Shortestness quantifies over all alternative walks.", "anchors": ["src/lionherd_core/base/graph.py: find_path, Edge.check_condition"]}
{"id": "C20", "title": "Graph serialisation preserves structure", "statement": "Graph.from_dict(graph.to_dict()) has the same nodes, edges and neighbour relation.", "quantifier": "every reachable graph", "why_tests_cant": "Adjacency is not serialised but rebuilt; equality with the incrementally maintained one must hold for every history.", "anchors": ["src/lionherd_core/base/graph.py: to_dict, from_dict, _rebuild_adjacency"]}
{"id": "C21", "title": "An event's body runs at most once", "statement": "However many tasks call Event.invoke() on the same event, in whatever interleaving, with whatever cancellations, the event body is started at most once, a call returns only when the body has ended, and once the body has ended invoke() never changes status, response, error or duration again.", "quantifier": "every number of concurrent invoke() calls and every interleaving of their steps", "why_tests_cant": "The number of schedules is unbounded; tests exercise a few.", "anchors": ["src/lionherd_core/base/event.py: Event.invoke"]}
{"id": "C22", "title": "invoke maps every outcome to the documented status", "statement": "When invoke finishes: normal return gives COMPLETED with the returned response, no error, retryable False; a timeout gives CANCELLED with a timeout error, retryable True; an ordinary exception gives FAILED with that exception and Unset response; cancellation gives CANCELLED and is re-raised; duration is set.", "quantifier": "every schedule and every body outcome: any return value, any Exception incl. groups, timeout, cancellation", "why_tests_cant": "Outcomes form an unbounded space of exception trees.", "anchors": ["src/lionherd_core/base/event.py: Event.invoke, Execution"]}
{"id": "C23", "title": "Retryability of failures", "statement": "After a failed invoke, execution.retryable is False exactly when the failure contains a LionherdError marked non-retryable (the exception itself or any exception inside an exception group), True otherwise.", "quantifier": "every exception, including arbitrarily nested exception groups", "why_tests_cant": "Groups nest without bound.", "anchors": ["src/lionherd_core/base/event.py: Event.invoke"]}
{"id": "C24", "title": "as_fresh_event gives an independent pending copy", "statement": "as_fresh_event() returns an event with a new id, PENDING status, no response/error/duration, the same timeout, no metadata of the original except (with copy_meta) all of it, a note of the identity of the original, and the same value of every configuration field that is part of the serialised form, and leaves the original unchanged.", "quantifier": "every event in every state and configuration", "why_tests_cant": "All configuration fields and all prior states.", "anchors": ["src/lionherd_core/base/event.py: as_fresh_event"]}
{"id": "C25", "title": "Error serialisation terminates and is bounded", "statement": "Execution.to_dict terminates for every error, including exception groups nested arbitrarily deeply or cyclically, and the nesting depth of its output is bounded.", "quantifier": "every finite or cyclic exception-group structure", "why_tests_cant": "Cyclic structures make naive recursion diverge; depth is unbounded.", "anchors": ["src/lionherd_core/base/event.py: Execution._serialize_exception_group, Execution.to_dict"]}
{"id": "C26", "title": "Processor never exceeds its batch capacity", "statement": "One Processor.process() call that no other process() call overlaps starts at most queue_capacity events, each at most once, and leaves the remaining queue entries in place; with overlapping calls it starts at most queue_capacity more for each other call that ended, having started events, while it ran.", "quantifier": "every history of overlapping or non-overlapping process() calls with any concurrent enqueue/stop/clean-up/cancellation, every permission oracle, every capacity", "why_tests_cant": "Depends on the interplay of queue contents and permission answers.", "anchors": ["src/lionherd_core/base/processor.py: Processor.process, available_capacity"]}
{"id": "C27", "title": "Events are started in priority order", "statement": "Among permitted events, process() starts events in non-decreasing priority order, ties broken by id, never starting an event while a queued event with smaller (priority,id) is waiting and permitted.", "quantifier": "every multiset of queued (priority, id) entries and every permission oracle", "why_tests_cant": "Requires heap correctness for every heap size and shape.", "anchors": ["src/lionherd_core/base/processor.py: process, enqueue", "src/lionherd_core/libs/concurrency/_priority_queue.py: PriorityQueue"]}
{"id": "C28", "title": "Three denials abort an event", "statement": "An event is never aborted with fewer than three denials; before that it is re-queued with increasing back-off; and as long as fewer than max_denial_tracking events are being tracked, the third denial moves it to ABORTED, never to be retried (with a full table counts are evicted, and it may be denied more often).", "quantifier": "every history of process() calls with every permission oracle and every number of other events being denied in between", "why_tests_cant": "The denial counter is subject to eviction, so it depends on the whole history of other events.", "anchors": ["src/lionherd_core/base/processor.py: process, _denial_counts, max_denial_tracking"]}
{"id": "C29", "title": "Queue bound", "statement": "The number of queued events never exceeds max_queue_size; enqueue on a full queue raises QueueFullError and changes nothing; NaN and infinite priorities are rejected.", "quantifier": "every history of enqueue/process calls", "why_tests_cant": "Re-queuing of denied events bypasses the bound check.", "anchors": ["src/lionherd_core/base/processor.py: enqueue, process"]}
{"id": "C30", "title": "Each executor event is in exactly one status list", "statement": "After any history of Executor operations in which clean-ups are of finished statuses, as by default (see C93 for others), every tracked event id occurs in exactly one of the status progressions, exactly once, and every id in a status progression is a tracked event; the status counts add up to the number of tracked events.", "quantifier": "every history of append, start, process() calls in any interleaving, cancellations, failures, and clean-ups of finished statuses", "why_tests_cant": "The status index is redundant state updated by remove-then-append.", "anchors": ["src/lionherd_core/base/processor.py: Executor._update_progression, append, cleanup_events, get_events_by_status, status_counts"]}
{"id": "C31", "title": "Executor cleanup removes exactly the requested statuses", "statement": "cleanup_events(statuses) removes precisely the events listed under those statuses (default: completed, failed, aborted), returns their number, and leaves all other events and their order untouched.", "quantifier": "every status list, and every executor state reached without an earlier clean-up of an event held by a process() call or running (see C93)", "why_tests_cant": "All distributions of events over statuses, including repeated statuses in the argument.", "anchors": ["src/lionherd_core/base/processor.py: Executor.cleanup_events"]}
{"id": "C32", "title": "No accepted event is lost", "statement": "Every event accepted by Executor.append is at any later time queued, in progress, finished or aborted: it is never listed as pending without being queued for processing.", "quantifier": "every history of append/forward/process with any queue bounds", "why_tests_cant": "Loss happens only when the queue bound is hit between the two halves of append.", "anchors": ["src/lionherd_core/base/processor.py: Executor.append, Executor.start, Processor.enqueue"]}
{"id": "C33", "title": "PriorityQueue is a correct bounded priority queue", "statement": "get/get_nowait always return a smallest stored item, every item put is returned exactly once, the size never exceeds maxsize, put_nowait on a full queue raises QueueFull and get_nowait on an empty one QueueEmpty without changing the queue.", "quantifier": "every history of put/get operations over any totally ordered items", "why_tests_cant": "Heap invariants are inductive over all heap shapes.", "anchors": ["src/lionherd_core/libs/concurrency/_priority_queue.py: PriorityQueue.put_nowait, get_nowait, put, get"]}
{"id": "C34", "title": "PriorityQueue wakes a waiter that can proceed", "statement": "Whenever the queue is non-empty and some task waits in get(), some waiting getter is scheduled to run, on every queue where no put can block: unbounded ones, as the framework uses, and bounded ones filled by put_nowait (with blocking producers on a bounded queue wake-ups can be lost).", "quantifier": "every interleaving of any number of putters and getters", "why_tests_cant": "A lost wake-up needs a particular interleaving of three or more tasks.", "anchors": ["src/lionherd_core/libs/concurrency/_priority_queue.py: put, get (single Condition, notify())"]}
{"id": "C35", "title": "EventBus delivers each emit to every current subscriber", "statement": "emit(topic, ...) runs each live handler subscribed to that topic once per subscription, in subscription order, and no handler of another topic; a handler whose coroutine raises does not prevent the others from running. (Handlers are compared by identity, and here are callables whose call returns an awaitable; see C97 for the others.)", "quantifier": "every history of subscribe/unsubscribe/collection/emit and every handler behaviour", "why_tests_cant": "Delivery depends on the history of subscriptions and on garbage collection points.", "anchors": ["src/lionherd_core/base/eventbus.py: subscribe, unsubscribe, emit, _cleanup_dead_refs"]}
{"id": "C36", "title": "EventBus unsubscribe removes exactly one subscription", "statement": "For handlers compared by identity, unsubscribe(topic, h) removes the earliest live subscription of h to topic and returns True, or returns False and changes no live subscription; handler_count is the number of live subscriptions; topics lists each topic subscribed to since it was last cleared exactly once.", "quantifier": "every history of subscribe/unsubscribe, including duplicates and dead references", "why_tests_cant": "Dead references interleaved with duplicates form an unbounded family of list shapes.", "anchors": ["src/lionherd_core/base/eventbus.py: unsubscribe, handler_count, topics, clear"]}
{"id": "C37", "title": "Broadcaster subscription is idempotent and unsubscription effective", "statement": "For callbacks that are functions or callable objects compared by identity: subscribing one twice calls it once per broadcast; after unsubscribe(cb) no later broadcast calls it until it subscribes again; a callback raising an Exception does not stop delivery to the others; delivery is in subscription order. (Bound methods: C98.)", "quantifier": "every history of subscribe/unsubscribe/collection/broadcast/count over any classes", "why_tests_cant": "Histories with duplicates and dead references are unbounded.", "anchors": ["src/lionherd_core/base/broadcaster.py: subscribe, unsubscribe, broadcast, _cleanup_dead_refs"]}
{"id": "C38", "title": "Broadcaster subclasses are isolated", "statement": "A subscription made on one Broadcaster subclass never receives broadcasts of another subclass.", "quantifier": "every set of subclasses, whether or not they redeclare the subscriber list", "why_tests_cant": "The subscriber list is a mutable class attribute inherited by subclasses.", "anchors": ["src/lionherd_core/base/broadcaster.py: Broadcaster._subscribers"]}
{"id": "C39", "title": "gather returns results in input order", "statement": "gather(*aws) returns the results in argument order whatever the completion order; with return_exceptions each failure sits at its own index, otherwise any failure (that is not itself a cancellation, see C100) is raised, as a group whose members are failures of the awaitables without cancellations.", "quantifier": "every number of awaitables, every outcome vector and every completion order", "why_tests_cant": "n! completion orders.", "anchors": ["src/lionherd_core/libs/concurrency/_patterns.py: gather"]}
{"id": "C40", "title": "bounded_map bounds concurrency and keeps order", "statement": "bounded_map never runs more than `limit` calls at a time and returns one result per input in input order; limit < 1 is rejected.", "quantifier": "every schedule, every number of items, every limit", "why_tests_cant": "Schedules are unbounded.", "anchors": ["src/lionherd_core/libs/concurrency/_patterns.py: bounded_map"]}
{"id": "C41", "title": "retry attempt and delay discipline", "statement": "retry calls the function at least once and at most max(1, attempts) times, stops at the first success, re-raises the last error, never retries an exception outside retry_on, waits min(max_delay, base_delay*2^(k-1)) (plus bounded jitter) after the k-th failure, and after a failure never calls again once the ambient deadline was reached.", "quantifier": "every attempts/base/max configuration, every failure pattern, every jitter draw and deadline", "why_tests_cant": "Exponential back-off over arbitrary attempt counts.", "anchors": ["src/lionherd_core/libs/concurrency/_patterns.py: retry"]}
{"id": "C42", "title": "CompletionStream yields every result exactly once", "statement": "When no awaitable fails, iterating a CompletionStream yields (index, result) pairs in completion order, none twice, and iterated to its end exactly one pair per awaitable; with a positive limit at most that many awaitables run at a time; and from every point of every execution the remaining results can still be delivered.", "quantifier": "every number of awaitables and every completion order", "why_tests_cant": "Completion orders are unbounded.", "anchors": ["src/lionherd_core/libs/concurrency/_patterns.py: CompletionStream"]}
{"id": "C43", "title": "alcall keeps input order, bounds retries and applies defaults", "statement": "alcall returns one result per input in input order; each item is attempted at most 1+retry_attempts times and stops at first success; on exhaustion the default is used if given, else the error is raised (or returned in place with return_exceptions).", "quantifier": "every input list, outcome sequence, retry configuration and completion order", "why_tests_cant": "Outcome sequences and schedules are unbounded.", "anchors": ["src/lionherd_core/ln/_async_call.py: alcall"]}
{"id": "C44", "title": "bcall batches partition the input", "statement": "The batches processed by bcall are consecutive, each of size batch_size except possibly the last, and their concatenation is the flattened, null-free input.", "quantifier": "every input and every positive batch size", "why_tests_cant": "All lengths modulo batch size.", "anchors": ["src/lionherd_core/ln/_async_call.py: bcall"]}
{"id": "C45", "title": "LNDL lexer is total and position-faithful", "statement": "tokenize terminates on every text and ends with exactly one EOF token; every token is spelled at its own offset of the text, offsets strictly increase in token order, and each token's line is the 1-indexed line of its first character (so lines never decrease).", "quantifier": "every input text", "why_tests_cant": "All strings, including unterminated literals and stray control characters.", "anchors": ["src/lionherd_core/lndl/lexer.py: Lexer.tokenize, advance"]}
{"id": "C46", "title": "LNDL string literals round-trip", "statement": "For every string s there is a quoted literal inside OUT{} (with \\\\, quote and newline/tab/CR escapes) that the lexer turns into one STR token with value s, and lexing continues right after it.", "quantifier": "every string s and every following text", "why_tests_cant": "All strings with any mixture of escapes.", "anchors": ["src/lionherd_core/lndl/lexer.py: read_string, tokenize"]}
{"id": "C47", "title": "LNDL parser alias uniqueness", "statement": "In every successfully parsed program the aliases of all lvars and lacts are pairwise distinct; a duplicate alias is rejected with a parse error.", "quantifier": "every token stream", "why_tests_cant": "Any number of declarations in any order.", "anchors": ["src/lionherd_core/lndl/parser.py: Parser.parse"]}
{"id": "C48", "title": "An lvar's content is the text between its own tags", "statement": "Parsing <lvar ...>content</lvar> yields, for every declaration of the program, exactly the (stripped) text between that declaration's own opening tag and the next closing tag.", "quantifier": "every source text", "why_tests_cant": "Content is recovered by a text search from the start of the source; a lookalike occurrence earlier in the text wins.", "anchors": ["src/lionherd_core/lndl/parser.py: parse_lvar, parse_lact"]}
{"id": "C49", "title": "OUT block parsing", "statement": "parse_out_block returns, for a well-formed OUT{f1: [a,b], f2: 3, ...} block, exactly the fields with their references or literal values, later duplicates winning, and leaves what follows the closing brace unread; parsing terminates on every text.", "quantifier": "every list of fields and values", "why_tests_cant": "All sizes and shapes of blocks.", "anchors": ["src/lionherd_core/lndl/parser.py: parse_out_block, parse_value"]}
{"id": "C50", "title": "LNDL resolution validates fields and references", "statement": "Resolving an OUT block succeeds only if lvar and lact names are disjoint, every OUT field is an allowed field, every required field is present and every referenced name is declared; otherwise an error is raised.", "quantifier": "every set of declarations, OUT block and operable", "why_tests_cant": "All combinations of declared and referenced names.", "anchors": ["src/lionherd_core/lndl/resolver.py: resolve_references_prefixed"]}
{"id": "C51", "title": "Only actions referenced in OUT are scheduled", "statement": "In a successful LNDL output, the actions to execute are exactly the declared lacts referenced from the OUT block.", "quantifier": "every program and OUT block", "why_tests_cant": "All reference patterns.", "anchors": ["src/lionherd_core/lndl/resolver.py: resolve_references_prefixed"]}
{"id": "C52", "title": "Fuzzy name correction is sound and conservative", "statement": "Name correction returns the name itself when it is an exact candidate; otherwise, among the candidates whose case-insensitive similarity reaches the threshold, it returns the one that leads all others by at least 0.05 (case-sensitive similarity), raises an ambiguity error if none does, and a missing-field error if there is no such candidate or the threshold is >= 1. The outcome does not depend on the order of the candidates.", "quantifier": "every name, candidate list, threshold and similarity function", "why_tests_cant": "Quantifies over all similarity values.", "anchors": ["src/lionherd_core/lndl/fuzzy.py: _correct_name"]}
{"id": "C53", "title": "Fuzzy parsing never drops OUT fields silently", "statement": "When fuzzy correction rewrites OUT field names, every OUT field of the input reaches the result, or an error is raised.", "quantifier": "every OUT block and correction outcome", "why_tests_cant": "Two misspellings may be corrected to the same field.", "anchors": ["src/lionherd_core/lndl/fuzzy.py: parse_lndl_fuzzy"]}
{"id": "C54", "title": "Pending-action detection is complete", "statement": "has_action_calls(model) is True exactly when an ActionCall occurs anywhere inside the model's fields (nested models, lists, tuples, sets, dicts); ensure_no_action_calls raises exactly in that case and otherwise returns the model unchanged.", "quantifier": "every nested model value", "why_tests_cant": "Nesting depth is unbounded.", "anchors": ["src/lionherd_core/lndl/types.py: has_action_calls, ensure_no_action_calls"]}
{"id": "C55", "title": "Revalidation removes all pending actions", "statement": "revalidate_with_action_results(model, results) returns a model without any ActionCall and with each action replaced by its result, or raises.", "quantifier": "every nested model and result map", "why_tests_cant": "Nesting depth is unbounded.", "anchors": ["src/lionherd_core/lndl/types.py: revalidate_with_action_results"]}
{"id": "C56", "title": "to_list flatten/dropna semantics", "statement": "to_list(x, flatten=True) contains no nested flattenable iterable, its elements are the leaves of x from left to right; with dropna no None/undefined remains and nothing else is dropped; applying it again changes nothing.", "quantifier": "every nested input", "why_tests_cant": "Nesting is unbounded.", "anchors": ["src/lionherd_core/ln/_to_list.py: to_list"]}
{"id": "C57", "title": "to_list unique keeps exactly one representative of each value", "statement": "to_list(x, flatten=True, unique=True) keeps the first occurrence of each distinct value in order: no two results are equal and every input value equals some result.", "quantifier": "every nested input, including unhashable mappings", "why_tests_cant": "Depends on hash collisions and on whether an unhashable element occurs anywhere.", "anchors": ["src/lionherd_core/ln/_to_list.py: to_list", "src/lionherd_core/ln/_hash.py: hash_dict"]}
{"id": "C58", "title": "lcall applies the function to each element in order", "statement": "lcall returns the results of the function on each input element in order; the first exception propagates; output post-processing is applied as requested, where output_unique comes with output_flatten.", "quantifier": "every input, function behaviour and option combination", "why_tests_cant": "All option combinations times all inputs.", "anchors": ["src/lionherd_core/ln/_list_call.py: lcall"]}
{"id": "C59", "title": "get_bins partitions indices within the size limit", "statement": "get_bins(items, upper) returns consecutive bins whose concatenation is 0..n-1, each bin's total length below `upper` unless it is a single oversized item; only the first bin can be empty.", "quantifier": "every list of lengths and every bound", "why_tests_cant": "All length sequences.", "anchors": ["src/lionherd_core/ln/_utils.py: get_bins"]}
{"id": "C60", "title": "fuzzy_match_keys preserves exact matches and never mixes values", "statement": "Every key of the input that is an expected key keeps its value; every expected key of the output carries the value of one input key (or a fill value); no input key feeds two output keys; in modes remove/force only expected keys remain; in mode force/fill every expected key is present; raise mode errors exactly on an unmatched input key; strict errors exactly when an expected key is unmatched.", "quantifier": "every dict, key set, similarity function, threshold, mode and set iteration order", "why_tests_cant": "Iteration order over sets and the similarity function are arbitrary.", "anchors": ["src/lionherd_core/ln/_fuzzy_match.py: fuzzy_match_keys"]}
{"id": "C61", "title": "hash_dict is insensitive to dict insertion order", "statement": "Equal data structures (dicts equal as mappings, sets equal as sets, at any depth) get equal hashes, provided different dict keys have different texts and equal ones equal texts (as for string keys), and set members are totally ordered (by <= or, where undefined, by type and text).", "quantifier": "every nested structure and every insertion/iteration order", "why_tests_cant": "Quantifies over all permutations at every level.", "anchors": ["src/lionherd_core/ln/_hash.py: hash_dict, _generate_hashable_representation"]}
{"id": "C62", "title": "Params equality is value equality", "statement": "Two Params (or DataClass) objects compare equal exactly when they have the same non-sentinel field values.", "quantifier": "every pair of parameter objects", "why_tests_cant": "Equality is implemented through hash comparison, so it depends on hash collisions.", "anchors": ["src/lionherd_core/types/base.py: Params.__eq__, DataClass.__eq__"]}
{"id": "C63", "title": "Params accepts exactly its declared fields", "statement": "Constructing a Params subclass with keyword k succeeds exactly when k is one of that class's public fields, regardless of which other Params classes were used before.", "quantifier": "every class hierarchy and every history of class uses", "why_tests_cant": "The set of allowed names is cached on the class and inherited.", "anchors": ["src/lionherd_core/types/base.py: Params.allowed, Params.__init__"]}
{"id": "C64", "title": "Spec metadata keys are unique and updates are overrides", "statement": "Every Spec has at most one metadata entry per key; with_updates(k=v) yields a spec where k maps to v (or is absent when v is a sentinel) and every other key is unchanged.", "quantifier": "every metadata list and update", "why_tests_cant": "All key combinations.", "anchors": ["src/lionherd_core/types/spec.py: CommonMeta.prepare, Spec.with_updates, Spec.get"]}
{"id": "C65", "title": "Operable field names are unique and lookups exact", "statement": "An Operable never holds two specs with the same name; get(name) returns the spec with that name or the default; get_specs(include) / get_specs(exclude) return exactly the named / remaining specs.", "quantifier": "every list of specs and every include/exclude set", "why_tests_cant": "All subsets of names, including unnamed specs.", "anchors": ["src/lionherd_core/types/operable.py: Operable.__init__, get, get_specs, check_allowed"]}
{"id": "C66", "title": "Equal Meta objects hash equally", "statement": "If two Meta objects compare equal they have the same hash.", "quantifier": "every pair of keys and values, hashable or not, callable or not", "why_tests_cant": "Needs all pairs of equal but differently printed values.", "anchors": ["src/lionherd_core/types/base.py: Meta.__hash__, Meta.__eq__"]}
{"id": "C67", "title": "Levenshtein distance is the minimal edit count", "statement": "levenshtein_distance(a,b) is the minimum number of single-character insertions, deletions and substitutions turning a into b; hence it is a metric.", "quantifier": "every pair of strings", "why_tests_cant": "Minimality quantifies over all edit scripts.", "anchors": ["src/lionherd_core/libs/string_handlers/_string_similarity.py: levenshtein_distance"]}
{"id": "C68", "title": "Similarity scores lie in [0,1] and are 1 on identical strings", "statement": "levenshtein, hamming, jaro, jaro-winkler and cosine similarities are between 0 and 1, and equal 1 for identical non-empty strings.", "quantifier": "every pair of strings (and every admissible prefix scaling)", "why_tests_cant": "All string pairs.", "anchors": ["src/lionherd_core/libs/string_handlers/_string_similarity.py"]}
{"id": "C69", "title": "string_similarity ranks and filters correctly", "statement": "A case-insensitive string_similarity search (the default) returns exactly the candidates scoring at least the threshold (for Hamming: those of the same length), best first, ties in input order; with return_most_similar the first of these; None when there are none; ValueError exactly for an empty candidate list or a threshold outside [0,1].", "quantifier": "every word, candidate list, scoring function and threshold", "why_tests_cant": "All score vectors with ties.", "anchors": ["src/lionherd_core/libs/string_handlers/_string_similarity.py: string_similarity"]}
{"id": "C70", "title": "fix_json_string balances brackets", "statement": "When fix_json_string returns, the result extends the input by closing brackets only; it raises exactly on an extra or mismatched closing bracket. If the text ends outside string literals, the brackets of the result (outside literals) are balanced, the addition is the only possible completion by closing brackets, and applying it again changes nothing (a text ending inside a literal stays open).", "quantifier": "every input text", "why_tests_cant": "All texts with nested strings, escapes and brackets.", "anchors": ["src/lionherd_core/libs/string_handlers/_fuzzy_json.py: fix_json_string"]}
{"id": "C71", "title": "fuzzy_json returns only objects or lists of objects", "statement": "fuzzy_json returns a dict or a list of dicts, or raises; it returns the plain JSON parse whenever that already is such a value.", "quantifier": "every input text and every behaviour of the JSON parser", "why_tests_cant": "All texts.", "anchors": ["src/lionherd_core/libs/string_handlers/_fuzzy_json.py: fuzzy_json, _validate_return_type"]}
{"id": "C72", "title": "to_num respects its bounds", "statement": "The number returned by to_num lies within [lower_bound, upper_bound].", "quantifier": "every input value, bounds, precision and target type", "why_tests_cant": "Rounding and truncation happen after the bounds check.", "anchors": ["src/lionherd_core/libs/string_handlers/_to_num.py: to_num"]}
{"id": "C73", "title": "minimal_yaml pruning is complete and idempotent", "statement": "Pruning removes every None, blank string and empty container at every depth (after which no empty value remains inside), keeps everything else in order, keeps 0 and False, and pruning twice equals pruning once.", "quantifier": "every nested value", "why_tests_cant": "Containers may become empty after pruning their contents, at any depth.", "anchors": ["src/lionherd_core/libs/schema_handlers/_minimal_yaml.py: _prune, _is_empty"]}
{"id": "C74", "title": "Function-call arguments are never lost", "statement": "Mapping positional arguments to parameter names and nesting arguments by schema keeps every argument value: a call whose arguments collide is rejected rather than silently overwritten.", "quantifier": "every argument list, parameter list and schema", "why_tests_cant": "Collisions need particular combinations of positional and keyword arguments.", "anchors": ["src/lionherd_core/libs/schema_handlers/_function_call_parser.py: map_positional_args, nest_arguments_by_schema"]}
{"id": "C75", "title": "Element identity", "statement": "Elements are equal exactly when their ids are equal, equal elements hash equally, and id/created_at (hence equality and hash) are fixed at creation: assigning them raises and changes nothing.", "quantifier": "every pair of elements and every history of attribute changes", "why_tests_cant": "All pairs of elements.", "anchors": ["src/lionherd_core/base/element.py: Element.__eq__, __hash__"]}
{"id": "C76", "title": "Element serialisation round trip is polymorphic", "statement": "Base.from_dict(x.to_dict(mode, created_at_format, meta_key=k)) rebuilds an element of x's own class with the same id, creation time, metadata and fields, without leaving the class tag in the metadata, for every meta_key that is not the name of a field and that from_dict is told or knows, when the classes are defined at module level and the metadata does not itself use the tag's key.", "quantifier": "every module-level element class, metadata, mode, format and meta_key", "why_tests_cant": "All metadata dictionaries, including ones that already use reserved keys.", "anchors": ["src/lionherd_core/base/element.py: to_dict, from_dict, _to_dict"]}
{"id": "C77", "title": "Node content deserializer is applied once", "statement": "Node.from_dict(data, content_deserializer=f) applies f to the content exactly once, also when the data names a Node subclass.", "quantifier": "every data dict, class tag and deserializer", "why_tests_cant": "Delegation to a subclass repeats the step; visible only for non-idempotent f.", "anchors": ["src/lionherd_core/base/node.py: Node.from_dict"]}
{"id": "C78", "title": "Creation timestamps are timezone-aware", "statement": "coerce_created_at returns a timezone-aware datetime for every accepted input.", "quantifier": "every datetime, number or string input", "why_tests_cant": "All timestamp formats with and without offsets.", "anchors": ["src/lionherd_core/base/_utils.py: coerce_created_at"]}
{"id": "C79", "title": "@implements rejects classes missing protocol members", "statement": "Decorating a class with @implements(P) succeeds exactly when every member required by P is defined in the class's own body.", "quantifier": "every protocol and class body", "why_tests_cant": "All protocols, including those consisting of dunder methods only.", "anchors": ["src/lionherd_core/protocols.py: implements"]}
{"id": "C80", "title": "Custom JSON serializers are honoured", "statement": "A serializer registered through `additional` for type T is used for every object of type T not natively serialised.", "quantifier": "every type hierarchy, order list and additional map", "why_tests_cant": "Dispatch depends on the order list and on the subclass relation.", "anchors": ["src/lionherd_core/ln/_json_dump.py: get_orjson_default"]}
{"id": "C81", "title": "Splitting an exception group separates cancellations from errors", "statement": "split_cancellation(eg) returns two groups whose leaves together are exactly the leaves of eg, the first containing only cancellations and the second none.", "quantifier": "every nested exception group", "why_tests_cant": "Groups nest without bound.", "anchors": ["src/lionherd_core/libs/concurrency/_errors.py: split_cancellation, non_cancel_subgroup"]}
{"id": "C82", "title": "Leak tracker reports exactly the live tracked objects", "statement": "After any history of track/untrack, clearing and object destruction, with addresses reused at will, live() lists exactly the tracked, not untracked, still alive objects, when all tracked objects can be weakly referenced (track raises TypeError for others but keeps the entry).", "quantifier": "every history, including reuse of object addresses", "why_tests_cant": "Address reuse after destruction is not controllable from tests.", "anchors": ["src/lionherd_core/libs/concurrency/_resource_tracker.py: LeakTracker"]}
{"id": "C83", "title": "Type registry round trip and lookups", "statement": "A Node subclass defined at module level is retrievable by its serialized class name: deserialising the class tag produced by a registered class yields that class.", "quantifier": "every sequence of module-level class definitions, including classes with equal short names in different modules", "why_tests_cant": "Name collisions depend on the set of loaded classes.", "anchors": ["src/lionherd_core/base/node.py: NODE_REGISTRY, __pydantic_init_subclass__, from_dict"]}
{"id": "C84", "title": "TypeScript rendering marks optional fields correctly", "statement": "A property is rendered with '?' exactly when it is not required or admits null, and every property of the schema is rendered once, in order.", "quantifier": "every schema", "why_tests_cant": "All schema shapes.", "anchors": ["src/lionherd_core/libs/schema_handlers/_typescript.py: typescript_schema, _extract_type_signature"]}
{"id": "C85", "title": "to_dict depth limits are enforced", "statement": "to_dict accepts max_recursive_depth exactly in 0..10 and never rewrites structure below that depth.", "quantifier": "every nested input and every depth", "why_tests_cant": "Nesting is unbounded.", "anchors": ["src/lionherd_core/ln/_to_dict.py: to_dict, _preprocess_recursive"]}
{"id": "C86", "title": "Pile.include / exclude are atomic under concurrent threads", "statement": "Under every interleaving of threads calling include and exclude, the items and the order of the pile agree, the lock is released, and at the end of each call the item it was given is present (include) or absent (exclude) unless another call changed it since.", "quantifier": "every number of threads and every interleaving of their lock-protected sections", "why_tests_cant": "include checks membership and then adds in two separately locked steps; the bad interleaving needs precise timing.", "anchors": ["src/lionherd_core/base/pile.py: include, exclude, __contains__, add, remove"]}
{"id": "C87", "title": "Flow.get_progression accepts an instance, id or name", "statement": "For every progression p stored in a flow, get_progression(p), get_progression(p.id) and get_progression(p.name) return p itself.", "quantifier": "every reachable flow and every stored progression, whatever ids it lists", "why_tests_cant": "The answer for an instance depends on the contents of the progression and on which ids the progression pile has.", "anchors": ["src/lionherd_core/base/flow.py: get_progression", "src/lionherd_core/base/pile.py: __getitem__"]}
{"id": "C88", "title": "Graph built from existing piles is consistent", "statement": "A Graph constructed from (or deserialised with) node and edge piles in which every edge connects given nodes shows exactly these nodes and edges, and afterwards every operation behaves as on a graph built call by call (an edge with a missing end point is accepted silently and breaks later operations).", "quantifier": "every pair of consistent piles, including edges whose end points are missing, and every later history", "why_tests_cant": "Depends on arbitrary piles and on arbitrary later histories.", "anchors": ["src/lionherd_core/base/graph.py: _rebuild_adjacency, remove_edge, is_acyclic"]}
{"id": "C89", "title": "A finished event is in a terminal status", "statement": "Whenever the body of an event has returned, raised an Exception or been cancelled, the status is terminal (not PENDING, not PROCESSING) and the duration is set (after another BaseException such as KeyboardInterrupt it stays PROCESSING).", "quantifier": "every schedule and every way the body can end, including BaseExceptions such as KeyboardInterrupt", "why_tests_cant": "All schedules and all exception objects.", "anchors": ["src/lionherd_core/base/event.py: Event.invoke"]}
{"id": "C90", "title": "add_error never loses an error", "statement": "Execution.add_error(exc) accepts and records every Exception: every exception that was recorded, at any depth of nested groups, is still recorded afterwards, and so is the new one (for a BaseException after an earlier error it raises TypeError).", "quantifier": "every recorded error (none, single, nested groups) and every added exception object", "why_tests_cant": "Groups nest without bound; the exceptions may be of any kind.", "anchors": ["src/lionherd_core/base/event.py: Execution.add_error"]}
{"id": "C91", "title": "The capacity limits overlapping process() calls", "statement": "queue_capacity bounds the number of events started by one process() call also when several process()/forward() calls overlap (for example execute() in the background and forward() in the foreground).", "quantifier": "every interleaving of any number of process() calls", "why_tests_cant": "The capacity is shared mutable state that another call may reset at any await.", "anchors": ["src/lionherd_core/base/processor.py: process, available_capacity, Executor.forward, execute"]}
{"id": "C92", "title": "The processor recovers after a failed process() call", "statement": "After a process() call has ended - normally, by cancellation or by an exception - later process() calls again have the full capacity and process queued events.", "quantifier": "every history of process() calls and every await at which one of them is cancelled", "why_tests_cant": "Depends on the exact point of a cancellation.", "anchors": ["src/lionherd_core/base/processor.py: process (capacity reset after the task group)"]}
{"id": "C93", "title": "Status lists stay consistent under every clean-up", "statement": "The consistency of status lists and stored events (each event under exactly one status, every listed event stored) also survives clean-ups of PENDING or PROCESSING events at any moment.", "quantifier": "every history of executor operations with clean-ups of arbitrary statuses at arbitrary moments", "why_tests_cant": "The clean-up races with events that are queued, held by process() or executing.", "anchors": ["src/lionherd_core/base/processor.py: Executor.cleanup_events, _update_progression, get_events_by_status"]}
{"id": "C94", "title": "A finished event is listed under its final status", "statement": "When an event started by the executor has ended, it is listed under the status it ended with and no other.", "quantifier": "every schedule, every way an event can end, including cancellation of process()", "why_tests_cant": "Depends on the point at which the surrounding task group is cancelled.", "anchors": ["src/lionherd_core/base/processor.py: process (invoke_and_update, consume_stream), Executor._update_progression"]}
{"id": "C95", "title": "EventBus unsubscribe with handlers that define equality", "statement": "unsubscribe(topic, h) removes h's own subscription even when another handler subscribed to the topic compares equal to h.", "quantifier": "every subscription list and every equality relation on handlers", "why_tests_cant": "Tests use functions, which compare by identity.", "anchors": ["src/lionherd_core/base/eventbus.py: unsubscribe"]}
{"id": "C96", "title": "EventBus delivers to bound methods", "statement": "After subscribe(topic, obj.method), emit(topic) runs obj.method as long as obj is alive.", "quantifier": "every history and every object", "why_tests_cant": "Whether the subscription survives depends on object lifetimes, not on values.", "anchors": ["src/lionherd_core/base/eventbus.py: subscribe, emit"]}
{"id": "C97", "title": "EventBus isolates a handler whose call raises", "statement": "If calling one handler raises immediately (for example it does not accept the emitted arguments), the other handlers of the topic still run and emit does not raise.", "quantifier": "every history, every set of failing handlers", "why_tests_cant": "Any subset of handlers may fail at call time.", "anchors": ["src/lionherd_core/base/eventbus.py: emit"]}
{"id": "C98", "title": "Broadcaster treats bound methods like functions", "statement": "Subscribing obj.method twice calls it once per broadcast, unsubscribe(obj.method) removes it, and unsubscribing a callable object does not affect subscriptions of its methods.", "quantifier": "every history with bound methods", "why_tests_cant": "Bound methods are fresh objects on each attribute access, so identity-based bookkeeping depends on how the callback was obtained.", "anchors": ["src/lionherd_core/base/broadcaster.py: subscribe, unsubscribe"]}
{"id": "C99", "title": "Broadcaster subclasses are singletons of their own", "statement": "Constructing a Broadcaster subclass returns an instance of that subclass, and the same one each time, whatever other classes were constructed before or in between.", "quantifier": "every class hierarchy and every sequence of constructions", "why_tests_cant": "The singleton slot is a class attribute looked up along the inheritance chain.", "anchors": ["src/lionherd_core/base/broadcaster.py: Broadcaster.__new__"]}
{"id": "C100", "title": "gather raises when an awaitable ends in cancellation", "statement": "gather without return_exceptions never returns normally when one of its awaitables ended with an exception, including a cancellation exception of its own (for example by awaiting a cancelled task).", "quantifier": "every outcome vector and every schedule", "why_tests_cant": "Cancellation races with the siblings' progress.", "anchors": ["src/lionherd_core/libs/concurrency/_patterns.py: gather"]}
{"id": "C101", "title": "Leaving a CompletionStream early cancels the rest", "statement": "Breaking out of a CompletionStream before it is exhausted cancels the remaining awaitables (documented as early termination).", "quantifier": "every number of awaitables and every point of leaving", "why_tests_cant": "Depends on the schedule at the time of leaving.", "anchors": ["src/lionherd_core/libs/concurrency/_patterns.py: CompletionStream.__aexit__", "docs/api/libs/concurrency/patterns.md"]}
{"id": "C102", "title": "race returns the first completion", "statement": "race(*aws) returns the value, or raises the error, of the awaitable that finished first.", "quantifier": "every number of awaitables, every outcome vector and every completion order", "why_tests_cant": "n! completion orders.", "anchors": ["src/lionherd_core/libs/concurrency/_patterns.py: race"]}
{"id": "C103", "title": "LNDL token columns are 1-indexed", "statement": "Every token's column is the 1-indexed column of its first character in its line.", "quantifier": "every input text", "why_tests_cant": "All texts with any number of lines.", "anchors": ["src/lionherd_core/lndl/lexer.py: Lexer.advance, Token"]}
{"id": "C104", "title": "The closing brace ends the OUT block", "statement": "The fields of an OUT{} block depend only on the text up to its closing brace; text after the brace never contributes fields.", "quantifier": "every text, including blocks with missing values", "why_tests_cant": "All malformed blocks followed by any text.", "anchors": ["src/lionherd_core/lndl/parser.py: Parser.parse_out_block"]}
{"id": "C105", "title": "Rejected LNDL raises ParseError", "statement": "Whenever the parser rejects a text it raises ParseError (with line and column), never another exception.", "quantifier": "every input text", "why_tests_cant": "All malformed texts.", "anchors": ["src/lionherd_core/lndl/parser.py: Parser.parse, parse_out_block"]}
{"id": "C106", "title": "Case-sensitive search returns every candidate above the threshold", "statement": "string_similarity(..., case_sensitive=True) returns every candidate whose case-sensitive score reaches the threshold, as the case-insensitive search does.", "quantifier": "every word, candidate list, scoring function and threshold", "why_tests_cant": "All score vectors; the tests use one good candidate.", "anchors": ["src/lionherd_core/libs/string_handlers/_string_similarity.py: string_similarity"]}
{"id": "C107", "title": "Including no fields selects no fields", "statement": "get_specs(include=S) returns only specs whose name is in S, also when S is empty.", "quantifier": "every operable and include set", "why_tests_cant": "Emptiness of the include set is a data-dependent case.", "anchors": ["src/lionherd_core/types/operable.py: Operable.get_specs"]}
{"id": "C108", "title": "Included fields come in a determined order", "statement": "get_specs(include=S) (and so the generated model) lists the fields in an order determined by the operable and S.", "quantifier": "every include set and every iteration order of it", "why_tests_cant": "Set order depends on hash randomisation.", "anchors": ["src/lionherd_core/types/operable.py: Operable.get_specs, create_model"]}
{"id": "C109", "title": "Actions are for fields their model has", "statement": "A program with an action declared for a field that its model does not have is rejected (or the name corrected).", "quantifier": "every program and mode", "why_tests_cant": "All combinations of declarations and modes.", "anchors": ["src/lionherd_core/lndl/fuzzy.py: parse_lndl_fuzzy", "src/lionherd_core/lndl/resolver.py: resolve_references_prefixed"]}
{"id": "C110", "title": "No reference of a model field is overwritten", "statement": "Each variable or action referenced from a model field of the OUT block arrives in the instance constructed (or an error is raised).", "quantifier": "every OUT block and set of declarations", "why_tests_cant": "All combinations of references.", "anchors": ["src/lionherd_core/lndl/resolver.py: resolve_references_prefixed"]}
{"id": "C111", "title": "The guard covers extra fields", "statement": "A model that passes ensure_no_action_calls holds no ActionCall anywhere, extra fields included.", "quantifier": "every model value", "why_tests_cant": "All nestings and model configurations.", "anchors": ["src/lionherd_core/lndl/types.py: has_action_calls, ensure_no_action_calls"]}
{"id": "C112", "title": "Strict mode corrects nothing", "statement": "With threshold >= 1 parse_lndl_fuzzy accepts a program only if each model and field of its declarations and each OUT field is known exactly, and returns what the strict resolver returns for the program as written.", "quantifier": "every program, operable and similarity", "why_tests_cant": "All programs.", "anchors": ["src/lionherd_core/lndl/fuzzy.py: parse_lndl_fuzzy"]}
{"id": "C113", "title": "Fuzzy matching never changes a correct program", "statement": "A program accepted in strict mode gives the same result with any thresholds.", "quantifier": "every program accepted in strict mode, all thresholds, every similarity function", "why_tests_cant": "All programs and thresholds.", "anchors": ["src/lionherd_core/lndl/fuzzy.py: parse_lndl_fuzzy"]}
{"id": "C114", "title": "The correction has the highest similarity", "statement": "When a name is corrected, no candidate has a higher (case-insensitive) similarity than the one chosen.", "quantifier": "every name, candidate list, threshold and similarity function", "why_tests_cant": "All names with mixed case.", "anchors": ["src/lionherd_core/lndl/fuzzy.py: _correct_name"]}
{"id": "C115", "title": "Capabilities bound the output", "statement": "With capabilities given, each must name a spec of the operable, and the output has fields for capabilities only.", "quantifier": "every program, operable, capability list and thresholds", "why_tests_cant": "All programs and capability lists.", "anchors": ["src/lionherd_core/lndl/fuzzy.py: parse_lndl_fuzzy"]}
{"id": "C116", "title": "Revalidation keeps the other fields", "statement": "revalidate_with_action_results passes the value of every field without action on to validation.", "quantifier": "every model and result map", "why_tests_cant": "All models and field configurations.", "anchors": ["src/lionherd_core/lndl/types.py: revalidate_with_action_results"]}
{"id": "C117", "title": "lcall after an InterruptedError returns what it has", "statement": "When the function raises InterruptedError, lcall calls it on nothing further and returns the results so far, with the requested output options applied.", "quantifier": "every input, interruption point and option combination", "why_tests_cant": "the interruption can come at any element, with any results before it", "anchors": ["src/lionherd_core/ln/_list_call.py: lcall"]}
{"id": "C118", "title": "input_unique is honoured", "statement": "With input_unique=True, lcall calls the function once for each distinct input value (or rejects the option).", "quantifier": "every input and option combination", "why_tests_cant": "quantifies over all inputs and flag combinations", "anchors": ["src/lionherd_core/ln/_list_call.py: lcall", "src/lionherd_core/ln/_to_list.py: to_list"]}
{"id": "C119", "title": "fuzzy_match_keys honours its mode when there are no expected keys", "statement": "With an empty key list, every input key is unexpected: raise mode raises, remove and force return {}, ignore and fill return the input.", "quantifier": "every dict and every mode", "why_tests_cant": "the empty key set is a boundary that tests rarely combine with each mode", "anchors": ["src/lionherd_core/ln/_fuzzy_match.py: fuzzy_match_keys"]}
{"id": "C120", "title": "hash_dict separates different data", "statement": "Two pieces of nested plain data that differ as values (not merely in the order of mapping keys or set members), whose dict keys differ as texts if they differ, have different canonical representations, so they can only be confused by a collision of Python's own hash.", "quantifier": "every pair of nested values", "why_tests_cant": "ranges over pairs of arbitrarily nested values", "anchors": ["src/lionherd_core/ln/_hash.py: hash_dict"]}
{"id": "C121", "title": "Params.with_updates changes exactly the given fields", "statement": "with_updates(k=v, ...) on a Params object gives a new object whose updated fields have the new values and whose other set fields are unchanged; an unknown key is rejected.", "quantifier": "every Params class, object and update set", "why_tests_cant": "all objects and update sets", "anchors": ["src/lionherd_core/types/base.py: Params.with_updates"]}
{"id": "C122", "title": "with_updates keeps the untouched attributes exactly", "statement": "After p.with_updates(...), every field not mentioned has the same value as before, including enum members and sentinel values.", "quantifier": "every configuration, object and update set", "why_tests_cant": "depends on configuration flags that combine with every value", "anchors": ["src/lionherd_core/types/base.py: Params.with_updates, Params.to_dict"]}
{"id": "C123", "title": "with_default replaces the default", "statement": "spec.with_default(v) yields a spec whose created default value is v (or v() when v is callable), whatever default the spec had before.", "quantifier": "every spec and every default value", "why_tests_cant": "all earlier defaults, including falsy ones, and all new ones", "anchors": ["src/lionherd_core/types/spec.py: Spec.with_default, Spec.create_default_value, CommonMeta"]}
{"id": "C124", "title": "annotated() depends only on the spec", "statement": "Spec.annotated() returns the type and metadata of the spec it is called on, whatever specs were annotated before; the cache stays within its size limit.", "quantifier": "every history of annotated() calls", "why_tests_cant": "the cache makes the result depend on the history of the process", "anchors": ["src/lionherd_core/types/spec.py: Spec.annotated"]}
{"id": "C125", "title": "annotated() and annotation describe the same type", "statement": "The type inside annotated() is the spec's annotation.", "quantifier": "every spec", "why_tests_cant": "all combinations of base type and metadata", "anchors": ["src/lionherd_core/types/spec.py: Spec.annotated, Spec.annotation"]}
{"id": "C126", "title": "JSON repairs leave string contents alone", "statement": "When fuzzy_json has to repair a text (quotes, spacing, commas, keys, brackets), the string values it returns are those written in the text.", "quantifier": "every text and every behaviour of the JSON parser", "why_tests_cant": "the repairs are textual substitutions that also reach into string literals", "anchors": ["src/lionherd_core/libs/string_handlers/_fuzzy_json.py: fuzzy_json, _clean_json_string"]}
{"id": "C127", "title": "extract_json finds every fenced block", "statement": "extract_json returns the parsed text if it parses as a whole; otherwise the parsed contents of all ```json blocks, in order, leaving out those that do not parse; an empty result means nothing was found.", "quantifier": "every document of text and fenced blocks, every parser", "why_tests_cant": "documents have any number of blocks with any text between", "anchors": ["src/lionherd_core/libs/string_handlers/_extract_json.py: extract_json"]}
{"id": "C128", "title": "to_num keeps integers of double precision exact", "statement": "to_num(n, num_type=int) is n for every integer n of at most 53 bits (larger ones may be rounded).", "quantifier": "every such integer", "why_tests_cant": "integers are unbounded; the loss starts beyond 53 bits", "anchors": ["src/lionherd_core/libs/string_handlers/_to_num.py: to_num"]}
{"id": "C129", "title": "load_type_from_string is a function of the name", "statement": "Loading the full name of a class defined at module level gives that class; a name not starting with a dot that is not a type of a module raises ValueError; earlier loads never change the result.", "quantifier": "every sequence of loads and every name", "why_tests_cant": "the cache makes the result depend on history", "anchors": ["src/lionherd_core/base/_utils.py: load_type_from_string"]}
{"id": "C130", "title": "Nested Node classes keep their identity through the registry", "statement": "The class tag written by a Node subclass leads back to that class also when classes with equal short names are nested in other classes or functions.", "quantifier": "every sequence of class definitions", "why_tests_cant": "depends on which other classes happen to be loaded", "anchors": ["src/lionherd_core/base/node.py: NODE_REGISTRY, __pydantic_init_subclass__, from_dict"]}
{"id": "C131", "title": "Every element survives to_dict / from_dict", "statement": "Base.from_dict(x.to_dict(meta_key=k), meta_key=k) rebuilds x whatever its class, its metadata and k.", "quantifier": "every element class (also nested ones), metadata and meta_key", "why_tests_cant": "all classes, metadata dictionaries and keys", "anchors": ["src/lionherd_core/base/element.py: to_dict, from_dict", "src/lionherd_core/base/_utils.py: load_type_from_string"]}
{"id": "C132", "title": "Unusable creation times raise ValueError", "statement": "coerce_created_at raises ValueError, and nothing else, for input it cannot convert; an Element constructor reports it as a validation error.", "quantifier": "every input", "why_tests_cant": "all strings and numbers", "anchors": ["src/lionherd_core/base/_utils.py: coerce_created_at", "src/lionherd_core/base/element.py: _coerce_created_at"]}
{"id": "C133", "title": "Node content survives serialisation", "statement": "For every plain data content of a Node, the serialised node restores to a node with equal content.", "quantifier": "every nested content (None, booleans, numbers, strings, lists, dicts)", "why_tests_cant": "Strings that happen to read as JSON, at any depth, are re-parsed on the way.", "anchors": ["src/lionherd_core/base/node.py: _serialize_content", "src/lionherd_core/ln/_to_dict.py: to_dict"]}
{"id": "C134", "title": "Recursive to_dict does not fail on plain data", "statement": "to_dict(x, recursive=True, fuzzy_parse=True) returns a dict for every mapping of plain data, including sets and tuples.", "quantifier": "every nested mapping of plain data", "why_tests_cant": "Nesting and string contents are unbounded.", "anchors": ["src/lionherd_core/ln/_to_dict.py: to_dict, _preprocess_recursive"]}
{"id": "C135", "title": "The JSON serializer chosen for a type does not depend on history", "statement": "For one default function, the serializer used for an object depends only on the object's type, not on the objects serialised before.", "quantifier": "every type hierarchy, every configuration and every history of calls", "why_tests_cant": "The per-type cache makes the function stateful.", "anchors": ["src/lionherd_core/ln/_json_dump.py: get_orjson_default"]}
{"id": "C136", "title": "The leak tracker never blocks the thread that uses it", "statement": "A thread that tracks, untracks and lists resources always makes progress, also when garbage collection destroys tracked objects.", "quantifier": "every schedule of tracker calls and garbage collections in the thread", "why_tests_cant": "The collector runs at arbitrary allocation points.", "anchors": ["src/lionherd_core/libs/concurrency/_resource_tracker.py: LeakTracker"]}
{"id": "C137", "title": "TypeScript rendering never fails on a valid JSON schema", "statement": "typescript_schema returns a text for every schema that JSON Schema allows.", "quantifier": "every schema", "why_tests_cant": "All schema shapes.", "anchors": ["src/lionherd_core/libs/schema_handlers/_typescript.py: typescript_schema, _type_map"]}
{"id": "C138", "title": "A well-formed LNDL document is read back exactly", "statement": "For every text made of prose, <lvar>/<lact> declarations with distinct names, and at most one OUT{} block (arbitrary white space, arbitrary text after the block; prose and contents free of LNDL keywords), lexing and parsing returns exactly the declarations in order, each with its names and its own trimmed content, and exactly the fields of the block with their values.", "quantifier": "every well-formed document, of any length, with any names, contents, white space, string literals, numbers and trailing text", "why_tests_cant": "The space of documents is infinite; lexer, token parser and the regular-expression lookup of contents must agree on all of them.", "anchors": ["src/lionherd_core/lndl/lexer.py: Lexer.tokenize", "src/lionherd_core/lndl/parser.py: Parser.parse"]}
{"id": "C139", "title": "A Flow survives to_dict / from_dict", "statement": "Flow.from_dict(flow.to_dict(mode, meta_key=k), meta_key=k) rebuilds a flow with the same items and progressions in the same order, the same type constraint and name, and the same answer of get_progression for every key.", "quantifier": "every flow reachable by any history of operations, every mode and meta_key", "why_tests_cant": "histories, items and keys are unbounded", "anchors": ["src/lionherd_core/base/flow.py: to_dict, from_dict", "src/lionherd_core/base/pile.py: to_dict, from_dict"]}
{"id": "C140", "title": "The metadata of a Pile survives serialisation unchanged", "statement": "Pile.from_dict(pile.to_dict()) and Element.from_dict(pile.to_dict()) have exactly the metadata of the original.", "quantifier": "every metadata dictionary and progression name", "why_tests_cant": "all dictionaries", "anchors": ["src/lionherd_core/base/pile.py: to_dict, from_dict", "src/lionherd_core/base/element.py: from_dict"]}
{"id": "C141", "title": "fuzzy_validate_pydantic reports failures as ValidationError", "statement": "fuzzy_validate_pydantic returns an instance of the target class or raises ValidationError; only fuzzy_match_params of a wrong type raise TypeError.", "quantifier": "every input, target class, and setting of the flags and parameters", "why_tests_cant": "inputs and texts are unbounded; each step has its own exceptions", "anchors": ["src/lionherd_core/ln/_fuzzy_validate.py: fuzzy_validate_pydantic"]}
{"id": "C142", "title": "Exact field names are validated as they are", "statement": "If the JSON object in the input has only field names of the target class as keys, fuzzy_validate_pydantic gives the same outcome with and without key matching, and validate_response returns exactly the validated object, strict or not, also from a single Markdown block.", "quantifier": "every object, target class, similarity function, set iteration order and text", "why_tests_cant": "all similarity functions and iteration orders", "anchors": ["src/lionherd_core/ln/_fuzzy_validate.py: fuzzy_validate_pydantic", "src/lionherd_core/types/spec_adapters/_protocol.py: SpecAdapter.validate_response", "src/lionherd_core/types/spec_adapters/pydantic_field.py: fuzzy_match_fields"]}
{"id": "C143", "title": "Key matching rejects nothing that is accepted without it", "statement": "If fuzzy_validate_pydantic accepts an input with fuzzy_match=False it accepts it with fuzzy_match=True.", "quantifier": "every input and target class", "why_tests_cant": "all classes, also with aliases and extra fields", "anchors": ["src/lionherd_core/ln/_fuzzy_validate.py: fuzzy_validate_pydantic"]}
{"id": "C144", "title": "The lenient validate_response never raises and never invents data", "statement": "For target classes whose validation raises only ValueError (pydantic's ValidationError included), TypeError, KeyError or AttributeError: validate_response(strict=False) returns an instance or None and never raises. For all classes: strict=True never returns None; a returned instance was validated from the JSON object of the text with keys renamed only to similar missing field names, and strictly with no other keys; sentinels never reach validation.", "quantifier": "every text, target class, similarity function and iteration order", "why_tests_cant": "texts and classes are unbounded", "anchors": ["src/lionherd_core/types/spec_adapters/_protocol.py: SpecAdapter.validate_response, parse_json", "src/lionherd_core/types/spec_adapters/pydantic_field.py: PydanticSpecAdapter.fuzzy_match_fields"]}
{"id": "C145", "title": "update_model changes exactly the given fields", "statement": "update_model(instance, updates) returns an instance with the new values for the updated fields and the old values for all others, for fields that model_dump writes and validation accepts unchanged (a field declared exclude=True falls back to its default).", "quantifier": "every instance, class and update", "why_tests_cant": "all classes and field options", "anchors": ["src/lionherd_core/types/spec_adapters/_protocol.py: SpecAdapter.update_model"]}
{"id": "C146", "title": "fuzzy_validate_mapping raises ValueError when conversion fails", "statement": "fuzzy_validate_mapping raises TypeError for None, matches the keys of the dictionary the input converts to, and for input that cannot be converted raises ValueError, or uses an empty dictionary if suppress_conversion_errors is set.", "quantifier": "every input, key set and option", "why_tests_cant": "all texts and objects", "anchors": ["src/lionherd_core/ln/_fuzzy_validate.py: fuzzy_validate_mapping"]}
{"id": "C147", "title": "The exclude argument of to_dict is honoured", "statement": "x.to_dict(exclude=e) contains a field of x exactly if e does not exclude it, for every element class and every form of e that Element.to_dict accepts.", "quantifier": "every class with its own to_dict, every set of fields and every exclude argument", "why_tests_cant": "all combinations of classes, fields and argument shapes", "anchors": ["src/lionherd_core/base/element.py: to_dict", "src/lionherd_core/base/flow.py: to_dict", "src/lionherd_core/base/graph.py: to_dict", "src/lionherd_core/base/node.py: to_dict", "src/lionherd_core/base/pile.py: to_dict"]}
{"id": "C148", "title": "json_lines_iter writes one JSON document per line", "statement": "Without explicit options, the stream has exactly one line per record in order, each line parses back to its record, and if a record cannot be serialised exactly the lines before it have been produced.", "quantifier": "every sequence of records with any texts inside", "why_tests_cant": "record contents (line breaks, control characters, nesting) are unbounded", "anchors": ["src/lionherd_core/ln/_json_dump.py: json_lines_iter"]}
{"id": "C149", "title": "json_lines_iter keeps one line per record whatever options are given", "statement": "With any orjson options passed in, every record still gives exactly one line.", "quantifier": "every option value and record sequence", "why_tests_cant": "all option combinations", "anchors": ["src/lionherd_core/ln/_json_dump.py: json_lines_iter"]}
{"id": "C150", "title": "deterministic_sets gives the same output for every iteration order", "statement": "With deterministic_sets=True the serialised form of a set depends only on its members, not on the iteration order, if different members differ in class name or normalised text (others come in iteration order).", "quantifier": "every set and every two iteration orders", "why_tests_cant": "iteration order depends on hash seeds and insertion history", "anchors": ["src/lionherd_core/ln/_json_dump.py: _stable_sorted_iterable"]}
{"id": "C151", "title": "Set ordering does not depend on memory addresses", "statement": "The key by which a set member is sorted does not change when the memory address in its text is replaced by another, and texts without an address are used as they are.", "quantifier": "every text, address and position", "why_tests_cant": "addresses differ between processes", "anchors": ["src/lionherd_core/ln/_json_dump.py: _normalize_for_sorting"]}
{"id": "C152", "title": "safe_fallback never raises", "statement": "With safe_fallback=True the default function returns a value for every object and keeps the text within fallback_clip characters.", "quantifier": "every object and clip width", "why_tests_cant": "arbitrary objects and widths", "anchors": ["src/lionherd_core/ln/_json_dump.py: get_orjson_default, _clip"]}
{"id": "C153", "title": "Nested deadlines combine to the earliest one", "statement": "Inside any nesting of fail_after, move_on_after, fail_at, move_on_at and shield blocks that had time left on entry, effective_deadline() is the earliest limit among the blocks up to the innermost shield, and None exactly if none of them has a limit; entering another block never moves it later.", "quantifier": "every nesting of blocks with any limits and entry times", "why_tests_cant": "nestings and times are unbounded", "anchors": ["src/lionherd_core/libs/concurrency/_cancel.py: fail_after, move_on_after, fail_at, move_on_at, effective_deadline"]}
{"id": "C154", "title": "effective_deadline answers None only if there is no limit", "statement": "effective_deadline() returns None only where no deadline applies.", "quantifier": "every nesting of blocks, before and after deadlines pass", "why_tests_cant": "depends on timing and cancellation", "anchors": ["src/lionherd_core/libs/concurrency/_cancel.py: effective_deadline"]}
{"id": "C155", "title": "Timeouts are reported by fail_* and only there", "statement": "A block of fail_after / fail_at that is cut short by its own deadline raises TimeoutError, one of move_on_after / move_on_at ends normally; a cancellation from outside is passed on and never becomes a TimeoutError; otherwise the block ends as its body does.", "quantifier": "every helper, limit, way the body ends and state of the enclosing scopes", "why_tests_cant": "all combinations of nested cancellations", "anchors": ["src/lionherd_core/libs/concurrency/_cancel.py: fail_after, move_on_after, fail_at, move_on_at"]}
{"id": "C156", "title": "Queue is a bounded FIFO queue", "statement": "For every history of put, put_nowait, get, get_nowait, cancellations of blocked calls and closing, items are received in the order put, none lost, duplicated or invented; at most maxsize are stored; a get blocks only if nothing is pending and a put only if the queue is full; blocked calls are served first come first served.", "quantifier": "every history of operations with any number of blocked tasks and every maxsize", "why_tests_cant": "histories and schedules are unbounded", "anchors": ["src/lionherd_core/libs/concurrency/_primitives.py: Queue"]}
{"id": "C157", "title": "Closing a Queue loses no accepted item", "statement": "Items whose put returned before close() can still be received afterwards.", "quantifier": "every history", "why_tests_cant": "histories are unbounded", "anchors": ["src/lionherd_core/libs/concurrency/_primitives.py: Queue.close"]}
{"id": "C158", "title": "run_async returns what the coroutine returns or raises what it raises", "statement": "run_async(coro) returns the coroutine's value, or raises the Exception it ended with (after another BaseException it returns None).", "quantifier": "every way a coroutine ends", "why_tests_cant": "all exceptions, including BaseException", "anchors": ["src/lionherd_core/libs/concurrency/_run_async.py: run_async"]}
{"id": "C159", "title": "Async callables are recognised and awaited", "statement": "is_coro_func tells for every callable whether calling it runs async code, whatever was asked before, and alcall awaits exactly those.", "quantifier": "every callable, every depth of partials, every history of questions", "why_tests_cant": "all callables and histories of the cache", "anchors": ["src/lionherd_core/libs/concurrency/_utils.py: is_coro_func, _is_coro_func", "src/lionherd_core/ln/_async_call.py: alcall"]}
{"id": "C160", "title": "retry_timeout bounds every call", "statement": "With retry_timeout=t, a call of the function by alcall that takes t or longer fails with TimeoutError, a shorter one keeps its outcome.", "quantifier": "every function, duration and timeout", "why_tests_cant": "durations are unbounded", "anchors": ["src/lionherd_core/ln/_async_call.py: alcall", "src/lionherd_core/libs/concurrency/_utils.py: run_sync"]}
{"id": "C161", "title": "Calling a parameter object calls its function with the stored parameters", "statement": "Calling an AlcallParams, ToListParams or FuzzyMatchKeysParams object calls the function so that every argument has the value given in the call, else in the stored kw dictionary, else in the stored kwargs dictionary, else stored under its own name, else the function's default.", "quantifier": "every combination of stored fields, stored kw/kwargs dictionaries and keywords of the call", "why_tests_cant": "combinations of stored and given parameters are unbounded", "anchors": ["src/lionherd_core/types/base.py: Params.default_kw", "src/lionherd_core/ln/_async_call.py: AlcallParams.__call__", "src/lionherd_core/ln/_to_list.py: ToListParams.__call__", "src/lionherd_core/ln/_fuzzy_match.py: FuzzyMatchKeysParams.__call__"]}
{"id": "C162", "title": "Calling a BcallParams object runs bcall", "statement": "Awaiting a call of a BcallParams object gives the batches bcall gives with the stored parameters.", "quantifier": "every stored and given parameter", "why_tests_cant": "all parameters", "anchors": ["src/lionherd_core/ln/_async_call.py: BcallParams.__call__"]}
{"id": "C163", "title": "Declared defaults of Params fields apply", "statement": "A field of a Params subclass that is not given at construction has its declared default.", "quantifier": "every declaration and every set of given fields", "why_tests_cant": "all declarations", "anchors": ["src/lionherd_core/types/base.py: Params.__init__, Params._validate", "src/lionherd_core/ln/_fuzzy_match.py: FuzzyMatchKeysParams"]}
{"id": "C164", "title": "Instances of Params and DataClass subclasses are hashable by content", "statement": "hash() of an instance never raises and is the same for instances with equal fields, whatever values the fields hold.", "quantifier": "every chain of decorated subclasses and every field values", "why_tests_cant": "all class chains and values", "anchors": ["src/lionherd_core/types/base.py: Params.__hash__, DataClass.__hash__"]}
{"id": "C165", "title": "DataClass.with_updates changes exactly the given fields", "statement": "with_updates(**kw) returns an object whose to_dict shows the given values for the given fields and the old ones for all others.", "quantifier": "every declaration, instance and set of updates", "why_tests_cant": "all declarations and updates", "anchors": ["src/lionherd_core/types/base.py: DataClass.with_updates"]}
{"id": "C166", "title": "HashableModel.to_dict contains exactly the fields asked for", "statement": "to_dict(mode, include=..., exclude=...) contains exactly the fields selected by include and exclude that hold no sentinel, in both modes.", "quantifier": "every model, mode and selection", "why_tests_cant": "all selections and field values", "anchors": ["src/lionherd_core/types/model.py: HashableModel.to_dict, _to_dict"]}
{"id": "C167", "title": "HashableModel.to_json is deterministic", "statement": "Two models with the same content have the same to_json text, whatever the order in which dict entries were added or sets are iterated.", "quantifier": "every nested field value", "why_tests_cant": "iteration orders differ between runs", "anchors": ["src/lionherd_core/types/model.py: HashableModel.to_json"]}
{"id": "C168", "title": "to_dict(mode=json) shows the data of to_dict()", "statement": "to_dict(mode='json') succeeds whenever to_dict() shows JSON data and shows the same data, with tuples and sets as lists.", "quantifier": "every nested field value", "why_tests_cant": "unbounded nesting", "anchors": ["src/lionherd_core/types/model.py: HashableModel.to_dict, to_json"]}
{"id": "C169", "title": "HashableModel survives to_dict / from_dict", "statement": "from_dict(m.to_dict()) has the fields of m.", "quantifier": "every class and instance", "why_tests_cant": "all classes and values", "anchors": ["src/lionherd_core/types/model.py: HashableModel.to_dict, from_dict"]}
{"id": "C170", "title": "Equal HashableModels have equal hashes", "statement": "Models that compare equal have the same hash, and hash() never raises.", "quantifier": "every pair of models", "why_tests_cant": "all nested values and iteration orders", "anchors": ["src/lionherd_core/types/model.py: HashableModel.__hash__", "src/lionherd_core/ln/_hash.py: hash_dict"]}
{"id": "C171", "title": "is_sentinel identifies exactly the sentinels", "statement": "is_sentinel(v, none_as_sentinel, empty_as_sentinel) is true exactly for Undefined and Unset, for None if asked and for empty values if asked; not_sentinel is its negation; neither raises, except with empty_as_sentinel for values whose == has no truth value.", "quantifier": "every value and flags", "why_tests_cant": "all values", "anchors": ["src/lionherd_core/types/_sentinel.py: is_sentinel, not_sentinel"]}
{"id": "C172", "title": "Undefined and Unset are unique objects", "statement": "Every call of their classes, every copy, deep copy and unpickled value is the same object, in any number of threads.", "quantifier": "every schedule of threads", "why_tests_cant": "schedules are unbounded", "anchors": ["src/lionherd_core/types/_sentinel.py: _SingletonMeta.__call__, __copy__, __deepcopy__, __reduce__"]}
{"id": "C173", "title": "A SingletonType class has one instance", "statement": "All calls of one class return the same object, those of different classes different ones.", "quantifier": "every schedule of threads", "why_tests_cant": "races depend on the schedule", "anchors": ["src/lionherd_core/types/_sentinel.py: _SingletonMeta.__call__"]}
{"id": "C174", "title": "Generated models use the default of the spec", "statement": "A field missing in the input gets the value spec.create_default_value() gives; without default it is None if nullable and required otherwise; a field can be made from every spec.", "quantifier": "every spec", "why_tests_cant": "all combinations of metadata", "anchors": ["src/lionherd_core/types/spec_adapters/pydantic_field.py: PydanticSpecAdapter.create_field", "src/lionherd_core/types/spec.py: Spec.create_default_value"]}
{"id": "C175", "title": "Metadata of a spec reach the field", "statement": "Every further metadata entry is passed on as field parameter or as extra schema entry, with its value.", "quantifier": "every spec", "why_tests_cant": "all metadata combinations and orders", "anchors": ["src/lionherd_core/types/spec_adapters/pydantic_field.py: PydanticSpecAdapter.create_field"]}
{"id": "C176", "title": "Making a field leaves the spec unchanged", "statement": "create_field changes no metadata of the spec.", "quantifier": "every spec", "why_tests_cant": "aliasing", "anchors": ["src/lionherd_core/types/spec_adapters/pydantic_field.py: PydanticSpecAdapter.create_field"]}
{"id": "C177", "title": "create_model makes the selected fields and validators", "statement": "The model has exactly the fields of the base class and of the selected named specs, as create_field makes them, and their validators.", "quantifier": "every base class and selection of specs", "why_tests_cant": "all selections", "anchors": ["src/lionherd_core/types/spec_adapters/pydantic_field.py: PydanticSpecAdapter.create_model, create_validator"]}
{"id": "C178", "title": "as_fresh_event keeps the streaming flag", "statement": "A fresh copy of a streaming event is a streaming event.", "quantifier": "every event", "why_tests_cant": "the flag is excluded from serialisation", "anchors": ["src/lionherd_core/base/event.py: Event.as_fresh_event, streaming"]}
{"id": "C179", "title": "Every option combination lcall accepts works", "statement": "Whatever combination of output options passes lcall's validation, the call does not fail because of the options after running the function.", "quantifier": "every combination of options and every input", "why_tests_cant": "all combinations on all inputs", "anchors": ["src/lionherd_core/ln/_list_call.py: lcall"]}
{"id": "C180", "title": "get_bins returns no empty bin", "statement": "No bin returned by get_bins is empty.", "quantifier": "every list of items and bound", "why_tests_cant": "all lists and bounds", "anchors": ["src/lionherd_core/ln/_utils.py: get_bins"]}
{"id": "C181", "title": "Pile.include and exclude report success under contention", "statement": "When several threads call include(x) (or exclude(x)) concurrently, each call returns True.", "quantifier": "every number of threads and every interleaving", "why_tests_cant": "schedules", "anchors": ["src/lionherd_core/base/pile.py: Pile.include, Pile.exclude"]}
{"id": "C182", "title": "Methods under one lock appear to happen one after the other", "statement": "When several threads call synchronized methods of one object, there is at every moment one order of the calls that respects each thread's program order and the real-time order of calls, explains every result the threads have received, and gives the state of the object whenever no call is in progress.", "quantifier": "every number of threads, every list of calls per thread, every interleaving of the single steps, every method body built from reads, writes and nested with-blocks", "why_tests_cant": "schedules cannot be enumerated", "anchors": ["src/lionherd_core/base/_utils.py: synchronized", "src/lionherd_core/base/pile.py: Pile", "src/lionherd_core/base/graph.py: Graph"]}
{"id": "C183", "title": "Synchronized methods do not deadlock", "statement": "From every state that threads calling synchronized methods of a graph, a flow or a pile can reach, all calls can still be completed; some thread that is not done can always move.", "quantifier": "every number of threads, list of calls and interleaving", "why_tests_cant": "schedules", "anchors": ["src/lionherd_core/base/_utils.py: synchronized", "src/lionherd_core/base/graph.py: Graph", "src/lionherd_core/base/flow.py: Flow"]}
{"id": "C184", "title": "A graph changed by several threads stays a graph", "statement": "Threads call add_node, remove_node, add_edge and remove_edge on one graph: the calls appear to happen one after the other with the results of the directed-graph specification, and whenever no call is in progress every edge connects nodes of the graph.", "quantifier": "every number of threads, list of calls and interleaving, starting with an empty graph", "why_tests_cant": "schedules", "anchors": ["src/lionherd_core/base/graph.py: Graph.add_node, remove_node, add_edge, remove_edge"]}
{"id": "C185", "title": "Graph queries are safe while other threads change the graph", "statement": "get_predecessors of a node that stays in the graph does not raise, whatever other threads do to the graph meanwhile; it returns nodes of the graph.", "quantifier": "every number of threads, list of calls and interleaving", "why_tests_cant": "schedules", "anchors": ["src/lionherd_core/base/graph.py: Graph.get_predecessors"]}
{"id": "C186", "title": "A flow changed by several threads keeps its references intact", "statement": "Whatever add_progression, remove_progression, add_item and remove_item calls several threads make on one flow, every id listed by one of its progressions is the id of one of its items.", "quantifier": "every number of threads, list of calls and interleaving", "why_tests_cant": "schedules", "anchors": ["src/lionherd_core/base/flow.py: Flow.add_progression, add_item, remove_item"]}
{"id": "C187", "title": "A pile used by several threads behaves like a list of items", "statement": "Threads call add, remove, pop, get, update, clear, in, len and pile[i] on one pile: the calls appear to happen one after the other with the results of the ordered-map specification, and whenever no call is in progress iteration, length and keys show the items that this order leaves.", "quantifier": "every number of threads, list of calls and interleaving, every initial content and type constraint", "why_tests_cant": "schedules", "anchors": ["src/lionherd_core/base/pile.py: Pile.add, remove, pop, get, update, clear, __contains__, __len__, __getitem__"]}
{"id": "C188", "title": "Iterating over a pile is safe while other threads change it", "statement": "Iterating over a pile does not raise, whatever other threads do to the pile meanwhile, and yields every item that is in the pile from beginning to end.", "quantifier": "every number of threads, list of calls and interleaving", "why_tests_cant": "schedules", "anchors": ["src/lionherd_core/base/pile.py: Pile.__iter__"]}
{"id": "C189", "title": "The progression methods of a flow are atomic", "statement": "Threads call add_progression, remove_progression and get_progression on one flow: the calls appear to happen one after the other, all of them can be completed, and whenever no call is in progress the progressions list only items of the flow.", "quantifier": "every number of threads, list of calls and interleaving, every constructed flow", "why_tests_cant": "schedules", "anchors": ["src/lionherd_core/base/flow.py: Flow.add_progression, remove_progression, get_progression"]}
{"id": "C190", "title": "An embedding is absent or a non-empty list of floats", "statement": "Whatever is passed as the embedding of a node, the node has none exactly if None was passed; otherwise it has the float values of the given list, or of the list a given JSON text denotes, in order, and that list is not empty. Every such list of numbers is accepted and nothing else is.", "quantifier": "every value: None, text, lists of any length of ints, floats, booleans and other objects", "why_tests_cant": "unbounded lists and texts", "anchors": ["src/lionherd_core/base/node.py: Node._validate_embedding"]}
{"id": "C191", "title": "A rejected embedding raises ValidationError", "statement": "Whatever is passed as the embedding of a node, the constructor succeeds or raises pydantic's ValidationError.", "quantifier": "every value", "why_tests_cant": "unbounded lists; corner values", "anchors": ["src/lionherd_core/base/node.py: Node._validate_embedding"]}
{"id": "C192", "title": "Embeddings of finite floats survive serialisation", "statement": "A node with an embedding of finite floats, written by to_dict in any mode with any embedding_format and any context other than None and read by from_dict, has the same embedding.", "quantifier": "every embedding of finite floats, mode, format and context", "why_tests_cant": "unbounded lists", "anchors": ["src/lionherd_core/base/node.py: Node._validate_embedding", "src/lionherd_core/base/node.py: Node._serialize_embedding", "src/lionherd_core/base/node.py: Node.to_dict"]}
{"id": "C193", "title": "Serialising a node leaves the context alone", "statement": "to_dict accepts any context that model_dump accepts and does not change the dictionary passed in.", "quantifier": "every context dictionary, embedding_format and mode", "why_tests_cant": "a caller's dictionary is shared state; tests rarely look at it afterwards", "anchors": ["src/lionherd_core/base/node.py: Node.to_dict"]}
{"id": "C194", "title": "A content serializer takes effect once", "statement": "With content_serializer, to_dict puts the serializer's result in the content entry; the serializer is called once per to_dict, and its failure is reported as ValueError.", "quantifier": "every serializer (also with state), content and mode", "why_tests_cant": "serializers with state", "anchors": ["src/lionherd_core/base/node.py: Node.to_dict"]}
{"id": "C195", "title": "A created path lies in the given directory", "statement": "The path acreate_path returns is inside the directory passed in.", "quantifier": "every directory, file name and extension", "why_tests_cant": "unbounded names", "anchors": ["src/lionherd_core/ln/_utils.py: acreate_path"]}
{"id": "C196", "title": "A created file name consists of the parts asked for", "statement": "The last segment of the path acreate_path returns is the name asked for, then (or before it) the timestamp, then the random digits, then the extension found in the name or else the one given, and nothing else, for names not ending with a dot and timestamp formats without directory separators (a name ending with a dot loses the dot and ignores the extension given).", "quantifier": "every such name, extension, format, number of digits and clock", "why_tests_cant": "combinations", "anchors": ["src/lionherd_core/ln/_utils.py: acreate_path"]}
{"id": "C197", "title": "A backslash in a file name is refused", "statement": "acreate_path raises ValueError if the file name contains a backslash.", "quantifier": "every file name", "why_tests_cant": "unbounded names", "anchors": ["src/lionherd_core/ln/_utils.py: acreate_path"]}
{"id": "C198", "title": "acreate_path returns a free path and creates only directories", "statement": "If acreate_path succeeds, the parent directory of the result exists, nothing exists at the result unless file_exist_ok, only missing ancestors of the parent were created and nothing else changed; otherwise it raises FileExistsError, ValueError or the time-out error and the file system has at most gained those directories.", "quantifier": "every file system state, arguments and time-out", "why_tests_cant": "file system states", "anchors": ["src/lionherd_core/ln/_utils.py: acreate_path"]}
{"id": "C199", "title": "import_module returns what was asked for", "statement": "import_module returns the module, or the attribute asked for, or the attributes asked for in order; if the module or an attribute is missing it raises ImportError.", "quantifier": "every set of importable modules, package, module name and list of attributes", "why_tests_cant": "depends on what is installed", "anchors": ["src/lionherd_core/ln/_utils.py: import_module"]}
{"id": "C200", "title": "parse_lndl gives what the document says", "statement": "For a well-formed LNDL document, parse_lndl returns exactly the fields of its output block, in order: for a scalar field the literal or the content of the referenced variable, converted; for a model field an instance built from the referenced variables and actions; for a reference to an action the pending call. It accepts every document for which these values exist and every required field is present, there is at most one such value, its actions are the referenced ones, and a document without an output block raises MissingOutBlockError.", "quantifier": "every document written with any number of declarations and fields, any free text, spacing, names and contents, every operable, every conversion and validator", "why_tests_cant": "unbounded documents", "anchors": ["src/lionherd_core/lndl/resolver.py: parse_lndl", "src/lionherd_core/lndl/parser.py: Parser.parse", "src/lionherd_core/lndl/lexer.py: Lexer.tokenize"]}
{"id": "C201", "title": "The fuzzy parser leaves correct documents alone", "statement": "If parse_lndl_fuzzy accepts a well-formed document in strict mode, it returns the same output with any thresholds; this is the output of parse_lndl, and what the document says.", "quantifier": "every document written with any number of declarations and fields, any free text, spacing, names and contents, every operable, every conversion and validator, all thresholds", "why_tests_cant": "unbounded documents", "anchors": ["src/lionherd_core/lndl/fuzzy.py: parse_lndl_fuzzy"]}
{"id": "C202", "title": "The execution of an event is written as documented", "statement": "to_dict of an event in python mode succeeds and has the status, the duration, the error and the retryable flag, each None if not set; the response is None if not set, plain data as they are, something JSON can encode for every other value that can be encoded or converted, and the marker '<unserializable>' otherwise.", "quantifier": "every execution: any status, duration, nested response, exception (also groups) and retryable flag", "why_tests_cant": "unbounded nested responses and exception groups", "anchors": ["src/lionherd_core/base/event.py: Execution.to_dict", "src/lionherd_core/base/_utils.py: get_json_serializable", "src/lionherd_core/base/event.py: Event._serialize_execution"]}
{"id": "C203", "title": "An event can be written in mode json whatever it returned or raised", "statement": "to_dict(mode='json') of an event succeeds for every response and every exception.", "quantifier": "every execution: any status, duration, nested response, exception (also groups) and retryable flag", "why_tests_cant": "unbounded nested responses and exception groups", "anchors": ["src/lionherd_core/base/event.py: Execution.to_dict", "src/lionherd_core/base/_utils.py: get_json_serializable", "src/lionherd_core/base/event.py: Event._serialize_execution"]}
{"id": "C204", "title": "An event survives to_dict and from_dict", "statement": "An event written by to_dict and read by from_dict has the same execution and can be written again.", "quantifier": "every execution: any status, duration, nested response, exception (also groups) and retryable flag, both modes", "why_tests_cant": "unbounded nested responses; every stage of the life cycle", "anchors": ["src/lionherd_core/base/event.py: Execution.to_dict", "src/lionherd_core/base/_utils.py: get_json_serializable", "src/lionherd_core/base/event.py: Event._serialize_execution", "src/lionherd_core/base/element.py: Element.from_dict"]}
{"id": "C205", "title": "The class name is taken from the title of the schema", "statement": "The name load_pydantic_model_from_schema uses is the title without the characters that an ASCII identifier may not have, provided that what remains starts with a letter, and otherwise the name passed in; titles that are identifiers are used unchanged.", "quantifier": "every title and name", "why_tests_cant": "unbounded texts", "anchors": ["src/lionherd_core/libs/schema_handlers/_schema_to_model.py: _sanitize_model_name", "src/lionherd_core/libs/schema_handlers/_schema_to_model.py: _extract_model_name_from_schema"]}
{"id": "C206", "title": "The returned class is the one generated from the schema", "statement": "load_pydantic_model_from_schema returns the class that was generated for the schema, with the name of the title or the name passed in.", "quantifier": "every schema, name and generated module", "why_tests_cant": "depends on what the code generator writes", "anchors": ["src/lionherd_core/libs/schema_handlers/_schema_to_model.py: load_pydantic_model_from_schema", "src/lionherd_core/libs/schema_handlers/_schema_to_model.py: _extract_model_class"]}
{"id": "C207", "title": "Only documented exceptions come from the schema loader", "statement": "load_pydantic_model_from_schema raises only ImportError (generator missing), ValueError (invalid schema), TypeError (wrong type of schema) and RuntimeError (generation or loading failed).", "quantifier": "every schema, name and behaviour of the code generator", "why_tests_cant": "depends on what the code generator writes", "anchors": ["src/lionherd_core/libs/schema_handlers/_schema_to_model.py: load_pydantic_model_from_schema"]}
{"id": "C208", "title": "The schema loader writes only in its temporary directory", "statement": "The file load_pydantic_model_from_schema generates lies directly in its temporary directory.", "quantifier": "every schema, name and hash", "why_tests_cant": "unbounded names", "anchors": ["src/lionherd_core/libs/schema_handlers/_schema_to_model.py: load_pydantic_model_from_schema"]}
{"id": "C209", "title": "Elements are written in the documented form", "statement": "to_dict returns exactly the id, the creation time, the metadata and the fields of the class: the id as an id in python mode and as text otherwise; the creation time as asked for by created_at_format (if nothing is asked for: an object in python and db mode, the ISO text in json mode); the metadata, with the class name added, under meta_key if given and not empty, otherwise under node_metadata in db mode and under metadata in the other modes. It fails only if a datetime object is asked for in json mode, with ValueError.", "quantifier": "every class, element, mode, format and key", "why_tests_cant": "all elements and all combinations of options", "anchors": ["src/lionherd_core/base/element.py: Element.to_dict", "src/lionherd_core/base/element.py: Element._to_dict"]}
{"id": "C210", "title": "Exactly the data that fit make an element", "statement": "Model validation accepts data exactly if they have no unknown key, the id is an id or the text of one, the creation time can be read and every field of the class is acceptable or has a default; absent ids and times are generated, metadata that are None or empty become an empty dictionary. Everything else raises a validation error (or the exception of an infinite creation time, see C132).", "quantifier": "every class and all data", "why_tests_cant": "all dictionaries", "anchors": ["src/lionherd_core/base/element.py: Element", "src/lionherd_core/base/element.py: Element._validate_meta_integrity", "src/lionherd_core/base/element.py: Element._coerce_created_at", "src/lionherd_core/base/element.py: Element._coerce_id"]}
{"id": "C211", "title": "The class tag decides which class reads the data", "statement": "from_dict builds an element of the class itself if the data have no tag, an empty one or its own name; otherwise Element.from_dict builds the class importable under that name (ValueError if there is none, TypeError if the name starts with a dot followed by another) and Node.from_dict the class registered under that name or its last part (itself if there is none). A tag that is not a text is refused. The tag does not reach the metadata of the element.", "quantifier": "every class, registry and all data", "why_tests_cant": "all dictionaries, class hierarchies and registries", "anchors": ["src/lionherd_core/base/element.py: Element.from_dict", "src/lionherd_core/base/node.py: Node.from_dict"]}
{"id": "C212", "title": "process() returns only when its events have ended", "statement": "When a call of process() has returned, none of the events it has started is still executing.", "quantifier": "every interleaving of appends, starts, process calls, cancellations, permissions, event ends, stops and clean-ups", "why_tests_cant": "all schedules", "anchors": ["src/lionherd_core/base/processor.py: Processor.process"]}
{"id": "C213", "title": "A pile survives every mode and metadata key", "statement": "Pile.from_dict(pile.to_dict(mode, meta_key=k, item_meta_key=i), meta_key=k, item_meta_key=i) rebuilds a pile with the same items in the same order, the same type constraint, strictness and name.", "quantifier": "every pile reachable by any history (non-empty constraint set, name not empty, no metadata entry progression_name), every mode, all keys that are not names of other fields", "why_tests_cant": "histories, items and keys are unbounded", "anchors": ["src/lionherd_core/base/pile.py: Pile.to_dict", "src/lionherd_core/base/pile.py: Pile.from_dict"]}
{"id": "C214", "title": "A graph survives every mode and metadata key", "statement": "Graph.from_dict(graph.to_dict(mode, meta_key=k, item_meta_key=i), meta_key=k, item_meta_key=i) rebuilds a graph with the same nodes and edges in the same order.", "quantifier": "every graph reachable by any history, every mode, all keys that are not names of other fields", "why_tests_cant": "histories and keys are unbounded", "anchors": ["src/lionherd_core/base/graph.py: Graph.to_dict", "src/lionherd_core/base/graph.py: Graph.from_dict"]}
{"id": "C215", "title": "Fuzzy parsing is strict parsing of the corrected program", "statement": "With a threshold below 1, parse_lndl_fuzzy returns exactly what the strict resolver returns for the corrected program: every model, field, OUT name and reference replaced by its correction (an exact name, else the one sufficiently similar candidate that leads all others), values, raw lvars, literals and everything else kept. The correction is unique, and it is missing exactly if some name has no correction.", "quantifier": "every parsed program, set of specs, operable name, thresholds below 1 and similarity function", "why_tests_cant": "programs, specs and names are unbounded", "anchors": ["src/lionherd_core/lndl/fuzzy.py: parse_lndl_fuzzy", "src/lionherd_core/lndl/fuzzy.py: _correct_name"]}
{"id": "C216", "title": "Default thresholds of fuzzy parsing", "statement": "Without a threshold of its own for model names, a model name is only replaced by one whose case-insensitive similarity is at least 0.9 and at least the global threshold, however low the latter is; without thresholds of their own, fields and OUT names are only replaced by names at least as similar as the global threshold.", "quantifier": "every parsed program, set of specs and global threshold", "why_tests_cant": "names are unbounded", "anchors": ["src/lionherd_core/lndl/fuzzy.py: parse_lndl_fuzzy"]}
{"id": "C217", "title": "fuzzy_json repairs text token by token", "statement": "If orjson refuses a text made of brackets, commas, colons, strings, bare words and white space, fuzzy_json parses the text in which exactly the following is changed: single quotes become double quotes, white space becomes one blank, commas before a closing bracket disappear, bare words in key position get quotes, white space at the ends disappears and missing closing brackets are appended.", "quantifier": "every such text, every nesting and every behaviour of the JSON parser", "why_tests_cant": "the repairs are regular-expression substitutions on unbounded text", "anchors": ["src/lionherd_core/libs/string_handlers/_fuzzy_json.py: fuzzy_json, _clean_json_string"]}
{"id": "C218", "title": "JSON text is read back as the value written", "statement": "The text that json_dumps, json_dumpb, json_lines_iter and json_dict produce for a JSON value, compact or indented, is read back by a JSON reader as exactly that value, with any white space around it; and the reader accepts a text exactly when it is derivable in the JSON grammar, with the value the grammar gives it.", "quantifier": "every JSON value (any nesting, any string contents, any number text), both layouts, every text offered to the reader", "why_tests_cant": "strings, nesting and texts are unbounded; tests compare a few literals", "anchors": ["src/lionherd_core/ln/_json_dump.py: json_dumps, json_dumpb, json_dict, json_lines_iter"]}
{"id": "C219", "title": "Progression answers like a list of ids", "statement": "Progression(order=items) holds the ids of the items in order; append and extend add at the end in order; remove deletes the first occurrence; `in` is occurrence; index is the first position; reading a slice gives the ids at the positions Python's slice rules pick, and assigning a list to a slice replaces exactly those; each fails with ValueError exactly for an item without an id, an absent id, a zero step or a wrong number of items (TypeError for a value that is not a list), and a failed call other than extend changes nothing.", "quantifier": "every progression (duplicates allowed), every item list, every slice (any start, stop and step, absent, negative or out of range)", "why_tests_cant": "lengths, multiplicities and slice bounds are unbounded; slices have eight sign and clipping cases each", "anchors": ["src/lionherd_core/base/progression.py: Progression._validate_order, append, extend, remove, __contains__, index, __getitem__, __setitem__"]}
{"id": "C220", "title": "Extending a progression by a progression adds its ids once", "statement": "p.extend(q) returns with the ids of q added to p in order, for every two progressions p and q, also if they are the same object.", "quantifier": "every two progressions, every length", "why_tests_cant": "the loop reads a live iterator of a list that may be the one being extended; only unbounded execution shows that it never stops", "anchors": ["src/lionherd_core/base/progression.py: Progression.extend, Progression.__iter__"]}
{"id": "C221", "title": "A CompletionStream never loses a failure or hands out a wrong result", "statement": "Inside `async with CompletionStream(aws, limit=...)` each result handed out is the value of its awaitable, none is handed out twice, and an iteration that reaches its end has handed out all of them. If no awaitable ends in a cancellation of its own, the statement ends without raising only when every awaitable ended with a value; otherwise it raises an exception group, at most one failure per awaitable, the first being the failure that stopped the others; after a failure no further result is handed out. A positive limit bounds the running awaitables, and the statement can always come to its end.", "quantifier": "every number of awaitables, every limit, every outcome of each (value, exception, base exception, cancellation), every schedule, every reaction to cancellation, every point at which the consumer stops", "why_tests_cant": "orders of completion, failure and cancellation against the consumer are unbounded in number", "anchors": ["src/lionherd_core/libs/concurrency/_patterns.py: CompletionStream"]}
{"id": "C222", "title": "A Spec accepts exactly consistent metadata and has the default it says", "statement": "Spec(base, *metas, metadata=..., **kw) succeeds exactly if no key is given twice, there are not both a truthy default and a truthy default_factory, a truthy factory is callable, validators are callables, a given name is a non-empty string and a given base is a type; it then holds the entries in order. Otherwise it raises: an exception group if only the constraints between common keys fail, ValueError else. create_default_value() returns the default, or calls the factory; it raises ValueError if there is no default or the factory is async, TypeError if there is a callable factory besides a default that cannot be called; acreate_default_value() calls async factories too. metadict() has exactly the entries not excluded.", "quantifier": "every base, every list of metadata from the three sources, every spec", "why_tests_cant": "combinations of common keys with truthy, falsy, callable and other values are not enumerable", "anchors": ["src/lionherd_core/types/spec.py: CommonMeta.prepare, CommonMeta._validate_common_metas, Spec.__init__, Spec.create_default_value, Spec.acreate_default_value, Spec.metadict"]}
{"id": "C223", "title": "to_dict returns a dict, kind by kind", "statement": "to_dict(x) returns a dict: a mapping as it is, the members of an Enum class, {} for None and \"\", {v: v} for a set, positions to items for a list, tuple or frozenset, what a text parses to, what an object's own mapping is. It raises ValueError for a text that does not parse or a depth outside 0..10, and TypeError for a value with no dict form; with suppress=True it never raises and returns {} instead. With recursive=True a text above the depth limit is replaced by what it parses to (or stays if it does not parse), and an object by its mapping unless recursive_python_only.", "quantifier": "every value, nesting, depth and combination of options", "why_tests_cant": "the values and nestings are unbounded", "anchors": ["src/lionherd_core/ln/_to_dict.py: to_dict, _convert_top_level_to_dict, _preprocess_recursive"]}
{"id": "C224", "title": "The parser given to to_dict reads every text", "statement": "With parser=p, to_dict uses p to read the text it is given and, with recursive=True, every text nested inside above the depth limit.", "quantifier": "every parser, every nested value, every depth", "why_tests_cant": "every place in every nesting, and every parser", "anchors": ["src/lionherd_core/ln/_to_dict.py: to_dict, _parse_str, _preprocess_recursive"]}
{"id": "C225", "title": "Every get on a Queue ends at most once, and a closed queue keeps nobody waiting", "statement": "A get on a Queue either has ended (with one item, or with one exception) exactly once, or is still waiting; it never ends twice. Cancelling a waiting get ends it with an exception, and cancelling any other changes nothing. After the sending side is closed no get waits and every put is refused; after the receiving side is closed every get fails, every put is refused and no put waits.", "quantifier": "every buffer size and every history of put, put_nowait, get, get_nowait, cancellations and closing", "why_tests_cant": "the interleavings of waiting producers, consumers, cancellations and close are unbounded", "anchors": ["src/lionherd_core/libs/concurrency/_primitives.py: Queue"]}
{"id": "C226", "title": "Loading a Pile from a dict checks all classes first, then loads all items or fails", "statement": "Pile.from_dict(d) raises ValueError if a name in item_type cannot be loaded; otherwise TypeError if any item declares a class outside the constraint, before any item is built and whatever the other items are; otherwise the exception of the first item that cannot be built, or TypeError/ExistsError for the first item that breaks the constraint or repeats an id; otherwise it returns a pile with exactly these items in this order, this constraint, strictness and progression name.", "quantifier": "every dict with any number of items, every class hierarchy, every way of building items", "why_tests_cant": "every position of a failing item among any number of items, every class hierarchy", "anchors": ["src/lionherd_core/base/pile.py: from_dict"]}
{"id": "C227", "title": "find_path stays correct while other tasks change the graph during an awaited condition", "statement": "While find_path(a, b, check_conditions=True) awaits a condition, other tasks of the event loop may call add_node, remove_node, add_edge and remove_edge on the same graph. As long as no edge id is reused for a different edge, a returned path is a walk from a to b along edges that are in the graph at the moment of return, each of whose conditions answered yes during the call. If the other tasks only add, None is returned only if every walk from a to b in the graph at the start uses an edge whose condition answered no, and the search itself raises nothing but RuntimeError, and that only after an edge was added. (It may raise RuntimeError after an addition at the node being expanded, NotFoundError or KeyError after removals, although a path exists.)", "quantifier": "every graph history, every pair of nodes, every iteration order, every interleaving of calls of other tasks with the awaited conditions, every answer of the conditions", "why_tests_cant": "every interleaving of an unbounded search with an unbounded number of calls of other tasks", "anchors": ["src/lionherd_core/base/graph.py: Graph.find_path", "src/lionherd_core/base/graph.py: Edge.check_condition"]}
{"id": "C228", "title": "Similarity scores are symmetric and 1 only for equal strings", "statement": "In exact arithmetic each of the Levenshtein, Hamming, Jaro, Jaro-Winkler and cosine similarity scores does not depend on the order of its two arguments. Levenshtein and Jaro similarity are 1 exactly when the strings are identical, Jaro-Winkler too if its scaling is below 1/4, Hamming similarity exactly when they are identical and not empty. Cosine similarity is 1 exactly when both strings are non-empty and use the same set of characters.", "quantifier": "every pair of strings, every scaling in [0, 1/4)", "why_tests_cant": "the greedy character matching of Jaro treats its two arguments differently; a test compares finitely many pairs", "anchors": ["src/lionherd_core/libs/string_handlers/_string_similarity.py: levenshtein_similarity", "src/lionherd_core/libs/string_handlers/_string_similarity.py: hamming_similarity", "src/lionherd_core/libs/string_handlers/_string_similarity.py: cosine_similarity", "src/lionherd_core/libs/string_handlers/_string_similarity.py: jaro_similarity", "src/lionherd_core/libs/string_handlers/_string_similarity.py: jaro_winkler_similarity"]}
{"id": "C229", "title": "Exact values of the similarity scores", "statement": "In exact arithmetic: Levenshtein similarity is 1 minus the edit distance over the longer length (0 if exactly one string is empty); Hamming similarity is the fraction of positions that agree (0 for different lengths or empty strings); the square of cosine similarity is |I|^2/(|A||B|) for the character sets A, B and their intersection I (0 if a string is empty); Jaro similarity is computed from the unique stable matching of equal characters within the window, from the fraction of matched characters in both strings and half the out-of-order ones.", "quantifier": "every pair of strings", "why_tests_cant": "values for all pairs of strings", "anchors": ["src/lionherd_core/libs/string_handlers/_string_similarity.py: levenshtein_similarity", "src/lionherd_core/libs/string_handlers/_string_similarity.py: hamming_similarity", "src/lionherd_core/libs/string_handlers/_string_similarity.py: cosine_similarity", "src/lionherd_core/libs/string_handlers/_string_similarity.py: jaro_similarity"]}
{"id": "C230", "title": "Sloppy JSON is read as the value it stands for", "statement": "For every JSON value that is an object or a list of objects, and for every way of writing it with keys bare or in quotes of either kind, strings in quotes of either kind, white space anywhere between tokens, commas before closing brackets, and any number of the final closing brackets left out, fuzzy_json returns exactly that value, provided that: the strings contain no quotes, backslashes, control characters or runs of blanks, no comma directly before a closing bracket and not both a colon and a comma or opening brace; white space (or a closing bracket) follows every comma and colon, and follows the opening brace of every list item but the first; and the text does not stop at a comma. Each of these conditions on the spacing is needed: {a:1,b:2} is read as one key 'a:1,b', [{a: 1}, {b: 2}] is refused, and so is a text that stops at a comma.", "quantifier": "all JSON values and all their sloppy spellings in the stated domain, of any size and depth", "why_tests_cant": "the repairs are three regular expressions applied to the raw text one after the other, so whether they compose to the intended value depends on every token and its neighbours; tests cover a few spellings of small documents", "anchors": ["src/lionherd_core/libs/string_handlers/_fuzzy_json.py: fuzzy_json, _clean_json_string, fix_json_string"]}
{"id": "C231", "title": "Cancelling blocked queue calls loses no item and no wake-up", "statement": "Cancelling a PriorityQueue call while it is blocked - before it has the lock, while it waits for an item or for space, or after it was notified - stores nothing, takes nothing and reports nothing; the items stored are always those put and not yet returned, and every get returns a smallest one. On queues where no put can block (unbounded, or filled by put_nowait), while a get waits at least as many waiting gets are notified as there are items, so no item is left in the queue with a get waiting for it and none about to run; this holds for cancellation by cancel scopes, and for cancellation of the task from outside if the condition variable passes the notification of an interrupted waiter on.", "quantifier": "every schedule of calls and cancellations, of any length and number of tasks", "why_tests_cant": "whether a notification is lost depends on the moment of the cancellation relative to the notification and to the resumption of the waiting task", "anchors": ["src/lionherd_core/libs/concurrency/_priority_queue.py: PriorityQueue.put, get, put_nowait, get_nowait"]}
{"id": "C232", "title": "A queue operation that raises leaves the queue unchanged", "statement": "A PriorityQueue operation that raises leaves the stored items as they were, also when it raises because two items of the same priority cannot be compared.", "quantifier": "all queues, items and comparison functions, including ones that raise", "why_tests_cant": "which comparisons are made depends on the shape of the heap, so a failing comparison can happen at any depth of any operation", "anchors": ["src/lionherd_core/libs/concurrency/_priority_queue.py: PriorityQueue.put_nowait, get_nowait, put, get"]}
{"id": "C233", "title": "All ways of writing the allowed types mean the same", "statement": "The allowed types of a Pile or of filter_by_type may be written as a class, a union, a list or a set, also with unions inside the list or set: exactly the classes written are allowed. A pile made with item_type accepts an item iff its class is one of the classes written or, unless strict_type, a subclass of one, and raises TypeError otherwise. Two arguments that name the same classes give the same Pile(...) outcome and the same filter_by_type result. Flow treats item_type as Pile does whenever the argument names a class.", "quantifier": "all type arguments, class hierarchies, piles and item lists", "why_tests_cant": "the argument forms combine freely and the result must be independent of the form for every pile and hierarchy", "anchors": ["src/lionherd_core/base/_utils.py: extract_types", "src/lionherd_core/base/pile.py: Pile.__init__, _normalize_item_type, filter_by_type", "src/lionherd_core/base/flow.py: Flow.__init__"]}
{"id": "C234", "title": "An element is restored from its JSON text", "statement": "For every element whose class the reading class can find, whose class tag entry is not used by its own metadata and whose field and metadata values survive JSON, from_json(to_json()) - compact or indented, keys sorted or not, with any white space around - gives an element of the same class with the same id, creation time, fields and metadata entries (in the same order unless keys are sorted, provided field validation does not depend on the order of a dict). For every element, reading the unsorted text is the same as reading the dict of to_dict(mode='json'), result or exception. Text that is not JSON raises ValueError and JSON that is not an object AttributeError.", "quantifier": "all elements, classes, metadata, text options and texts", "why_tests_cant": "texts are unbounded, escapes and sorting interact with every string and key the element contains", "anchors": ["src/lionherd_core/base/element.py: Element.to_json, from_json, from_dict", "src/lionherd_core/ln/_json_dump.py: json_dumps"]}
{"id": "C235", "title": "The fields of a parsed LNDL output are its attributes", "statement": "For an LNDLOutput every parsed field is read by output.name as by output['name'], and a missing name is a missing attribute: hasattr is False, getattr with a default gives the default, and copying the output works.", "quantifier": "all outputs and all names", "why_tests_cant": "the names are those of the model answer and of the caller; any name may be asked for", "anchors": ["src/lionherd_core/lndl/types.py: LNDLOutput.__getattr__, __getitem__"]}
{"id": "C236", "title": "alcall hands back what the function returned", "statement": "Without output options alcall returns, at the position of each input item, the very object the function returned for it (or the default, or with return_exceptions the exception).", "quantifier": "every input, function behaviour, retry configuration, concurrency limit and schedule", "why_tests_cant": "the order of completion and the kind of the returned objects vary", "anchors": ["src/lionherd_core/ln/_async_call.py: alcall", "src/lionherd_core/ln/_to_list.py: to_list"]}
{"id": "C237", "title": "alcall applies its input and output options as documented", "statement": "alcall calls the function on the members of its input as they are, or with input_flatten on the leaves of the input in order, without undefined ones under input_dropna and without repetitions (of hashable values) under input_unique; with output_flatten the results of all items come as one list of leaves in input order, without undefined ones under output_dropna and without repetitions under output_unique; whatever the options, an item failing for good makes the call raise a group that begins with such a failure (without return_exceptions).", "quantifier": "every input, option combination with flatten, function behaviour and schedule", "why_tests_cant": "nesting is unbounded and completion order varies", "anchors": ["src/lionherd_core/ln/_async_call.py: alcall", "src/lionherd_core/ln/_to_list.py: to_list"]}
{"id": "C238", "title": "alcall rejects arguments it cannot honour before calling the function", "statement": "When an argument of alcall cannot be honoured (no single callable, negative max_concurrent, input_unique or output_unique without the flatten option they require) the call raises ValueError before the function is called on anything.", "quantifier": "every combination of options, every input, function and schedule", "why_tests_cant": "whether work was done before the failure depends on the schedule and options together", "anchors": ["src/lionherd_core/ln/_async_call.py: alcall", "src/lionherd_core/libs/concurrency/_primitives.py: Semaphore"]}
{"id": "C239", "title": "bcall yields batch by batch and stops at the first failure", "statement": "When every batch succeeds bcall yields one result list per batch in order and ends; when the call for a batch raises, bcall has yielded the results of exactly the earlier batches, raises the same exception, and processes no item of a later batch.", "quantifier": "every input, positive batch size, options, function behaviour and schedule of each batch", "why_tests_cant": "any batch may fail and the completion order in each batch varies", "anchors": ["src/lionherd_core/ln/_async_call.py: bcall"]}
{"id": "C240", "title": "bcall rejects a batch size that is not positive", "statement": "bcall with a batch size that is not positive raises ValueError.", "quantifier": "every such batch size and input", "why_tests_cant": "the size is an arbitrary integer", "anchors": ["src/lionherd_core/ln/_async_call.py: bcall"]}
{"id": "C241", "title": "Each property of a schema is rendered as exactly one line by fixed rules", "statement": "The TypeScript-like text of an object schema has one line per property in order: indentation, the name (with ? when it is optional), the type text, then the default and the description when given; and the type text is determined by the property: the enumeration values joined with |, the name after the last slash of a reference, the item type followed by [] (in parentheses when it is a union), the members of a union joined with | with null last, the mapped name of a basic type.", "quantifier": "every schema whose properties have a type text under the rules (any number of properties, nesting of arrays and unions, enumerations), every indentation", "why_tests_cant": "schemas nest without bound", "anchors": ["src/lionherd_core/libs/schema_handlers/_typescript.py: typescript_schema", "src/lionherd_core/libs/schema_handlers/_typescript.py: _extract_type_signature", "src/lionherd_core/libs/schema_handlers/_typescript.py: _format_enum_union"]}
{"id": "C242", "title": "Different enumerations are rendered differently", "statement": "Two properties with different lists of enumeration values get different type texts.", "quantifier": "all pairs of non-empty lists of enumeration values", "why_tests_cant": "lists and strings are unbounded", "anchors": ["src/lionherd_core/libs/schema_handlers/_typescript.py: _format_enum_union"]}
{"id": "C243", "title": "A class name that cannot be loaded is reported by ValueError", "statement": "load_type_from_string(s) either returns a type or raises ValueError; Element.from_dict likewise for a class tag that cannot be loaded.", "quantifier": "every text s and every history of earlier loads", "why_tests_cant": "all texts", "anchors": ["src/lionherd_core/base/_utils.py: load_type_from_string", "src/lionherd_core/base/element.py: Element.from_dict"]}
{"id": "C244", "title": "The sequence matcher score lies in [0,1] and is 1 exactly for equal strings", "statement": "In exact arithmetic sequence_matcher_similarity(s, t) is between 0 and 1, is 1 exactly when the strings are equal, and is 2m/(len(s)+len(t)) for the length m of some common subsequence. If t has fewer than 200 characters, m is the number of matching characters of Ratcliff and Obershelp: the first longest common substring plus the matches to its left and to its right.", "quantifier": "every pair of strings", "why_tests_cant": "all strings, also long ones, for which difflib changes its algorithm", "anchors": ["src/lionherd_core/libs/string_handlers/_string_similarity.py: sequence_matcher_similarity"]}
{"id": "C245", "title": "What two strings have in common counts in the sequence matcher score", "statement": "If u is a common substring of s and t then sequence_matcher_similarity(s, t) is at least 2 len(u)/(len(s)+len(t)); in particular it is 0 only if the strings share no character.", "quantifier": "every pair of strings", "why_tests_cant": "strings of any length", "anchors": ["src/lionherd_core/libs/string_handlers/_string_similarity.py: sequence_matcher_similarity"]}
{"id": "C246", "title": "The sequence matcher score does not depend on the order of the arguments", "statement": "sequence_matcher_similarity(s, t) == sequence_matcher_similarity(t, s).", "quantifier": "every pair of strings", "why_tests_cant": "all strings", "anchors": ["src/lionherd_core/libs/string_handlers/_string_similarity.py: sequence_matcher_similarity"]}
{"id": "C247", "title": "A text field receives the text that was written", "statement": "If a field of type str refers to one variable, or has a string literal, the resolved field holds the text written there without the surrounding white space.", "quantifier": "every LNDL output with a str field, every text, and every behaviour of ast.literal_eval", "why_tests_cant": "the text is arbitrary and is read in three stages (words, Python literal, conversion), of which tests take a few samples", "anchors": ["src/lionherd_core/lndl/parser.py: parse_value", "src/lionherd_core/lndl/resolver.py: resolve_references_prefixed"]}
{"id": "C248", "title": "A boolean field is true only for text that says so", "statement": "If a field of type bool refers to one variable, or has a string literal, and the resolution succeeds, then the text denotes a truth value: text such as no or off is rejected or read as false.", "quantifier": "every LNDL output with a bool field, every text, and every behaviour of ast.literal_eval", "why_tests_cant": "the text is arbitrary and is read in three stages (words, Python literal, conversion), of which tests take a few samples", "anchors": ["src/lionherd_core/lndl/parser.py: parse_value", "src/lionherd_core/lndl/resolver.py: resolve_references_prefixed"]}
{"id": "C249", "title": "An integer field receives the number that was written", "statement": "If a field of type int is resolved to n from the text of a variable or literal, the text denotes the number n; other text is rejected.", "quantifier": "every LNDL output with an int field, every text, and every behaviour of ast.literal_eval", "why_tests_cant": "the text is arbitrary and is read in three stages (words, Python literal, conversion), of which tests take a few samples", "anchors": ["src/lionherd_core/lndl/parser.py: parse_value", "src/lionherd_core/lndl/resolver.py: resolve_references_prefixed"]}
{"id": "C250", "title": "parse_value always returns a value", "statement": "parse_value(text) returns a Python value for every text and never raises: the value the text stands for (true, false, null or a Python literal), otherwise the text itself without surrounding white space.", "quantifier": "every text", "why_tests_cant": "The texts are unlimited, and the exceptions that escape come from ast.literal_eval's own rules (hashability, nesting depth); examples show only the texts somebody thought of.", "anchors": ["src/lionherd_core/lndl/parser.py: parse_value"]}
{"id": "C251", "title": "stop() ends a running execute()", "statement": "After stop(), and until start() or execute() is called again, an execute() call that is running begins no further batch: it stays in the batch or pause it is in and returns the next time it runs after them; every event started after stop() belongs to a process() call made before it.", "quantifier": "every state of the processor, every schedule of execute(), process(), enqueue(), join() steps, cancellations and permission answers after stop(), any number of execute() calls", "why_tests_cant": "The moment of stop() relative to the awaits of the loop and of its batch is up to the scheduler; a test fixes one interleaving.", "anchors": ["src/lionherd_core/base/processor.py: Processor.execute", "src/lionherd_core/base/processor.py: Processor.stop", "src/lionherd_core/base/processor.py: Processor.start", "src/lionherd_core/base/processor.py: Processor.is_stopped"]}
{"id": "C252", "title": "Stopped stays stopped until start()", "statement": "Once stop() has been called, is_stopped() answers True and no execute() call goes on until start() is called.", "quantifier": "every history of stop(), start(), execute() and processor steps", "why_tests_cant": "An execute() task that a task group begins only after stop() was called is a matter of scheduling.", "anchors": ["src/lionherd_core/base/processor.py: Processor.stop", "src/lionherd_core/base/processor.py: Processor.start", "src/lionherd_core/base/processor.py: Processor.is_stopped", "src/lionherd_core/base/processor.py: Processor.execute"]}
{"id": "C253", "title": "execution_mode tells whether execute() runs", "statement": "execution_mode is True exactly while an execute() call is running.", "quantifier": "every history of execute(), stop(), start(), cancellation and processor steps", "why_tests_cant": "It needs executions that end with an exception or overlap with others at every possible point.", "anchors": ["src/lionherd_core/base/processor.py: Processor.execution_mode", "src/lionherd_core/base/processor.py: Processor.execute"]}
{"id": "C254", "title": "join() waits for all queued events", "statement": "When join() returns, every event accepted by enqueue() so far has been started, or dropped because it was missing or aborted; none is waiting to be processed.", "quantifier": "every history of enqueue(), execute(), process() and join() steps and every permission answer", "why_tests_cant": "The window between taking an event from the queue and putting it back after a denial is a scheduling matter.", "anchors": ["src/lionherd_core/base/processor.py: Processor.join", "src/lionherd_core/base/processor.py: Processor.process"]}
{"id": "C255", "title": "A running execute() gets through the queue", "statement": "While one execute() call runs and its steps do not fail, every accepted event is eventually started, aborted after three denials, or dropped because it is missing: with at least 30 steps per accepted event and 4 more there is a moment at which all events accepted so far have ended, whatever the permission checks answer and whenever further events are enqueued (fewer events than max_denial_tracking).", "quantifier": "every valid configuration, every history of enqueue() and join() calls before, every interleaving of further enqueue()/join() calls with the steps of execute(), every answer of the event pile and of request_permission", "why_tests_cant": "Progress is about all infinite behaviours; a test sees one run of a few events and cannot tell slow from stuck.", "anchors": ["src/lionherd_core/base/processor.py: Processor.execute", "src/lionherd_core/base/processor.py: Processor.process", "src/lionherd_core/base/processor.py: Processor.enqueue"]}
{"id": "C256", "title": "All faulty OUT fields are reported together", "statement": "If lvar and lact names are disjoint, all OUT fields allowed and the required ones present, the exception group that resolving raises holds exactly one error for each faulty field, in the order of the OUT block, and of the kind that the fault calls for; a field is reported only if it is faulty, the fields after a faulty one are still checked, and the resolution succeeds exactly if no field is faulty.", "quantifier": "every OUT block, all declarations, field specifications with unique names, and every behaviour of the value parser, conversions, model constructors and validators", "why_tests_cant": "The number and mix of faults in a block is unlimited, and so are the ways in which external validators refuse.", "anchors": ["src/lionherd_core/lndl/resolver.py: resolve_references_prefixed"]}
{"id": "C257", "title": "At most concurrency_limit events execute at once", "statement": "However many events are appended and process() calls overlap, at most concurrency_limit events of a processor are executed at the same time; a slot is given back however an event ends (also by cancellation), so no started event is stuck for want of a slot, and the limit only delays events and changes nothing else.", "quantifier": "every schedule of append, start, process, cancellation, clean-up and event ends, every permission answer, every limit", "why_tests_cant": "The overlap of batches and the moments at which events end or are cancelled belong to the scheduler.", "anchors": ["src/lionherd_core/base/processor.py: Processor._with_semaphore", "src/lionherd_core/base/processor.py: Processor.process"]}
{"id": "C258", "title": "Tasks use `async with pile` one at a time and in turn", "statement": "However tasks are scheduled or cancelled, at no moment are two tasks inside `async with pile` of the same pile. Tasks enter in the order in which they asked, skipping those cancelled while waiting. If no task is inside and some task waits, the first in line enters as soon as it is scheduled, also when the task the lock was handed to is cancelled before it resumes. A task inside that begins `async with pile` again gets RuntimeError and stays inside.", "quantifier": "any number of tasks, any interleaving of entering, leaving, cancellation and method calls, at every moment of the execution", "why_tests_cant": "Tests run a few schedules; a lost hand-over or a double entry needs a particular order of leaving, cancellation and resumption.", "anchors": ["src/lionherd_core/base/pile.py: Pile.__aenter__, Pile.__aexit__", "src/lionherd_core/libs/concurrency/_primitives.py: Lock"]}
{"id": "C259", "title": "Inside `async with pile` nobody else changes the pile", "statement": "While a task is inside `async with pile`, the pile is changed only by method calls of that task.", "quantifier": "any number of tasks, any interleaving, every block", "why_tests_cant": "The interference needs another task to call a method at a particular moment inside the block.", "anchors": ["src/lionherd_core/base/pile.py: Pile.__aenter__, Pile.__aexit__"]}
{"id": "C260", "title": "copy_containers changes identities, never values", "statement": "with_updates(copy_containers=m, **kw) with m None, 'shallow' or 'deep' builds an object with the same values, or raises the same error, as with_updates(**kw). Without m every field not in kw is the very same object as before. With 'shallow' every such field that is a mutable sequence, mapping or set is a new object holding the very same items (AttributeError if its class has no copy method), and all others are the same objects. Any other m raises ValueError. Holds for Params and for DataClass.", "quantifier": "every class configuration, object, set of updates and nesting of values", "why_tests_cant": "Identities of nested values are not visible in comparisons of results; tests look at one list.", "anchors": ["src/lionherd_core/types/base.py: Params.with_updates, DataClass.with_updates"]}
{"id": "C261", "title": "Objects made with copy_containers='deep' share nothing with the original", "statement": "After q = p.with_updates(copy_containers='deep', **kw) no modification of anything reachable from a field of q that is not in kw changes p.", "quantifier": "every object, every set of updates, every nesting of values, every later modification", "why_tests_cant": "Sharing shows only when the right nested object is modified later.", "anchors": ["src/lionherd_core/types/base.py: Params.with_updates, DataClass.with_updates"]}
{"id": "C262", "title": "A streaming event ends up completed or failed", "statement": "A streaming event executed by an executor's processor is listed under COMPLETED after its stream was exhausted and under FAILED after its stream raised.", "quantifier": "every history of the executor, every executing streaming event, every sequence of statuses its stream() assigns, every way it ends", "why_tests_cant": "The failure is swallowed and the event looks untouched; tests use streams that set their status themselves.", "anchors": ["src/lionherd_core/base/processor.py: Processor.process.consume_stream, Executor._update_progression", "src/lionherd_core/base/event.py: Event.stream"]}
{"id": "C263", "title": "An event is executed at most once per accepted append", "statement": "In every history of an executor - appends, start, overlapping process() calls, permissions granted, denied or failing, cancellations, clean-ups of any statuses at any moment - the number of times an event's execution begins is at most the number of append calls that stored it. An event appended once is executed at most once.", "quantifier": "every history (schedule) of an executor of any length, every event", "why_tests_cant": "Double execution needs particular interleavings of requeueing, starting, overlapping calls and clean-ups.", "anchors": ["src/lionherd_core/base/processor.py: Executor.append, Executor.start, Executor.forward, Executor.cleanup_events, Processor.enqueue, Processor.process"]}
{"id": "C264", "title": "An event that has ended stays ended", "statement": "Once the execution of an event has ended and the event was filed under a status, it is listed under this status and no other and it is never executed again, whatever is appended, started, processed, denied or cancelled later, until the events of this status are cleaned up (clean-ups of other statuses than PENDING and PROCESSING are allowed throughout).", "quantifier": "every history before, every status, every later history without clean-up of this status, of PENDING or of PROCESSING", "why_tests_cant": "Holds for every continuation, of any length and interleaving.", "anchors": ["src/lionherd_core/base/processor.py: Executor._update_progression, Executor.forward, Executor.cleanup_events, Processor.process"]}
{"id": "C265", "title": "The serialised error of an event is not larger than the error", "statement": "The dictionary made from the error of an event (to_dict of its execution) has at most as many entries as the error has exception objects (the error itself and everything nested in it).", "quantifier": "every exception, group of exceptions, and nesting of groups, including groups that share members", "why_tests_cant": "The blow-up needs groups that list the same group more than once, on several levels: sizes double per level, invisible in small examples.", "anchors": ["src/lionherd_core/base/event.py: Execution.to_dict, Execution._serialize_exception_group"]}
{"id": "C266", "title": "A creation time written as ISO text is the time it denotes", "statement": "coerce_created_at (the validator of created_at) turns an ISO 8601 text that datetime.fromisoformat reads into the datetime that text denotes.", "quantifier": "every ISO 8601 text, every library behaviour of float() and fromisoformat(); the refutation covers every day of the calendar", "why_tests_cant": "Depends on the text: the usual formats work, the basic date format YYYYMMDD never does, for any of the 3.6 million days.", "anchors": ["src/lionherd_core/base/_utils.py: coerce_created_at"]}
{"id": "C267", "title": "The test factories deliver the structures they describe", "statement": "create_simple_graph, create_cyclic_graph and create_dag_graph return exactly the nodes and edges of their docstrings, and is_acyclic() says True, False, True of them. create_test_elements and create_test_pile contain the announced number of elements with consecutive values, in order; a pile of a type that excludes TestElement raises TypeError unless it is empty. create_test_flow(n, m) has n items and m empty progressions found by the names prog_0, prog_1, ... .", "quantifier": "every choice of fresh identifiers, every count (also negative ones), every item type and class hierarchy, every iteration order of the adjacency sets", "why_tests_cant": "Counts are unbounded and identifiers are drawn at random; tests see single draws.", "anchors": ["src/lionherd_core/testing.py: create_test_elements, create_test_pile, create_simple_graph, create_cyclic_graph, create_dag_graph, create_test_flow, create_test_progression"]}
{"id": "C268", "title": "A persistently denied event is eventually aborted", "statement": "If the permission check denies every time, process() calls made one after the other (as execute() makes them) eventually abort an event, whatever number of events is waiting.", "quantifier": "every valid processor configuration, every number of waiting events up to the queue limit, every number of process() calls", "why_tests_cant": "The failure shows only when the number of waiting events reaches max_denial_tracking (10 000 by default), and 'never' needs every number of calls.", "anchors": ["src/lionherd_core/base/processor.py: Processor.process, Processor.enqueue"]}
{"id": "C269", "title": "A HashableModel is restored from its JSON text", "statement": "For every HashableModel instance m of class K, K.from_json(m.to_json()) is an instance with exactly the field values of m.", "quantifier": "every class (fields, defaults, validators), every instance with nested data, every key order of the JSON text", "why_tests_cant": "The fields may hold any data, nested and with sentinels, and validators are arbitrary functions; tests try a few models.", "anchors": ["src/lionherd_core/types/model.py: HashableModel.to_json, from_json, from_dict"]}
{"id": "C270", "title": "A subscribed bound method is called as long as its object lives", "statement": "After any history of subscriptions, unsubscriptions, collections and broadcasts in which the object itself is not unsubscribed, a broadcast on a class calls a bound method exactly as often as it was subscribed to that class (or one sharing its list) while its object and its function are alive, and never after one of them was collected.", "quantifier": "every history, class hierarchy, object and function, every behaviour of the callbacks", "why_tests_cant": "The list is rewritten by every broadcast and count and shared along the class hierarchy; the claim is about every history.", "anchors": ["src/lionherd_core/base/broadcaster.py: Broadcaster.subscribe, unsubscribe, _cleanup_dead_refs, broadcast"]}
{"id": "C271", "title": "The serialised error of an event shows every exception in it", "statement": "The dictionary made from the error of an event shows the class and message of the error, the retry flag and details of an error of the package, and for a group every member, shown in the same way and in order.", "quantifier": "every exception, exception groups of any nesting and width, with any class names, messages and details", "why_tests_cant": "Groups nest and mix kinds of exceptions without bound; the members that get lost are those of rare groups.", "anchors": ["src/lionherd_core/base/event.py: Execution.to_dict, Execution._serialize_exception_group", "src/lionherd_core/errors.py: LionherdError.to_dict"]}
{"id": "C272", "title": "enum_as_name writes the names of enumeration members", "statement": "json_dumps(data, enum_as_name=True) writes every member of an enumeration in data by its name.", "quantifier": "every nested data, every enumeration, every behaviour of the other serializers", "why_tests_cant": "Data nest without bound and the rest of the default function is arbitrary; that the option never has any effect needs all of them.", "anchors": ["src/lionherd_core/ln/_json_dump.py: json_dumpb, json_dumps, get_orjson_default"]}
{"id": "C273", "title": "Batching uses as few batches as possible", "statement": "get_bins(items, upper) divides the items in order into as few non-empty batches as any division of the items in order whose parts are below upper or hold a single item.", "quantifier": "every list of items, every upper, every other division of the items in order", "why_tests_cant": "Both the items and the competing divisions are unbounded; a greedy rule that is optimal on small lists may fail on longer ones.", "anchors": ["src/lionherd_core/_utils.py: get_bins"]}
{"id": "C274", "title": "Capabilities act as a smaller operable", "statement": "For every non-empty list of capabilities that all name specs of the operable, parse_lndl_fuzzy(response, operable, capabilities) returns or raises what it does for the operable that holds only the named specs, without capabilities; specs that are not named are neither accepted nor required. A capability that names no spec raises ValueError.", "quantifier": "every response text, operable, non-empty capability list, thresholds and similarity", "why_tests_cant": "Responses, operables and similarity functions are unbounded; equality of two parsers on all of them is not a finite check.", "anchors": ["src/lionherd_core/lndl/fuzzy.py: parse_lndl_fuzzy", "src/lionherd_core/types/operable.py: Operable.get_specs, Operable.check_allowed"]}
{"id": "C275", "title": "A default clean-up leaves only waiting and executing events", "statement": "After await executor.cleanup_events() (no arguments) the executor stores only events that are pending or processing, so that periodic clean-ups bound its memory by the work in progress.", "quantifier": "every history of appends, starts, process() calls, endings, cancellations and clean-ups", "why_tests_cant": "Histories are unbounded, and which statuses events end with depends on time-outs and cancellations.", "anchors": ["src/lionherd_core/base/processor.py: Executor.cleanup_events"]}
{"id": "C276", "title": "A container is restored from its JSON text", "statement": "For every pile, graph and flow x of class K, K.from_json(x.to_json()) is a container with the same items (nodes and edges; items and progressions) in the same order.", "quantifier": "every history that built the container, every item content, compact or indented text, keys sorted or not", "why_tests_cant": "Containers are built by unbounded histories and hold any elements; a test checks a few of them.", "anchors": ["src/lionherd_core/base/element.py: Element.to_json, Element.from_json", "src/lionherd_core/base/pile.py: Pile.to_dict, Pile.from_dict", "src/lionherd_core/base/graph.py: Graph.to_dict, Graph.from_dict", "src/lionherd_core/base/flow.py: Flow.to_dict"]}
{"id": "C277", "title": "adapt_from reads what adapt_to wrote", "statement": "For every adapter that gives back the dicts it was given, K.adapt_from(x.adapt_to(key), key) with default arguments is an object with the same content as x: the same fields for a node, the same items in the same order for a pile, the same nodes and edges for a graph.", "quantifier": "every lossless adapter, every node, every history that built the pile or graph, every adapt_kw on either side", "why_tests_cant": "The tests of the defaults look at the two directions separately and feed adapt_from with dicts of mode 'python'; the round trip ranges over all contents and argument combinations.", "anchors": ["src/lionherd_core/base/node.py: Node.adapt_to, Node.adapt_from", "src/lionherd_core/base/pile.py: Pile.adapt_to, Pile.adapt_from", "src/lionherd_core/base/graph.py: Graph.adapt_to, Graph.adapt_from"]}
{"id": "C278", "title": "Piles inside piles come back from their dict", "statement": "A pile whose items are elements or other piles, nested to any depth, comes back from from_dict(to_dict(...)): every pile at every depth has the same items in the same order and the same constraint, strictness and name, and every element its id, class and data, whenever the outermost call is given the metadata keys it wrote (an item_meta_key only reaches the first level, and deeper levels do not need it).", "quantifier": "every nesting depth, every pile built through the API at each level (constraints not the empty set, names not empty), every mode and every pair of metadata keys that match (mode db with an empty meta_key excepted)", "why_tests_cant": "Tests nest one level with one key; the claim is an induction on the depth.", "anchors": ["src/lionherd_core/base/pile.py: Pile.to_dict, Pile.from_dict", "src/lionherd_core/base/element.py: Element.to_dict, Element.from_dict"]}
{"id": "C279", "title": "parse_function_call accepts exactly calls with literal arguments", "statement": "parse_function_call accepts a text exactly if it is a call of a name or attribute without ** all of whose arguments are Python literals; it returns the name (or last attribute) and an entry for every argument with its value (the i-th positional argument under _pos_i); everything else raises ValueError, and no expression other than a literal is ever evaluated.", "quantifier": "every expression, nested to any depth; every number of positional and keyword arguments", "why_tests_cant": "Expressions nest without bound and the refusals depend on what is nested inside.", "anchors": ["src/lionherd_core/libs/schema_handlers/_function_call_parser.py: parse_function_call"]}
{"id": "C280", "title": "An error carries what it was constructed with", "statement": "Every LionherdError (and subclass) shows as message the text passed, or, if none was passed, the default of its nearest class; as retryable the flag passed (also False) or that class's default; as details the contents of the dict passed; as cause the exception passed. Its to_dict shows the class name, message, retryability and (if not empty) details and nothing else.", "quantifier": "every chain of subclasses with or without own defaults; every message, details dict, flag and cause", "why_tests_cant": "Subclass chains and arguments are unbounded; the falsy corner cases (empty text, empty dict, False, exceptions with a false truth value) are easily left out of tests.", "anchors": ["src/lionherd_core/errors.py: LionherdError.__init__, to_dict, subclasses"]}
{"id": "C281", "title": "Assigning a status between the steps of invoke", "statement": "For every interleaving of calls of Event.invoke with assignments to event.status: the body never runs twice at the same time and starts at most once more often than the status was set back to PENDING; an assigned status other than PENDING lasts until the next assignment and keeps the body from starting; a value that is not a status raises ValueError and changes nothing. A timeout is accepted exactly if it is absent or finite and positive.", "quantifier": "every number of concurrent invoke calls, every schedule and every sequence of assignments", "why_tests_cant": "The assignment may fall between any two steps of any number of concurrent calls.", "anchors": ["src/lionherd_core/base/event.py: Event.status setter, invoke, _validate_timeout"]}
{"id": "C282", "title": "Questions about a graph survive writing and reading", "statement": "For every graph, the graph read back from its to_dict answers is_acyclic, topological_sort (whether there is an order) and find_path (whether there is a path, and how long) as the original does, with and without check_conditions.", "quantifier": "every graph reachable by a history of calls; every pair of nodes; every assignment of conditions to edges; every iteration order of the adjacency sets", "why_tests_cant": "Graphs are unbounded; whether a lost condition matters depends on all other edges.", "anchors": ["src/lionherd_core/base/graph.py: Edge.condition, Edge.check_condition, Graph.find_path, to_dict, from_dict"]}
{"id": "C283", "title": "minimal_yaml shows a text as that text", "statement": "minimal_yaml of a text shows that text; and minimal_yaml of the JSON text of a value shows what minimal_yaml of the value shows.", "quantifier": "every text; every JSON value, nested to any depth; both settings of drop_empties", "why_tests_cant": "Whether a text is read as JSON depends on the whole grammar of JSON; there are infinitely many texts.", "anchors": ["src/lionherd_core/libs/schema_handlers/_minimal_yaml.py: minimal_yaml, _prune"]}
{"id": "C284", "title": "The events returned for a status have this status", "statement": "get_events_by_status(S) of an executor returns exactly the stored events whose status is S (likewise pending_events, processing_events, completed_events, failed_events).", "quantifier": "every history of an executor: appends, start, overlapping process() calls, permissions granted, denied or failing, executions returning, raising, timing out or cancelled at any moment, clean-ups; every status", "why_tests_cant": "The lists and the statuses of the events are changed at different moments by different tasks; every interleaving counts.", "anchors": ["src/lionherd_core/base/processor.py: Executor.get_events_by_status, _update_progression, Processor.process", "src/lionherd_core/base/event.py: Event.invoke, Event.status"]}
{"id": "C285", "title": "A loop over a pile visits every item that stays", "statement": "`for item in pile:` raises nothing, and it visits every item that is in the pile throughout the loop exactly once, whatever the body of the loop adds to or takes out of the pile.", "quantifier": "every pile made by the constructor and any calls, every loop body (any calls to add, remove, pop, get, update, clear, include and exclude, depending on what has been visited), every number of turns", "why_tests_cant": "Which items are skipped depends on what the body does in which turn; tests run loops over piles that do not change.", "anchors": ["src/lionherd_core/base/pile.py: Pile.__iter__, Pile.add, Pile.remove, Pile.pop, Pile.clear, Pile.include, Pile.exclude", "src/lionherd_core/base/progression.py: Progression.__iter__"]}
{"id": "C286", "title": "A broadcast reaches exactly the callbacks subscribed when it began", "statement": "`await Broadcaster.broadcast(event)` calls each callback that is subscribed and still referred to when it begins exactly once, in the order in which they subscribed, before it returns, whatever the callbacks and other tasks do meanwhile: subscribe, unsubscribe, drop callbacks, or broadcast. Unless a callback ends the call by an exception that is no `Exception`, it returns after all of them have been called; if one does, the call never returns and calls no further callback.", "quantifier": "every history of subscribe, unsubscribe, broadcast (any number of them overlapping), dropped references and aborted calls, in every order; every number of callbacks", "why_tests_cant": "Callbacks that change the subscriptions of the broadcast that is running, and broadcasts that overlap, are schedules a test fixes one at a time.", "anchors": ["src/lionherd_core/base/broadcaster.py: Broadcaster.subscribe, Broadcaster.unsubscribe, Broadcaster._cleanup_dead_refs, Broadcaster.broadcast"]}
{"id": "C287", "title": "No call after unsubscribe", "statement": "Once `unsubscribe(cb)` has returned, `cb` is not called until it is subscribed again.", "quantifier": "every history of subscribe, unsubscribe, broadcast (any number of them overlapping), dropped references and aborted calls, in every order", "why_tests_cant": "Whether a call follows depends on which broadcasts are under way at the moment of unsubscribing.", "anchors": ["src/lionherd_core/base/broadcaster.py: Broadcaster.unsubscribe, Broadcaster.broadcast"]}
{"id": "C288", "title": "Names and piles of a flow stay consistent under threads", "statement": "Whatever `add_progression`, `remove_progression`, `add_item` and `remove_item` calls several threads make on one flow constructed with distinct progression names: whenever no call is in progress (more precisely: no thread is inside a method that holds the lock of the flow, or of its items), the progressions and the items can be listed, each once; looking up a name returns the progression that bears it; no two progressions bear the same name; a name nobody bears is not found.", "quantifier": "every flow built with distinct names; every number of threads; all calls they make; every schedule of their single reads and writes", "why_tests_cant": "`add_item` and `remove_item` take no lock of the flow; whether their writes fall between those of the methods that do is a matter of the schedule.", "anchors": ["src/lionherd_core/base/flow.py: Flow.add_progression, Flow.remove_progression, Flow.add_item, Flow.remove_item", "src/lionherd_core/base/pile.py: Pile.add, Pile.remove"]}
{"id": "C289", "title": "A float field receives the number that was written", "statement": "When the model writes a value for a field of type `float` \u2014 in a variable or as a literal of the OUT block \u2014 and the resolution succeeds, the field holds the very number that was written.", "quantifier": "all OUT blocks, variables and field declarations; all texts; all floats and whole numbers", "why_tests_cant": "The value passes two conversions (`ast.literal_eval`, `float()`), which accept whole numbers of any size and truth values; tests use small literals.", "anchors": ["src/lionherd_core/lndl/parser.py: parse_value", "src/lionherd_core/lndl/resolver.py: resolve_references_prefixed"]}
{"id": "C290", "title": "Literals of the OUT block arrive converted to the type of the field", "statement": "When a truth value, a whole number or a decimal number stands in the OUT block for a scalar field and the resolution succeeds, a field of type `str` holds the text of that value, and fields of type `bool`, `int` and `float` hold its conversion by the constructor of that type.", "quantifier": "all OUT blocks with such literals, all field declarations and all successful resolutions", "why_tests_cant": "Four literal kinds meet four field types; each pair goes through its own conversion, and the claim must hold whatever else the OUT block contains.", "anchors": ["src/lionherd_core/lndl/parser.py: parse_value", "src/lionherd_core/lndl/resolver.py: resolve_references_prefixed"]}
{"id": "C291", "title": "No field written in the OUT block is dropped silently", "statement": "Every field whose name is written in an OUT{} block (`name:`) is among the parsed fields, or the parser rejects the text; and no other field is.", "quantifier": "all token sequences between OUT{ and its closing brace", "why_tests_cant": "LLM output can be malformed in any way; the parser recovers by skipping tokens, so what is lost depends on the whole block.", "anchors": ["src/lionherd_core/lndl/parser.py: Parser.parse_out_block"]}
{"id": "C292", "title": "An emission in progress reaches exactly its own audience", "statement": "However subscriptions, unsubscriptions, clearing, garbage collection and other emissions interleave with an emission in progress, it runs exactly the handlers that were subscribed to its topic and alive when emit was called, once per subscription, none before the call and none after it has ended; it returns only after every one of them has begun and ended; and it is never stuck: a handler not yet run can run, one that runs can end, and then emit returns.", "quantifier": "all histories of calls on a bus, by any number of tasks and handlers, all interleavings of the handlers of all emissions in progress, all points of cancellation (handlers compare by identity)", "why_tests_cant": "Handlers that subscribe, unsubscribe or emit while an emission runs, and the order in which their coroutines are scheduled, are unbounded; tests fix one order.", "anchors": ["src/lionherd_core/base/eventbus.py: EventBus.emit, EventBus.subscribe, EventBus.unsubscribe, EventBus.clear", "src/lionherd_core/libs/concurrency/_patterns.py: gather"]}
{"id": "C293", "title": "A handler that is no longer subscribed is not run", "statement": "After a handler has been unsubscribed from a topic (or the topic cleared), no emission of that topic runs it until it is subscribed again.", "quantifier": "all histories and interleavings as in C292", "why_tests_cant": "Needs an emission in progress at the moment of unsubscription, for every schedule.", "anchors": ["src/lionherd_core/base/eventbus.py: EventBus.emit, EventBus.subscribe, EventBus.unsubscribe, EventBus.clear", "src/lionherd_core/libs/concurrency/_patterns.py: gather"]}
{"id": "C294", "title": "A graph follows edges that get new end points", "statement": "After edge.head or edge.tail of an edge in a graph has been assigned, get_node_edges, get_successors and get_predecessors answer by the current ends of every edge.", "quantifier": "all histories of add_node, add_edge, remove_node, remove_edge, assignments to the ends of stored edges and assignments to fields of the graph (which rebuild its index), removals being made only while every edge has the ends under which it was filed, and field assignments only while all ends are nodes; all set iteration orders", "why_tests_cant": "The index goes stale at an arbitrary point of an unbounded history and every later answer depends on which ends each edge had when it was filed.", "anchors": ["src/lionherd_core/base/graph.py: Edge, Graph._rebuild_adjacency_after_init, Graph.add_edge, Graph.remove_edge, Graph.get_node_edges, Graph.get_successors, Graph.get_predecessors", "src/lionherd_core/base/element.py: Element.model_config"]}
{"id": "C295", "title": "A renamed progression is found under its new name", "statement": "After the name of a progression in a flow has been assigned, get_progression finds it under the new name and not under the old one, and add_progression treats the new name as taken and the old one as free.", "quantifier": "all flows built with distinct names, all histories of flow calls, renamings, edits of progressions and calls on the items pile, a progression being removed by id only while it bears the name it came in with", "why_tests_cant": "Depends on the order of renamings, additions and removals in an unbounded history.", "anchors": ["src/lionherd_core/base/flow.py: Flow.add_progression, Flow.remove_progression, Flow.get_progression, Flow.add_item, Flow.remove_item", "src/lionherd_core/base/progression.py: Progression"]}
{"id": "C296", "title": "References of a flow stay intact when its parts are changed directly", "statement": "Every id listed in a progression of a flow is the id of an item of the flow, also after progressions have been edited with their own methods and items removed with the methods of flow.items.", "quantifier": "all flows, all histories of flow calls, renamings, edits of stored progressions and calls on the items pile", "why_tests_cant": "The offending act may come anywhere in an unbounded history.", "anchors": ["src/lionherd_core/base/flow.py: Flow.add_progression, Flow.remove_progression, Flow.get_progression, Flow.add_item, Flow.remove_item", "src/lionherd_core/base/progression.py: Progression", "src/lionherd_core/base/pile.py: Pile.remove, Pile.pop, Pile.exclude, Pile.clear"]}
{"id": "C297", "title": "throttle_period spaces out the calls", "statement": "With throttle_period=t and delay_before_start=d, alcall calls the function for the first item not before d, and for each further item at least t after it called it for the item before.", "quantifier": "all delays, numbers of items and limits, all durations of calls, all schedules", "why_tests_cant": "The calls of the function depend on when slots become free, that is on all durations and the schedule together.", "anchors": ["src/lionherd_core/ln/_async_call.py: alcall"]}
{"id": "C298", "title": "Retries of alcall wait as documented", "statement": "After a failed attempt number j (from 0) on an item that is retried, alcall waits retry_initial_delay * retry_backoff^j before the next attempt; it waits nowhere else while processing the item, and not after the last attempt.", "quantifier": "all delays and factors (rationals, also zero), all numbers of retries, all durations and outcomes of attempts other than cancellation", "why_tests_cant": "The number of attempts and the sequence of delays are unbounded.", "anchors": ["src/lionherd_core/ln/_async_call.py: alcall"]}
{"id": "C299", "title": "max_concurrent limits the calls of alcall", "statement": "A call of alcall with max_concurrent=m that is accepted processes at most m items at the same time.", "quantifier": "all numbers m, all inputs, functions and options, all schedules", "why_tests_cant": "A bound over all schedules, and over all numbers including the ones a test would not try.", "anchors": ["src/lionherd_core/ln/_async_call.py: alcall", "src/lionherd_core/libs/concurrency/_primitives.py: Semaphore"]}
{"id": "C300", "title": "First calls from several threads see initialised tables", "statement": "to_list, hash_dict and alcall may be called for the first time by several threads at once: no call fails on, or works with, a module table that is not filled yet; alcall fills its table once.", "quantifier": "any number of threads, all interleavings of the reads and writes of the module globals, any number of tables each depending on the ones before", "why_tests_cant": "The window between testing the flag and setting it is hit only under particular thread schedules.", "anchors": ["src/lionherd_core/ln/_to_list.py: to_list", "src/lionherd_core/ln/_hash.py: hash_dict", "src/lionherd_core/ln/_async_call.py: alcall"]}
{"id": "C301", "title": "Calls on the piles of a graph", "statement": "Graph.nodes and Graph.edges are public piles: whatever calls are made on the graph and on these piles, the answers of get_node_edges, get_successors, get_predecessors, get_heads and get_tails fit the nodes and edges the graph holds.", "quantifier": "all histories of method calls on the graph, calls on graph.nodes and graph.edges and assignments to fields of the graph, all iteration orders of sets, all node ids", "why_tests_cant": "Whether the private adjacency still fits depends on the whole history of calls made on three objects; tests use the methods of the graph.", "anchors": ["src/lionherd_core/base/graph.py: Graph.nodes", "src/lionherd_core/base/graph.py: Graph.edges", "src/lionherd_core/base/graph.py: Graph.get_successors", "src/lionherd_core/base/graph.py: Graph._rebuild_adjacency"]}
{"id": "C302", "title": "The type constraint given to a flow", "statement": "Flow(items, item_type=T, strict_type=s) either raises or makes a flow that keeps to T and s: whatever is called on the flow, its progressions and its items pile afterwards, every item it holds has an allowed class.", "quantifier": "every form of the items argument (missing, an element, a list of elements, a pile, a serialised pile, a list of dicts), every way to write item_type, strict or not, every class hierarchy and every later history of calls", "why_tests_cant": "All forms of the argument times all later histories; tests check a few constructor calls.", "anchors": ["src/lionherd_core/base/flow.py: Flow.__init__", "src/lionherd_core/base/flow.py: Flow._validate_piles", "src/lionherd_core/base/_utils.py: extract_types"]}
{"id": "C303", "title": "Loading leaves the given dict alone", "statement": "from_dict of Element, Node, Pile, Graph, Flow and their subclasses changes nothing that existed before the call, in particular nothing that can be reached from the given dict, whether it returns or raises; the element it returns and its metadata dict are new objects.", "quantifier": "every dict (also malformed, cyclic, with shared parts or with nested serialised objects), metadata key, item metadata key and class; a content deserializer that itself leaves existing objects alone", "why_tests_cant": "All shapes of nested data and all points at which loading can fail; tests compare one dict before and after.", "anchors": ["src/lionherd_core/base/element.py: Element.from_dict", "src/lionherd_core/base/node.py: Node.from_dict", "src/lionherd_core/base/pile.py: Pile.from_dict", "src/lionherd_core/base/graph.py: Graph.from_dict", "src/lionherd_core/base/flow.py: Flow._validate_piles"]}
{"id": "C304", "title": "A loaded element shares nothing with the dict", "statement": "After e = Element.from_dict(d), no modification of anything that can be reached from e changes d.", "quantifier": "every dict with a metadata dict, every class that has the from_dict of Element, every object reachable from the element", "why_tests_cant": "All nesting depths and all reachable objects.", "anchors": ["src/lionherd_core/base/element.py: Element.from_dict"]}
{"id": "C305", "title": "Serialising leaves the element alone", "statement": "to_dict of elements, nodes, piles, graphs and flows changes no object that existed before the call, whether it returns or raises, and returns a new dict.", "quantifier": "every element with any nested data (also cyclic or shared), every mode, metadata key, created_at format and set of excluded fields; field and content serializers that themselves leave existing objects alone", "why_tests_cant": "All shapes of nested data and all points at which serialising can fail; tests look at one field.", "anchors": ["src/lionherd_core/base/element.py: Element.to_dict", "src/lionherd_core/base/node.py: Node.to_dict", "src/lionherd_core/base/pile.py: Pile.to_dict", "src/lionherd_core/base/graph.py: Graph.to_dict", "src/lionherd_core/base/flow.py: Flow.to_dict"]}
{"id": "C306", "title": "A serialised element shares nothing with the element", "statement": "No modification of anything that can be reached from the dict returned by to_dict changes the element or anything it refers to.", "quantifier": "every element with any nested data, every mode, metadata key and set of excluded fields, every object reachable from the dict", "why_tests_cant": "All nesting depths and all reachable objects.", "anchors": ["src/lionherd_core/base/element.py: Element.to_dict", "src/lionherd_core/base/node.py: Node.to_dict", "src/lionherd_core/base/pile.py: Pile.to_dict", "src/lionherd_core/base/graph.py: Graph.to_dict", "src/lionherd_core/base/flow.py: Flow.to_dict"]}
{"id": "C307", "title": "Flows that share nothing do not affect each other", "statement": "For flows that share no pile and no progression: after any history of add_progression, remove_progression, add_item and remove_item on any of them, where progression instances passed to a flow belong to that flow, each flow has the items, progressions, orders and names, and its calls have the outcomes, that the calls on this flow alone would give.", "quantifier": "every number of flows, every history of calls on them, failing calls included, every way to name a progression", "why_tests_cant": "All interleavings of calls on all flows; tests use one flow.", "anchors": ["src/lionherd_core/base/flow.py: Flow.add_progression", "src/lionherd_core/base/flow.py: Flow.remove_progression", "src/lionherd_core/base/flow.py: Flow.add_item", "src/lionherd_core/base/flow.py: Flow.remove_item", "src/lionherd_core/base/flow.py: Flow.get_progression"]}
{"id": "C308", "title": "References of every flow stay intact whatever is called on any flow", "statement": "If every progression of a flow refers only to items of the flow, then it does so after any call of add_progression, remove_progression, add_item or remove_item on this or any other flow.", "quantifier": "every two flows, whatever piles and progressions they share, every call, failing calls included", "why_tests_cant": "All ways in which flows can share parts.", "anchors": ["src/lionherd_core/base/flow.py: Flow.add_progression", "src/lionherd_core/base/flow.py: Flow.remove_progression", "src/lionherd_core/base/flow.py: Flow.add_item", "src/lionherd_core/base/flow.py: Flow.remove_item"]}
{"id": "C309", "title": "A Semaphore admits as many tasks as it has slots, in turn", "statement": "A Semaphore made with n (exactly: n not negative) has at most n tasks inside at any time as long as only tasks that hold a slot release; a waiting call gets its slot in the order of the calls, leaves the queue only by getting a slot or being cancelled, and no slot is free while a call waits; a slot given to a call that is then cancelled passes on.", "quantifier": "every n, every history of acquire, release, cancellation of waiting tasks and of tasks just about to go on; any number of tasks", "why_tests_cant": "All interleavings and cancellation points.", "anchors": ["src/lionherd_core/libs/concurrency/_primitives.py: Semaphore"]}
{"id": "C310", "title": "An event in several executors runs once, and each lists how it ended", "statement": "An event appended to several executors has its body begun exactly once if its status is not pending any more and not at all while it is; once it has ended its status never changes, whatever the executors do, cancellations and denials included. No attempt is stuck: while one waits for the event, another runs its body or was given its turn, and turns are given in the order of arrival. An executor lists the event exactly if it was given it. When nothing is going on any more, every executor that has the event lists it under the status with which it ended. (The last part fails in general: an executor whose turn has not come lists it as pending, one whose process() call was cancelled while waiting lists it as processing, one that gave up after three denials lists it as aborted. Exact for executors without cancellation or denial: if and only if the executor tried to run it, or the event is still pending.)", "quantifier": "every number of executors, every interleaving of append, process, permission, locking, body, update, cancellation and abort", "why_tests_cant": "All interleavings of several processors over one event, with all cancellation points.", "anchors": ["src/lionherd_core/base/processor.py: Processor.process", "src/lionherd_core/base/processor.py: Executor.append, Executor._update_progression", "src/lionherd_core/base/event.py: Event.invoke"]}
{"id": "C311", "title": "A Lock is held by one task at a time and given in turn", "statement": "At any time at most one task holds a Lock. Tasks that wait for it stand in line in the order of their calls; the lock passes from its holder to the first in line, a task leaves the line only by getting the lock or by being cancelled, and while a task is in line the lock is held by a task or was given to one that goes on as soon as it runs. acquire by the holder and release by a task that does not hold the lock raise RuntimeError and change nothing. The same holds for the lock of a Condition, whatever is done with the condition.", "quantifier": "every number of tasks, every history of acquire, release, wait, notify, notify_all, resumptions and cancellations", "why_tests_cant": "All interleavings and cancellation points.", "anchors": ["src/lionherd_core/libs/concurrency/_primitives.py: Lock", "src/lionherd_core/libs/concurrency/_primitives.py: Condition.acquire, Condition.release"]}
{"id": "C312", "title": "A Condition wakes exactly the longest waiting tasks, and a wait ends with the lock held", "statement": "notify(n) by the holder of the lock wakes exactly the n tasks that have waited longest (all of them if there are fewer), notify_all all of them. A wait returns only if its task was notified during this wait and was not cancelled before it ran, and raises only if it was cancelled; however it ends, its task then holds the lock.", "quantifier": "every number of tasks, every history of calls, resumptions and cancellations", "why_tests_cant": "All interleavings and cancellation points.", "anchors": ["src/lionherd_core/libs/concurrency/_primitives.py: Condition.wait, Condition.notify, Condition.notify_all"]}
{"id": "C313", "title": "No notification of a Condition is lost", "statement": "Each task notified by notify ends its wait by returning, so that a notification is always used by a task. (Fails in general: a notified task that is cancelled before it runs raises, and the notification is not passed on to another waiting task. Exact: the wait returns if and only if the task runs before it is cancelled.)", "quantifier": "every history, every notified task, everything done afterwards", "why_tests_cant": "All interleavings and cancellation points.", "anchors": ["src/lionherd_core/libs/concurrency/_primitives.py: Condition.notify, Condition.wait"]}
{"id": "C314", "title": "An Event releases every task that waits for it, once set and not before", "statement": "is_set is true exactly when set has been called. No wait returns before that. Once set has been called no task waits any more: every call of wait made before or after has returned, was cancelled, or returns as soon as its task runs. A wait returns at most once, and until the event is set statistics counts exactly the calls that wait.", "quantifier": "every number of tasks, every history of set, wait, resumptions and cancellations", "why_tests_cant": "All interleavings and cancellation points.", "anchors": ["src/lionherd_core/libs/concurrency/_primitives.py: Event"]}
{"id": "C315", "title": "A task group is left only when all its tasks have ended, and with all their exceptions", "statement": "When the block of create_task_group is left, its body and every task started in it have ended, and nothing is started afterwards: starting a task then raises RuntimeError. The block can be left as soon as that is so. It ends with the group of exactly the exceptions that its body and its tasks raised, in the order in which they were raised, or normally if there was none. The remaining tasks are cancelled from the moment when one raises or the scope is cancelled, and nothing ends by cancellation before.", "quantifier": "every history of starts, reports, ends, failures and cancellations of any number of tasks and of the body of the block (cancellation from outside the block excluded)", "why_tests_cant": "All interleavings of the tasks and all points at which one of them fails.", "anchors": ["src/lionherd_core/libs/concurrency/_task.py: TaskGroup", "src/lionherd_core/libs/concurrency/_task.py: create_task_group"]}
{"id": "C316", "title": "start gives what its task did first", "statement": "Each call of start gives the value that its task reported, the exception that the task raised before a report, or RuntimeError if the task returned without a report, and it ends at most once. An exception handed on that way is not reported by the block as well and does not cancel the other tasks. No call of start waits for ever: when the block has been left every one of them has ended.", "quantifier": "every history of a task group (as in C315)", "why_tests_cant": "All interleavings of the tasks and all points at which one of them fails.", "anchors": ["src/lionherd_core/libs/concurrency/_task.py: TaskGroup.start"]}
{"id": "C317", "title": "to_dict of a parameter object shows exactly its set fields, and rebuilds the object", "statement": "to_dict(exclude) of a Params or DataClass object has an entry for a field exactly if it is a field of the class, is not excluded, and is set to something that is no sentinel; the entry is the value, enumeration members being replaced by their values if so configured. Every object can be rebuilt by passing its to_dict() to its class, strict classes included, and the new object shows the same in every to_dict. (Where the values of enumeration members are no sentinels and no enumeration members.)", "quantifier": "every configuration, class, object and set of excluded names", "why_tests_cant": "All configurations and values.", "anchors": ["src/lionherd_core/types/base.py: Params.to_dict", "src/lionherd_core/types/base.py: DataClass.to_dict"]}
{"id": "C318", "title": "as_nullable, as_listable and with_validator change only what they name, in any order", "statement": "On every spec as_nullable() gives a spec whose annotation also allows None (instead of the list, if it is a list) and as_listable() one whose annotation is a list; with_validator(v) replaces the validator, or raises an exception group if v is not made of callables. Nothing else changes. Two such calls in either order, or the same call twice, give equal specs. (The last part fails: metadata are compared in order, so only the entries and the annotation are the same. A repeated call gives an equal spec exactly if the entry is the last one.)", "quantifier": "every spec and validator", "why_tests_cant": "All metadata lists.", "anchors": ["src/lionherd_core/types/spec.py: Spec.as_nullable", "src/lionherd_core/types/spec.py: Spec.as_listable", "src/lionherd_core/types/spec.py: Spec.with_validator"]}
{"id": "C319", "title": "race leaves no awaitable behind", "statement": "When race(*aws) has ended, by a value, an error or the cancellation of its caller, every awaitable has ended, once, and before the call did; it does not end while one of them runs. It ends with the outcome of the awaitable that ended first, or with the cancellation of the caller if there was one; what the others do while they are being cancelled has no influence. The others are cancelled from the moment when the first outcome is received or the caller is cancelled, and not before. As soon as all awaitables have ended the call can end.", "quantifier": "every number of awaitables, all outcomes, every order of endings, and a cancellation of the caller at any moment", "why_tests_cant": "All interleavings of endings, the reception of the first outcome, cancellation and clean-up.", "anchors": ["src/lionherd_core/libs/concurrency/_patterns.py: race"]}
{"id": "C320", "title": "to_json(sort_keys=True) is canonical", "statement": "With sort_keys=True, elements of one class with the same id, creation time, metadata entries and field values have the same text, whatever the order of metadata entries, of fields and of the entries of dicts among the field values; the keys of the object and of its metadata are ascending. Without it the members are written as id, creation time, metadata, then the fields, each dict in its own order. Conversely, elements that C234 covers and that have the same text have the same content.", "quantifier": "every pair of elements without repeated names, compact or indented", "why_tests_cant": "All contents and all orders of dicts.", "anchors": ["src/lionherd_core/base/element.py: Element.to_json", "src/lionherd_core/ln/_json_dump.py: json_dumpb"]}
{"id": "C321", "title": "A broadcaster does not keep its subscribers alive", "statement": "Once the program has given up its last reference to a subscribed callback (for a bound method: to its receiver), the callback is collected: broadcasts no longer call it and get_subscriber_count no longer counts it.", "quantifier": "every history of subscriptions, broadcasts, counts and dropped references", "why_tests_cant": "All histories; whether an object is collected depends on every call made before the reference is dropped.", "anchors": ["src/lionherd_core/base/broadcaster.py: Broadcaster.subscribe, broadcast, get_subscriber_count", "src/lionherd_core/libs/concurrency/_utils.py: is_coro_func"]}
{"id": "C322", "title": "A broadcast runs the code of every live subscriber", "statement": "A broadcast that no callback aborts runs the body of every live subscriber, in the order of subscription; coroutines are awaited, exceptions do not stop it.", "quantifier": "every history, every kind of callable (functions, methods, partials, callable objects), every way the callbacks end", "why_tests_cant": "All kinds of callables in all combinations and histories of the answer cache.", "anchors": ["src/lionherd_core/base/broadcaster.py: Broadcaster.broadcast", "src/lionherd_core/libs/concurrency/_utils.py: is_coro_func"]}
{"id": "C323", "title": "json_dumps handles an object by its type and the flags of the call only", "statement": "What json_dumps, json_dumpb and json_lines_iter do with an object that orjson does not write itself (which serializer is called, or which fallback with which clip) is determined by the type of the object and the flags of the call, whatever calls with whatever flags were made before or are made while the call goes on; at most 128 default functions are kept.", "quantifier": "every history of calls with every combination of flags, also interleaved (a generator of json_lines_iter advanced between other calls)", "why_tests_cant": "All histories; the default functions and their type caches are shared between calls.", "anchors": ["src/lionherd_core/ln/_json_dump.py: json_dumpb, json_dumps, json_lines_iter, get_orjson_default"]}
{"id": "C324", "title": "Every dict with text keys is accepted as node content", "statement": "Node(content=v) accepts None, every object with to_dict, every pydantic model and every dict with text keys, and keeps it; a serialised element in place of the content is restored.", "quantifier": "every value passed as content, every registry of node classes, every behaviour of from_dict", "why_tests_cant": "All values, in particular dicts that happen to have an entry \"metadata\".", "anchors": ["src/lionherd_core/base/node.py: Node.content, Node._validate_content"]}
{"id": "C325", "title": "Rejected content raises ValidationError", "statement": "Whatever is passed as content, the constructor of a node succeeds or raises ValidationError.", "quantifier": "every value passed as content, every registry of node classes, every behaviour of from_dict", "why_tests_cant": "All values.", "anchors": ["src/lionherd_core/base/node.py: Node._validate_content"]}
{"id": "C326", "title": "Classes are checked before items are built, whatever the metadata key", "statement": "Pile.from_dict(d, item_meta_key=k) with a type constraint: if an item declares, in the metadata it is loaded with, a class outside the constraint, the call raises TypeError before any item is built; an item is not refused for anything else its dict says about classes.", "quantifier": "every key, every constraint, every list of item dicts with metadata under any key, every behaviour of loading classes and building items", "why_tests_cant": "All keys and lists; the order of checking and building matters.", "anchors": ["src/lionherd_core/base/pile.py: Pile.from_dict", "src/lionherd_core/base/element.py: Element.from_dict"]}
{"id": "C327", "title": "Loaded items have the classes they declare, whatever the metadata key", "statement": "If Pile.from_dict(d, item_meta_key=k) returns, every item was built exactly once, in order, as the class it declares in the metadata it is loaded with, and all classes satisfy the constraint; an item that declares a class outside the constraint makes the call fail.", "quantifier": "every key, every constraint, every list of item dicts with metadata under any key, every behaviour of loading classes and building items", "why_tests_cant": "All keys and lists.", "anchors": ["src/lionherd_core/base/pile.py: Pile.from_dict", "src/lionherd_core/base/element.py: Element.from_dict"]}
{"id": "C328", "title": "Every element comes back as an instance of its class, at every depth", "statement": "B.from_dict(x.to_dict()), with B a base class of the class of x, succeeds and gives an object in which every element at every depth - items of piles, piles of graphs and flows, their items and so on - is an instance of the class it had.", "quantifier": "every element, pile, graph and flow nested to any depth, of any classes, every class whose from_dict is called", "why_tests_cant": "Any nesting and any classes.", "anchors": ["src/lionherd_core/base/element.py: Element.from_dict", "src/lionherd_core/base/pile.py: Pile.from_dict", "src/lionherd_core/base/graph.py: Graph.from_dict", "src/lionherd_core/base/node.py: Node.from_dict", "src/lionherd_core/base/flow.py: Flow._validate_piles"]}
{"id": "C329", "title": "A path returned with file_exist_ok=False is free", "statement": "When acreate_path with file_exist_ok=False returns a path there is no file at it, and two calls whose programs create their files at once do not return the same path, whatever other calls and programs do meanwhile.", "quantifier": "every number of concurrent calls, every interleaving with programs that create and delete files", "why_tests_cant": "Any schedule of calls and other programs.", "anchors": ["src/lionherd_core/ln/_utils.py: acreate_path"]}
{"id": "C330", "title": "dir_exist_ok=False gives a directory to at most one caller", "statement": "Of any number of concurrent acreate_path calls with dir_exist_ok=False for the same directory at most one returns, and none does if the directory was there before. They never all fail either: if the directory was not there, nobody else makes it and existing files are allowed, then a call is refused only when another one has been given the directory.", "quantifier": "every number of concurrent calls, every interleaving with other programs that make directories and create and delete files (directories are not deleted)", "why_tests_cant": "Any schedule of calls and other programs.", "anchors": ["src/lionherd_core/ln/_utils.py: acreate_path"]}
{"id": "C331", "title": "First calls from several threads never block each other for good", "statement": "However the first calls of to_list, hash_dict and alcall by several threads have interleaved, every one of these calls can still end: if a thread is initialising, it ends on its own, and any other thread then ends on its own.", "quantifier": "any number of threads, all interleavings of the reads and writes of the module globals and of taking the lock, any number of tables", "why_tests_cant": "A deadlock shows only under particular thread schedules.", "anchors": ["src/lionherd_core/ln/_to_list.py: to_list", "src/lionherd_core/ln/_hash.py: hash_dict", "src/lionherd_core/ln/_async_call.py: alcall"]}
