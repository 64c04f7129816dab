{
 "claims": [
  {
   "property": "C01",
   "status": "proved",
   "theorems": [
    "Verif.Progression.C01_move_perm",
    "Verif.Progression.C01_swap_perm",
    "Verif.Progression.C01_reverse_perm",
    "Verif.Progression.C01_reverse_twice",
    "Verif.Progression.C01_swap_positions",
    "Verif.Progression.C01_swap_twice",
    "Verif.Progression.C01_move_positions"
   ],
   "note": ""
  },
  {
   "property": "C02",
   "status": "proved",
   "theorems": [
    "Verif.Progression.C02_swap_domain",
    "Verif.Progression.C02_move_domain",
    "Verif.Progression.C02_pop_in_range",
    "Verif.Progression.C02_pop_out_of_range",
    "Verif.Progression.C02_popleft",
    "Verif.Progression.C02_getitem",
    "Verif.Progression.C02_setitem",
    "Verif.Progression.C02_insert_clamps"
   ],
   "note": ""
  },
  {
   "property": "C03",
   "status": "proved",
   "theorems": [
    "Verif.Progression.C03_include",
    "Verif.Progression.C03_exclude_multiplicity",
    "Verif.Progression.C03_exclude",
    "Verif.Progression.C03_exclude_limit",
    "Verif.Progression.C03_bad_argument"
   ],
   "note": "Limit of the domain (C03_exclude_limit): Outside the domain of C03: after `exclude(x)` on a progression with a repeated id, `x` is still there and excluding again changes the progression again."
  },
  {
   "property": "C04",
   "status": "proved",
   "theorems": [
    "Verif.Progression.C04_failed_op_unchanged",
    "Verif.Progression.C04_extend_exact",
    "Verif.Progression.C04_extend_limit"
   ],
   "note": "Limit of the domain (C04_extend_limit): Outside the domain of C04: a failing `extend` keeps the items before the failing one."
  },
  {
   "property": "C05",
   "status": "proved",
   "theorems": [
    "Verif.Pile.C05_order_contents_agree"
   ],
   "note": ""
  },
  {
   "property": "C06",
   "status": "proved",
   "theorems": [
    "Verif.Pile.C06_refines_ordered_map",
    "Verif.Pile.C06_construction",
    "Verif.Pile.C06_error_unchanged",
    "Verif.Pile.C06_reachable_consistent"
   ],
   "note": ""
  },
  {
   "property": "C07",
   "status": "proved",
   "theorems": [
    "Verif.Pile.C07_type_constraint",
    "Verif.Pile.C07_violating_item_rejected"
   ],
   "note": ""
  },
  {
   "property": "C08",
   "status": "partial",
   "theorems": [
    "Verif.Pile.C08_explicit_order_partial",
    "Verif.Pile.C08_unknown_id_rejected",
    "Verif.Pile.C08_subset_violation",
    "Verif.Pile.C08_duplicate_violation",
    "Verif.Pile.C08_accepted_partial",
    "Verif.Pile.C08_consistent_iff_partial",
    "Verif.Pile.C08_taken_out"
   ],
   "note": "Refuted in general (C08_subset_violation): C08 is false as stated: an order omitting an item is accepted; the pile then has length 2, contains item 2, but iterates over item 1 only, and removing item 2 raises `ValueError` after having deleted it. Refuted in general (C08_duplicate_violation): C08 is false as stated: an order repeating an id is accepted; iteration yields the item twice, and removing it leaves a dangling id so that iteration raises `KeyError`. Proved part (C08_explicit_order_partial): C08 for orders that are duplicate-free and mention every item: construction succeeds, the pile is consistent and iterates over its items in exactly the given order. Missing from the full claim: rejection of orders that repeat or omit ids; the code accepts them (`C08_subset_violation`, `C08_duplicate_violation`). Proved part (C08_accepted_partial): C08, exact: a non-empty explicit order is accepted exactly when the items alone form a pile and every id of the order is the id of an item; otherwise the exception is that of the items, or `NotFoundError`. Proved part (C08_consistent_iff_partial): C08, exact: an accepted explicit order gives a pile that iterates over each of its items once, in that order, and has their number as length, exactly when the order lists every item exactly once. Missing from the full claim: rejection of the other orders (`C08_subset_violation`, `C08_duplicate_violation`)."
  },
  {
   "property": "C09",
   "status": "proved",
   "theorems": [
    "Verif.Pile.C09_index",
    "Verif.Pile.C09_slice",
    "Verif.Pile.C09_slice_picks",
    "Verif.Pile.C09_slice_segment",
    "Verif.Pile.C09_progression",
    "Verif.Pile.C09_predicate",
    "Verif.Pile.C09_filter_by_type",
    "Verif.Pile.C09_id_list",
    "Verif.Pile.C09_list_mixing",
    "Verif.Pile.C09_index_list",
    "Verif.Pile.C09_id_list_missing",
    "Verif.Pile.C09_index_list_outside"
   ],
   "note": ""
  },
  {
   "property": "C10",
   "status": "proved",
   "theorems": [
    "Verif.Pile.C10_round_trip",
    "Verif.Pile.C10_empty_constraint_limit",
    "Verif.Pile.C10_name_limit"
   ],
   "note": "Limit of the domain (C10_empty_constraint_limit): Outside the domain of C10: an empty (all-rejecting) constraint set comes back as no constraint at all, so a pile that refuses every item becomes a pile that accepts every item. Limit of the domain (C10_name_limit): Outside the domain of C10: an unnamed pile whose metadata happens to hold a key `progression_name` comes back with that name, and an empty name comes back as `None`."
  },
  {
   "property": "C11",
   "status": "partial",
   "theorems": [
    "Verif.Flow.C11_created",
    "Verif.Flow.C11_integrity_partial",
    "Verif.Flow.C11_integrity_without_remove_item",
    "Verif.Flow.C11_duplicate_violation",
    "Verif.Flow.C11_exact_partial"
   ],
   "note": "Refuted in general (C11_duplicate_violation): C11 fails in general: a progression that lists item 1 twice keeps one reference after `remove_item(1)`. Proved part (C11_integrity_partial): C11 (partial). From any constructed flow, after any history in which `remove_item(u)` is only called while no progression lists `u` twice, every id in every progression is the id of a stored item. Missing: the unrestricted statement is false, see `C11_duplicate_violation`. Proved part (C11_exact_partial): C11 (exact). A call keeps referential integrity exactly if it is not a `remove_item(u)` while some progression lists `u` twice. Missing: see `C11_duplicate_violation`."
  },
  {
   "property": "C12",
   "status": "proved",
   "theorems": [
    "Verif.Flow.C12_names",
    "Verif.Flow.C12_add_taken_name",
    "Verif.Flow.C12_duplicate_names_limit",
    "Verif.Flow.C12_add_exact"
   ],
   "note": "Limit of the domain (C12_duplicate_names_limit): Outside the domain of C12: construction accepts two progressions with one name; `get_progression` then finds only the second, and removing it by name makes the remaining bearer of the name unreachable."
  },
  {
   "property": "C13",
   "status": "partial",
   "theorems": [
    "Verif.Flow.C13_remove_item_effect",
    "Verif.Flow.C13_remove_item_everywhere_partial",
    "Verif.Flow.C13_absent",
    "Verif.Flow.C13_duplicate_violation",
    "Verif.Flow.C13_exact_partial"
   ],
   "note": "Refuted in general (C13_duplicate_violation): C13 fails in general: with a repeated id one reference survives. Proved part (C13_remove_item_everywhere_partial): C13 (partial): if no progression lists the id twice, `remove_item` removes every reference to it and keeps all other entries in order. Missing: with repeated ids one reference per extra copy survives (`C13_duplicate_violation`). Proved part (C13_exact_partial): C13 (exact). `remove_item(x)` removes `x` from every progression exactly if none lists it twice. Missing: see `C13_duplicate_violation`."
  },
  {
   "property": "C14",
   "status": "partial",
   "theorems": [
    "Verif.Flow.C14_atomic_partial",
    "Verif.Flow.C14_add_item_violation",
    "Verif.Flow.C14_exact_partial",
    "Verif.Flow.C14_left_partial"
   ],
   "note": "Refuted in general (C14_add_item_violation): C14 fails for `add_item`: naming an unknown progression raises `KeyError`, but the item stays added, and progressions earlier in the list have already received it. Proved part (C14_atomic_partial): C14 (partial): `add_progression`, `remove_progression` and `remove_item` leave the flow unchanged when they raise, on every flow reachable from a construction with distinct names by a history in which `remove_item` is safe (so that integrity holds); `add_item` leaves it unchanged when the item itself is rejected. Missing: `add_item` naming an unknown progression (`C14_add_item_violation`). Proved part (C14_exact_partial): C14 (exact). A call that raises leaves the flow unchanged exactly if it is not an `add_item` whose item was accepted. Proved part (C14_left_partial): C14 (what is left). When `add_item(x, progs)` raises although the item was accepted, the flow holds the item as its last one, and `x` has been appended to the progressions named before the first one that is not found, as if only these had been named."
  },
  {
   "property": "C15",
   "status": "proved",
   "theorems": [
    "Verif.Graph.C15_history",
    "Verif.Graph.C15_endpoints",
    "Verif.Graph.C15_neighbours",
    "Verif.Graph.C15_contains",
    "Verif.Graph.C15_malformed"
   ],
   "note": ""
  },
  {
   "property": "C16",
   "status": "proved",
   "theorems": [
    "Verif.Graph.C16_remove_node"
   ],
   "note": ""
  },
  {
   "property": "C17",
   "status": "proved",
   "theorems": [
    "Verif.Graph.C17_is_acyclic",
    "Verif.Graph.C17_is_acyclic_within_limit",
    "Verif.Graph.C17_deep_limit"
   ],
   "note": "Limit of the domain (C17_is_acyclic_within_limit): C17 for graphs that fit the interpreter's recursion limit: the check returns, and decides acyclicity. Limit of the domain (C17_deep_limit): Outside the domain of C17: for every recursion limit there is a graph built by a history, with one node more than the limit, that has no cycle, and on which `is_acyclic()` (hence `topological_sort()`) raises `RecursionError` for every iteration order."
  },
  {
   "property": "C18",
   "status": "proved",
   "theorems": [
    "Verif.Graph.C18_topological_sort",
    "Verif.Graph.C18_topological_sort_within_limit",
    "Verif.Graph.C18_deep_limit"
   ],
   "note": "Limit of the domain (C18_topological_sort_within_limit): C18 for graphs that fit the recursion limit: a topological order is returned exactly when the graph is acyclic, `ValueError` is raised exactly when it is not. Limit of the domain (C18_deep_limit): Outside the domain of C18: on the same acyclic graphs `topological_sort()` raises `RecursionError` instead of returning an order."
  },
  {
   "property": "C19",
   "status": "proved",
   "theorems": [
    "Verif.Graph.C19_find_path",
    "Verif.Graph.C19_find_path_self",
    "Verif.Graph.C19_find_path_unknown"
   ],
   "note": ""
  },
  {
   "property": "C20",
   "status": "proved",
   "theorems": [
    "Verif.Graph.C20_round_trip"
   ],
   "note": ""
  },
  {
   "property": "C21",
   "status": "proved",
   "theorems": [
    "Verif.Event.C21_body_at_most_once",
    "Verif.Event.C21_final",
    "Verif.Event.C21_return_means_ended",
    "Verif.Event.C21_before_end",
    "Verif.Event.C21_progress"
   ],
   "note": ""
  },
  {
   "property": "C22",
   "status": "proved",
   "theorems": [
    "Verif.Event.C22_outcome"
   ],
   "note": ""
  },
  {
   "property": "C23",
   "status": "partial",
   "theorems": [
    "Verif.Event.C23_retryable_partial",
    "Verif.Event.C23_nested_violation",
    "Verif.Event.C23_exact_partial"
   ],
   "note": "Refuted in general (C23_nested_violation): C23 is false for nested groups: `ExceptionGroup([ExceptionGroup([ValidationError])])` contains a non-retryable error but the execution is marked retryable. Proved part (C23_retryable_partial): C23 (partial). After a failed `invoke()`, `retryable` is `False` exactly when the exception \u2014 or, if it is a group whose members are not themselves groups, one of its members \u2014 is a `LionherdError` marked non-retryable. The full statement drops the hypothesis `hflat` (\"no nested groups\"); it is false, see `C23_nested_violation`. Proved part (C23_exact_partial): C23, exactly: after a failed `invoke()`, whatever the exception, `retryable` is `False` exactly when the exception itself (no group) or a direct member of the group is marked non-retryable. So the claim \u2014 `False` exactly when some exception in it is so marked \u2014 holds exactly for the exceptions in which a marked exception at any depth implies one at the top level."
  },
  {
   "property": "C24",
   "status": "proved",
   "theorems": [
    "Verif.Event.C24_fresh",
    "Verif.Event.C24_fields"
   ],
   "note": ""
  },
  {
   "property": "C25",
   "status": "proved",
   "theorems": [
    "Verif.Event.C25_bounded",
    "Verif.Event.C25_some",
    "Verif.Event.C25_complete"
   ],
   "note": ""
  },
  {
   "property": "C26",
   "status": "proved",
   "theorems": [
    "Verif.ExecLoop.C26_account",
    "Verif.Processor.C26_history",
    "Verif.Processor.C26_capacity",
    "Verif.Processor.C26_overlapping",
    "Verif.Processor.C26_overlap_limit"
   ],
   "note": "Limit of the domain (C26_overlap_limit): The bound of `C26_capacity` needs that calls do not overlap: with `queue_capacity` 1 the first of two overlapping calls starts two events."
  },
  {
   "property": "C27",
   "status": "proved",
   "theorems": [
    "Verif.Processor.C27_order",
    "Verif.Processor.C27_minimal",
    "Verif.Processor.C27_started_was_taken"
   ],
   "note": ""
  },
  {
   "property": "C28",
   "status": "proved",
   "theorems": [
    "Verif.Processor.C28_never_early",
    "Verif.Processor.C28_backoff",
    "Verif.Processor.C28_third_denial",
    "Verif.Processor.C28_eviction_limit"
   ],
   "note": "Limit of the domain (C28_eviction_limit): Outside the domain of C28 when the table of denial counts is full: with `max_denial_tracking = 1` a single event's own count is evicted by its next denial, so it is denied three (four, ...) times and put back each time."
  },
  {
   "property": "C29",
   "status": "partial",
   "theorems": [
    "Verif.Processor.C29_rejects",
    "Verif.Processor.C29_bound_partial",
    "Verif.Processor.C29_requeue_violation",
    "Verif.Processor.C29_enqueue_violation",
    "Verif.Processor.C29_tight_partial"
   ],
   "note": "Refuted in general (C29_requeue_violation): C29 is false: a denied entry that is put back after the queue has been refilled exceeds the bound (`max_queue_size = 1`, no concurrent `enqueue` calls). Refuted in general (C29_enqueue_violation): C29 is false: two concurrent `enqueue` calls both pass the size check before either puts its entry. Proved part (C29_bound_partial): C29 (partial). The queue exceeds `max_queue_size` by less than the number of concurrent `enqueue` calls plus the number of entries that `process()` calls have in hand and may put back. Missing: the claim's bound `max_queue_size` itself, which is false (`C29_requeue_violation`, `C29_enqueue_violation`). Proved part (C29_tight_partial): C29 (partial): the bound of `C29_bound_partial` is reached, for every valid configuration and any numbers of overlapping calls."
  },
  {
   "property": "C30",
   "status": "proved",
   "theorems": [
    "Verif.Executor.C30_exactly_one"
   ],
   "note": ""
  },
  {
   "property": "C31",
   "status": "proved",
   "theorems": [
    "Verif.Executor.C31_cleanup_safe",
    "Verif.Executor.C31_cleanup"
   ],
   "note": ""
  },
  {
   "property": "C32",
   "status": "partial",
   "theorems": [
    "Verif.Executor.C32_no_event_lost_partial",
    "Verif.Executor.C32_full_violation",
    "Verif.Executor.C32_raise_violation",
    "Verif.Executor.C32_start_violation",
    "Verif.Executor.C32_lost_for_good_partial"
   ],
   "note": "Refuted in general (C32_full_violation): `append` on a full queue raises QueueFullError, but the event stays listed as pending, is not queued, and a later `start()` does not queue it either. Refuted in general (C32_raise_violation): A `request_permission` that raises loses the event as well: it stays pending, and nothing holds or queues it. Refuted in general (C32_start_violation): `start()` on more pending events than the queue holds: the rest is never queued. Proved part (C32_no_event_lost_partial): Once the processor exists, in every history in which no `enqueue` is refused, no `process()` call fails or is cancelled, no event ends as `pending` and clean-ups leave waiting and executing events alone: an event listed as pending is in exactly one place from which it will be processed: in the queue, about to be put there, or in the hands of a `process()` call. Missing from the full claim: refused `enqueue`s and failed or cancelled `process()` calls; there events are lost (`C32_full_violation`, `C32_raise_violation`). Proved part (C32_lost_for_good_partial): C32: an event that is listed as pending after the processor was created, but is nowhere queued or in hand, is lost for good: whatever is appended, started, forwarded, processed or cancelled later, it stays listed as pending and never executes (only a clean-up of PENDING removes it)."
  },
  {
   "property": "C33",
   "status": "proved",
   "theorems": [
    "Verif.PriorityQueue.C33_history",
    "Verif.PriorityQueue.C33_observers",
    "Verif.PriorityQueue.C33_conservation",
    "Verif.PriorityQueue.C33_nowait_finishes"
   ],
   "note": ""
  },
  {
   "property": "C34",
   "status": "proved",
   "theorems": [
    "Verif.PriorityQueue.C34_wakeup",
    "Verif.PriorityQueue.C34_lost_wakeup_limit"
   ],
   "note": "Limit of the domain (C34_lost_wakeup_limit): Outside the domain of C34: with `maxsize = 1`, two getters and two putters reach a state in which the queue is empty, one `put` and one `get` are blocked and nothing is ready \u2014 a deadlock. (Every lock hand-over in this schedule is the first-come-first-served one.)"
  },
  {
   "property": "C35",
   "status": "proved",
   "theorems": [
    "Verif.EventBus.C35_history",
    "Verif.EventBus.C35_delivery"
   ],
   "note": ""
  },
  {
   "property": "C36",
   "status": "proved",
   "theorems": [
    "Verif.EventBus.C36_unsubscribe",
    "Verif.EventBus.C36_count",
    "Verif.EventBus.C36_topics"
   ],
   "note": ""
  },
  {
   "property": "C37",
   "status": "proved",
   "theorems": [
    "Verif.Broadcaster.C37_history",
    "Verif.Broadcaster.C37_once",
    "Verif.Broadcaster.C37_aborted",
    "Verif.Broadcaster.C37_unsubscribed"
   ],
   "note": ""
  },
  {
   "property": "C38",
   "status": "partial",
   "theorems": [
    "Verif.Broadcaster.C38_isolated_partial",
    "Verif.Broadcaster.C38_inherited_violation",
    "Verif.Broadcaster.C38_exact_partial"
   ],
   "note": "Refuted in general (C38_inherited_violation): C38 fails for subclasses `1` and `2` of a base class `0` that do not redeclare the list: a subscription on one receives the other's broadcasts. Proved part (C38_isolated_partial): C38, what holds: no operation on a class whose list is a different one (they have different owners) changes what a class delivers; for every callback kind and every `==`. Missing: subclasses that do not redeclare the list (`C38_inherited_violation`). Proved part (C38_exact_partial): C38, exactly: after any history, a callback newly subscribed on class `d` is called by the next broadcast of class `c` exactly when the two classes share the list (attribute lookup of the subscriber list ends at the same class), unless it was already subscribed there."
  },
  {
   "property": "C39",
   "status": "proved",
   "theorems": [
    "Verif.Fanout.C39_gather_results",
    "Verif.Fanout.C39_gather_return_exceptions",
    "Verif.Fanout.C39_gather_raises",
    "Verif.Fanout.C39_gather_progress",
    "Verif.Fanout.C39_cancelled"
   ],
   "note": ""
  },
  {
   "property": "C40",
   "status": "proved",
   "theorems": [
    "Verif.Fanout.C40_bounded",
    "Verif.Fanout.C40_limit",
    "Verif.Fanout.C40_results",
    "Verif.Fanout.C40_raises",
    "Verif.Fanout.C40_progress"
   ],
   "note": "Limit of the domain (C40_limit): C40, rejection of a limit below one, and acceptance of every other."
  },
  {
   "property": "C41",
   "status": "proved",
   "theorems": [
    "Verif.Patterns.C41_shape",
    "Verif.Patterns.C41_attempts",
    "Verif.Patterns.C41_terminates",
    "Verif.Patterns.C41_success",
    "Verif.Patterns.C41_failure",
    "Verif.Patterns.C41_other_not_retried",
    "Verif.Patterns.C41_delays",
    "Verif.Patterns.C41_deadline"
   ],
   "note": ""
  },
  {
   "property": "C42",
   "status": "proved",
   "theorems": [
    "Verif.Patterns.C42_prefix",
    "Verif.Patterns.C42_complete",
    "Verif.Patterns.C42_limit",
    "Verif.Patterns.C42_progress"
   ],
   "note": "Limit of the domain (C42_limit): C42, concurrency: with a positive `limit` at most that many awaitables run at any time."
  },
  {
   "property": "C43",
   "status": "proved",
   "theorems": [
    "Verif.AsyncCall.C43_item",
    "Verif.AsyncCall.C43_attempts",
    "Verif.AsyncCall.C43_first_success",
    "Verif.AsyncCall.C43_exhausted",
    "Verif.AsyncCall.C43_results",
    "Verif.AsyncCall.C43_raises",
    "Verif.AsyncCall.C43_bounded",
    "Verif.AsyncCall.C43_progress"
   ],
   "note": ""
  },
  {
   "property": "C44",
   "status": "proved",
   "theorems": [
    "Verif.Alcall.C44_bcall",
    "Verif.AsyncCall.C44_concat",
    "Verif.AsyncCall.C44_batch",
    "Verif.AsyncCall.C44_sizes"
   ],
   "note": ""
  },
  {
   "property": "C45",
   "status": "proved",
   "theorems": [
    "Verif.Lexer.C45_numbers",
    "Verif.Lexer.C45_total",
    "Verif.Lexer.C45_faithful",
    "Verif.Lexer.C45_lines_monotone"
   ],
   "note": ""
  },
  {
   "property": "C46",
   "status": "proved",
   "theorems": [
    "Verif.Lexer.C46_roundtrip"
   ],
   "note": ""
  },
  {
   "property": "C47",
   "status": "proved",
   "theorems": [
    "Verif.Parser.C47_distinct",
    "Verif.Parser.C47_duplicate_rejected",
    "Verif.Parser.C47_accepted"
   ],
   "note": ""
  },
  {
   "property": "C48",
   "status": "partial",
   "theorems": [
    "Verif.Parser.C48_own_content_partial",
    "Verif.Parser.C48_leftmost_partial",
    "Verif.Parser.C48_lookalike_violation"
   ],
   "note": "Refuted in general (C48_lookalike_violation): The text of the second declaration, `Y`, is replaced by that of a lookalike inside the first one. Proved part (C48_own_content_partial): C48, where it holds: if no earlier position of the source matches the declaration's opening tag followed by a closing tag, the content is the stripped text between its own tags (up to the next closing tag). Missing: the earlier lookalikes of `C48_lookalike_violation`. Proved part (C48_leftmost_partial): C48, exactly what the parser does: every declaration gets the content of the leftmost place of the source that looks like its tag."
  },
  {
   "property": "C49",
   "status": "proved",
   "theorems": [
    "Verif.Parser.C49_wellformed",
    "Verif.Parser.C49_last_wins",
    "Verif.Parser.C49_total"
   ],
   "note": ""
  },
  {
   "property": "C50",
   "status": "proved",
   "theorems": [
    "Verif.Resolver.C50_sound",
    "Verif.Resolver.C50_complete",
    "Verif.Resolver.C50_errors"
   ],
   "note": ""
  },
  {
   "property": "C51",
   "status": "proved",
   "theorems": [
    "Verif.Resolver.C51_actions"
   ],
   "note": ""
  },
  {
   "property": "C52",
   "status": "proved",
   "theorems": [
    "Verif.Fuzzy.C52_result",
    "Verif.Fuzzy.C52_errors",
    "Verif.Fuzzy.C52_order_free"
   ],
   "note": ""
  },
  {
   "property": "C53",
   "status": "partial",
   "theorems": [
    "Verif.Fuzzy.C53_exact_partial",
    "Verif.Fuzzy.C53_dropped_violation",
    "Verif.Fuzzy.C53_all_fields_partial"
   ],
   "note": "Refuted in general (C53_dropped_violation): C53 fails: both fields of the OUT block are corrected to the same name; the first one is dropped without an error. Proved part (C53_exact_partial): C53, exactly: with correction, the result has as many fields as the OUT block if and only if no two of its names are corrected to one. Proved part (C53_all_fields_partial): C53 where it holds: when the names of the OUT block are corrected to different names, each reaches the result."
  },
  {
   "property": "C54",
   "status": "proved",
   "theorems": [
    "Verif.LndlTypes.C54_detects",
    "Verif.LndlTypes.C54_guard"
   ],
   "note": ""
  },
  {
   "property": "C55",
   "status": "partial",
   "theorems": [
    "Verif.LndlTypes.C55_no_actions",
    "Verif.LndlTypes.C55_top_partial",
    "Verif.LndlTypes.C55_nested_violation",
    "Verif.LndlTypes.C55_data_partial"
   ],
   "note": "Refuted in general (C55_nested_violation): C55 fails for an action inside a list: it is replaced by a dictionary describing the call instead of its result, and the guard is satisfied. Proved part (C55_top_partial): C55, for actions that are the value of a field of the model itself: the data validated has the result of each such action in its field, and the dump of its value in each other field (not declared with `exclude`); a missing result is an error. Proved part (C55_data_partial): C55, exact: revalidation fails when a field of the model itself holds an action without result. Otherwise it is validation of the data that have, under each key, the result of the field's action, else the plain form of the field unless declared with `exclude`, else that of the extra field; and nothing else. Missing from the full claim: actions deeper inside (`C55_nested_violation`)."
  },
  {
   "property": "C56",
   "status": "proved",
   "theorems": [
    "Verif.ToList.C56_members",
    "Verif.ToList.C56_members_exist",
    "Verif.ToList.C56_leaves",
    "Verif.ToList.C56_flat",
    "Verif.ToList.C56_dropna",
    "Verif.ToList.C56_idempotent"
   ],
   "note": ""
  },
  {
   "property": "C57",
   "status": "partial",
   "theorems": [
    "Verif.ToList.C57_needs_flatten",
    "Verif.ToList.C57_unhashable",
    "Verif.ToList.C57_hashable_partial",
    "Verif.ToList.C57_mappings_partial",
    "Verif.ToList.C57_meaning",
    "Verif.ToList.C57_collision_violation"
   ],
   "note": "Refuted in general (C57_collision_violation): A dict among the items makes `-2` disappear next to `-1`; and `{\"1\": \"a\"}` disappears next to `{1: \"a\"}`. Proved part (C57_hashable_partial): `unique` on hashable leaves: exactly the first occurrence of each value, in order. Proved part (C57_mappings_partial): With unhashable leaves: the same, provided every unhashable leaf is a mapping and no two different values have the same hash."
  },
  {
   "property": "C58",
   "status": "proved",
   "theorems": [
    "Verif.ToList.C58_elements",
    "Verif.ToList.C58_output_unique",
    "Verif.ToList.C58_plain_input",
    "Verif.ToList.C58_processed_input",
    "Verif.ToList.C58_map",
    "Verif.ToList.C58_raises",
    "Verif.ToList.C58_output"
   ],
   "note": ""
  },
  {
   "property": "C59",
   "status": "proved",
   "theorems": [
    "Verif.KeyMatch.C59_concat",
    "Verif.KeyMatch.C59_bound",
    "Verif.KeyMatch.C59_only_first_empty"
   ],
   "note": ""
  },
  {
   "property": "C60",
   "status": "proved",
   "theorems": [
    "Verif.KeyMatch.C60_spec",
    "Verif.KeyMatch.C60_no_match_left",
    "Verif.KeyMatch.C60_exact"
   ],
   "note": ""
  },
  {
   "property": "C61",
   "status": "proved",
   "theorems": [
    "Verif.HashDict.C61_order_insensitive",
    "Verif.HashDict.C61_equal_keys_limit",
    "Verif.HashDict.C61_str_collision_limit",
    "Verif.HashDict.C61_frozensets_limit"
   ],
   "note": "Limit of the domain (C61_equal_keys_limit): `{1: x}` and `{True: x}` are equal dicts with different representations. Limit of the domain (C61_str_collision_limit): `{1: x, \"1\": y}` and `{\"1\": y, 1: x}` are the same dict with different representations. Limit of the domain (C61_frozensets_limit): A set of two frozensets, `{frozenset({1}), frozenset({2})}`, has a representation that depends on the iteration order."
  },
  {
   "property": "C62",
   "status": "partial",
   "theorems": [
    "Verif.Params.C62_same_partial",
    "Verif.Params.C62_equal_partial",
    "Verif.Params.C62_collision_violation",
    "Verif.Params.C62_generated_partial",
    "Verif.Params.C62_none_violation"
   ],
   "note": "Refuted in general (C62_collision_violation): `P(x=-1) == P(x=-2)`, however tuples are hashed from the hashes of their elements. Refuted in general (C62_none_violation): With `none_as_sentinel`, `P(x=None)` and `P()` show the same fields but the generated `__eq__` tells them apart. Proved part (C62_same_partial): Objects with the same field values compare equal (under the provisos of C61 on set elements and on `str`). Proved part (C62_equal_partial): Objects that compare equal have the same field values, if `hash` separates their representations. The full claim has no such proviso. Proved part (C62_generated_partial): The `__eq__` generated by `@dataclass` for objects of one class, built by the constructor: equal exactly when the fields shown by `to_dict` are, if `Unset` and `Undefined` are the only sentinels and nothing is normalised. The full claim covers every configuration."
  },
  {
   "property": "C63",
   "status": "partial",
   "theorems": [
    "Verif.Params.C63_history_exact_partial",
    "Verif.ParamCall.C63_exact",
    "Verif.Params.C63_direct_partial",
    "Verif.Params.C63_some_ancestor",
    "Verif.Params.C63_init",
    "Verif.Params.C63_inherited_cache_violation"
   ],
   "note": "Refuted in general (C63_inherited_cache_violation): Once `A` was used, `B` no longer accepts its own field `y`. Proved part (C63_history_exact_partial): C63, exactly, for single inheritance: after any history of uses, a class accepts its own fields exactly when no class above it that has fields was used before the first use of the class. Proved part (C63_direct_partial): After any history, a class whose proper ancestors declare no fields accepts exactly its own fields. The full claim has no condition on the ancestors."
  },
  {
   "property": "C64",
   "status": "proved",
   "theorems": [
    "Verif.Spec.C64_unique_keys",
    "Verif.Spec.C64_with_updates"
   ],
   "note": ""
  },
  {
   "property": "C65",
   "status": "proved",
   "theorems": [
    "Verif.Operable.C65_unique_names",
    "Verif.Operable.C65_get",
    "Verif.Operable.C65_include",
    "Verif.Operable.C65_exclude",
    "Verif.Operable.C65_both_neither"
   ],
   "note": ""
  },
  {
   "property": "C66",
   "status": "partial",
   "theorems": [
    "Verif.Params.C66_hash_partial",
    "Verif.Params.C66_lists_violation",
    "Verif.Params.C66_exact_partial"
   ],
   "note": "Refuted in general (C66_lists_violation): `Meta(\"k\", [1]) == Meta(\"k\", [1.0])`, but different values enter the two hashes. Proved part (C66_hash_partial): Equal `Meta` objects hash equally when both values are callable, or neither is and equal values agree on being hashable, on their hash and, when unhashable, on their text. The full claim has no such proviso. Proved part (C66_exact_partial): C66, exactly: equal metadata entries whose values are not callable hash alike, whatever strings hash to, iff both values are hashable with the same hash, or neither is hashable and their texts agree."
  },
  {
   "property": "C67",
   "status": "proved",
   "theorems": [
    "Verif.Sim.C67_minimal",
    "Verif.Sim.C67_metric"
   ],
   "note": ""
  },
  {
   "property": "C68",
   "status": "proved",
   "theorems": [
    "Verif.Sim.C68_levenshtein",
    "Verif.Sim.C68_hamming",
    "Verif.Sim.C68_cosine",
    "Verif.Sim.C68_jaro",
    "Verif.Sim.C68_jaro_winkler"
   ],
   "note": ""
  },
  {
   "property": "C69",
   "status": "proved",
   "theorems": [
    "Verif.Sim.C69_ranking",
    "Verif.Sim.C69_most_similar"
   ],
   "note": ""
  },
  {
   "property": "C70",
   "status": "proved",
   "theorems": [
    "Verif.FuzzyJson.C70_extends",
    "Verif.FuzzyJson.C70_raises_iff",
    "Verif.FuzzyJson.C70_balanced",
    "Verif.FuzzyJson.C70_open_string_limit"
   ],
   "note": "Limit of the domain (C70_open_string_limit): Text that ends inside a string: the added bracket becomes part of the string, and every further application adds another."
  },
  {
   "property": "C71",
   "status": "proved",
   "theorems": [
    "Verif.FuzzyJson.C71_return_type",
    "Verif.FuzzyJson.C71_plain_json",
    "Verif.FuzzyJson.C71_origin"
   ],
   "note": ""
  },
  {
   "property": "C72",
   "status": "partial",
   "theorems": [
    "Verif.ToNum.C72_within_partial",
    "Verif.ToNum.C72_precision_violation",
    "Verif.ToNum.C72_int_violation",
    "Verif.ToNum.C72_nan_violation",
    "Verif.ToNum.C72_rejects",
    "Verif.ToNum.C72_exact_partial",
    "Verif.ToNum.C72_errors_partial"
   ],
   "note": "Refuted in general (C72_precision_violation): A value on the bound is rounded beyond it: `to_num(1.26, upper_bound=1.26, precision=1)` is 1.3. Refuted in general (C72_int_violation): Truncation falls below a fractional lower bound: `to_num(0.7, lower_bound=0.5, num_type=int)` is 0. Refuted in general (C72_nan_violation): NaN passes every bounds check. Proved part (C72_within_partial): Without rounding, a finite float result is the converted value and lies within the bounds; with rounding it does if rounding is monotone and leaves the bounds fixed; an int result does if the bounds are integers. Missing: fractional bounds with `num_type=int`, bounds finer than the precision, NaN. Proved part (C72_exact_partial): C72, the exact rule for results: the value read is not beyond a bound; as an int it is the integer part, as a float the value, rounded if a precision is given. Proved part (C72_errors_partial): C72, the exact rule for failures: TypeError for what is not a number or text; ValueError for text that is no number, values beyond a bound and the integer part of NaN; OverflowError for the integer part of an infinity and for ints beyond the doubles."
  },
  {
   "property": "C73",
   "status": "proved",
   "theorems": [
    "Verif.Prune.C73_complete",
    "Verif.Prune.C73_idempotent",
    "Verif.Prune.C73_keeps",
    "Verif.Prune.C73_keeps_sets",
    "Verif.Prune.C73_unchanged"
   ],
   "note": ""
  },
  {
   "property": "C74",
   "status": "partial",
   "theorems": [
    "Verif.CallArgs.C74_mapping_partial",
    "Verif.CallArgs.C74_too_many",
    "Verif.CallArgs.C74_unpacking",
    "Verif.CallArgs.C74_collision_violation",
    "Verif.CallArgs.C74_reserved_violation",
    "Verif.CallArgs.C74_nesting_partial",
    "Verif.CallArgs.C74_nesting_sound",
    "Verif.CallArgs.C74_nesting_violation",
    "Verif.CallArgs.C74_mapping_exact_partial",
    "Verif.CallArgs.C74_nesting_exact_partial"
   ],
   "note": "Refuted in general (C74_collision_violation): `f(1, a=2)` with first parameter `a`: the 1 is lost. Refuted in general (C74_reserved_violation): `f(1, _pos_0=2)`: the 1 is lost, and the 2 taken for it. Refuted in general (C74_nesting_violation): `f(opts=1, x=2)`, where `x` is a field of the model `opts`: the value given for `opts` is lost. Proved part (C74_mapping_partial): Positional values go to the parameters in order, keywords stay, nothing is lost or renamed, when no keyword repeats a parameter already given by position. The full claim: such a repetition is rejected. Proved part (C74_nesting_partial): Every argument is kept, in the place where it belongs, when no argument names a field that also receives nested arguments. The full claim has no such proviso. Proved part (C74_mapping_exact_partial): C74, positional arguments, exactly: a call with distinct keywords and not more positional arguments than parameters is never rejected, and keeps every argument exactly when no keyword repeats a parameter already given by position. Proved part (C74_nesting_exact_partial): C74, nesting, exactly: every argument is found in the result exactly when no argument belongs to a nested field that is itself given."
  },
  {
   "property": "C75",
   "status": "proved",
   "theorems": [
    "Verif.Element.C75_identity",
    "Verif.Element.C75_frozen",
    "Verif.Element.C75_assign"
   ],
   "note": ""
  },
  {
   "property": "C76",
   "status": "proved",
   "theorems": [
    "Verif.Element.C76_round_trip",
    "Verif.Element.C76_tag_removed"
   ],
   "note": ""
  },
  {
   "property": "C77",
   "status": "partial",
   "theorems": [
    "Verif.Element.C77_once_partial",
    "Verif.Element.C77_failure",
    "Verif.Element.C77_subclass_twice",
    "Verif.Element.C77_subclass_violation",
    "Verif.Element.C77_exact_partial"
   ],
   "note": "Refuted in general (C77_subclass_violation): C77 (violation). For data naming a subclass, a deserializer adding one adds two. Proved part (C77_once_partial): C77 (partial). If the data names no other registered class, the deserializer is applied exactly once: the result is that of data holding the deserialised content. Missing: data naming a registered subclass, see `C77_subclass_twice`. Proved part (C77_exact_partial): C77 (partial, exact). For data whose content can be told apart (two values other than the given one lead to different results): the deserializer is applied exactly once, whatever it is, if and only if the data names no other registered class. (Classes with a `from_dict` of their own are left out: what they do with the deserializer is their business.)"
  },
  {
   "property": "C78",
   "status": "partial",
   "theorems": [
    "Verif.Element.C78_aware_partial",
    "Verif.Element.C78_instant",
    "Verif.Element.C78_naive_violation",
    "Verif.Element.C78_exact_partial"
   ],
   "note": "Refuted in general (C78_naive_violation): C78 (violation). ISO text without an offset gives a creation time without timezone. Proved part (C78_aware_partial): C78 (partial). For a datetime, a number, or a string that is a number or ISO text with an offset, the result is timezone-aware. Missing: ISO text without an offset, see `C78_naive_violation`. Proved part (C78_exact_partial): C78, exactly: what is accepted as a creation time has no time zone iff it is a text that is not a usable number and stands, in ISO format, for a time without zone."
  },
  {
   "property": "C79",
   "status": "partial",
   "theorems": [
    "Verif.Implements.C79_public_partial",
    "Verif.Implements.C79_exact_partial",
    "Verif.Implements.C79_rejects",
    "Verif.Implements.C79_special_violation"
   ],
   "note": "Refuted in general (C79_special_violation): C79 (violation). A protocol consisting of a special method (such as `Containable` or `Hashable`) is satisfied by an empty class; so is one consisting of an annotated attribute. Proved part (C79_public_partial): C79 (partial). For protocols made of public methods and properties, decorating succeeds exactly when the class's own body defines every member of every protocol \u2014 inherited definitions do not count \u2014 and otherwise raises `TypeError`; on success the class is returned with exactly these protocols. Missing: members with private or special names and bare annotations, see the violations. Proved part (C79_exact_partial): C79 (partial, exact). For arbitrary protocols, decorating succeeds exactly when the class's own body defines every method and property of every protocol whose name does not begin with an underscore; otherwise it raises `TypeError`."
  },
  {
   "property": "C80",
   "status": "partial",
   "theorems": [
    "Verif.JsonDefault.C80_registered_partial",
    "Verif.JsonDefault.C80_override",
    "Verif.JsonDefault.C80_unlisted_ignored",
    "Verif.JsonDefault.C80_exact_partial",
    "Verif.JsonDefault.C80_unlisted_violation"
   ],
   "note": "Refuted in general (C80_unlisted_violation): C80 (violation). A serializer passed only through `additional` is not used; and one for a subclass of `Path` is not used even when the subclass is listed in `order`: the built-in one for `Path` wins. Proved part (C80_registered_partial): C80 (partial). Let a serializer `f` be registered for `t`, let `t` be listed in `order` and not be native. Then `f` is used for every object whose type is a subclass of `t` but of no built-in handled type and of no other listed type \u2014 after any history. Missing: types not listed in `order`, and types that also match another entry; see the violations. Proved part (C80_exact_partial): C80 (partial, exact). The serializer used for an object, whatever was serialised before: that of the first type, in the order built-in types (date times, enumerations, paths, decimals, sets, frozen sets) then listed types, or listed types only, that is a superclass, has a serializer (an additional one replaces a built-in one) and is not handled by orjson itself (date times and UUIDs unless passed through). If there is none, no serializer is used."
  },
  {
   "property": "C81",
   "status": "proved",
   "theorems": [
    "Verif.ExcGroup.C81_split",
    "Verif.ExcGroup.C81_none",
    "Verif.ExcGroup.C81_legal",
    "Verif.ExcGroup.C81_non_cancel"
   ],
   "note": ""
  },
  {
   "property": "C82",
   "status": "proved",
   "theorems": [
    "Verif.Leak.C82_live",
    "Verif.Leak.C82_slots_limit"
   ],
   "note": "Limit of the domain (C82_slots_limit): C82. An object that cannot be weakly referenced (an `int`, a `tuple`, an instance with `__slots__`): `track` raises `TypeError`, but the entry stays, even after the object is gone."
  },
  {
   "property": "C83",
   "status": "proved",
   "theorems": [
    "Verif.Element.C83_module_level"
   ],
   "note": ""
  },
  {
   "property": "C84",
   "status": "partial",
   "theorems": [
    "Verif.TypeScript.C84_union",
    "Verif.TypeScript.C84_lines_partial",
    "Verif.TypeScript.C84_not_required",
    "Verif.TypeScript.C84_exact_partial",
    "Verif.TypeScript.C84_marker_violation"
   ],
   "note": "Refuted in general (C84_marker_violation): C84 (violation). Required properties that admit `null` but are not marked: type `null`, no restriction at all, a union with an `enum` that has `null`. A required property marked though it does not admit `null`: an enum with `null` whose `type` is `string`. Proved part (C84_lines_partial): C84 (partial). If every property has one of the usual shapes and referenced definitions do not admit `null`, rendering succeeds with exactly one line per property, in the order of the schema, and the line has the marker `?` exactly when the property is not required or admits `null`. For other shapes see `C84_exact_partial` and the violations. Proved part (C84_exact_partial): C84 (exact). A property that can be rendered is marked as it should be exactly when it is not required or the code's rule agrees with JSON Schema on whether it admits `null`."
  },
  {
   "property": "C85",
   "status": "proved",
   "theorems": [
    "Verif.ToDict.C85_range",
    "Verif.ToDict.C85_depth"
   ],
   "note": ""
  },
  {
   "property": "C86",
   "status": "proved",
   "theorems": [
    "Verif.PileConc.C86_consistent",
    "Verif.PileConc.C86_lock_released",
    "Verif.PileConc.C86_effect",
    "Verif.PileConc.C86_membership"
   ],
   "note": ""
  },
  {
   "property": "C87",
   "status": "partial",
   "theorems": [
    "Verif.Flow.C87_ids_partial",
    "Verif.Flow.C87_by_id_partial",
    "Verif.Flow.C87_instance_violation",
    "Verif.Flow.C87_by_name_partial",
    "Verif.Flow.C87_instance_exact_partial"
   ],
   "note": "Refuted in general (C87_instance_violation): C87 fails for instances: passing the stored progression object itself raises `NotFoundError` when it lists any item, and returns an empty pile \u2014 not the progression \u2014 when it is empty. Proved part (C87_ids_partial): C87 (ids). `get_progression(id)` returns the progression with that id, raises NotFoundError exactly if there is none, and what is not an id raises TypeError. Proved part (C87_by_id_partial): C87 (partial): by id or by (registered) name, `get_progression` returns the stored progression. Proved part (C87_by_name_partial): C87 by name: if the names were distinct at the start, every named progression is found under its name. Proved part (C87_instance_exact_partial): C87 for the object itself, exactly: `NotFoundError` iff the progression lists an id that is not the id of a progression of the flow. What is returned otherwise is a pile."
  },
  {
   "property": "C88",
   "status": "proved",
   "theorems": [
    "Verif.Graph.C88_construct",
    "Verif.Graph.C88_dangling_limit"
   ],
   "note": "Limit of the domain (C88_dangling_limit): Outside the domain of C88: an edge to an unknown node is accepted by the constructor, after which the edge cannot be removed (`KeyError`, and the failed removal already changed the adjacency), `is_acyclic()` raises `KeyError`, and `get_successors(1)` raises `NotFoundError`."
  },
  {
   "property": "C89",
   "status": "proved",
   "theorems": [
    "Verif.Event.C89_terminal",
    "Verif.Event.C89_base_exception_limit"
   ],
   "note": "Limit of the domain (C89_base_exception_limit): Outside the domain of C89: when the body raises e.g. `KeyboardInterrupt` or `SystemExit`, the event stays PROCESSING for ever, and later `invoke()` calls return silently."
  },
  {
   "property": "C90",
   "status": "proved",
   "theorems": [
    "Verif.Event.C90_add_error",
    "Verif.Event.C90_base_exception_limit"
   ],
   "note": "Limit of the domain (C90_base_exception_limit): Outside the domain of C90: for a `BaseException` that is not an `Exception` (e.g. a cancellation added after another error): the call raises `TypeError` and the error is not recorded."
  },
  {
   "property": "C91",
   "status": "partial",
   "theorems": [
    "Verif.Processor.C91_overlap_violation",
    "Verif.Processor.C91_overlap_partial",
    "Verif.Processor.C91_unbounded_violation",
    "Verif.Processor.C91_tight_partial"
   ],
   "note": "Refuted in general (C91_overlap_violation): C91 is false: with `queue_capacity = 1`, a `process()` call that overlaps another one starts two events, because the other call's end resets the shared capacity. Refuted in general (C91_unbounded_violation): C91 is false, with no bound at all: whatever the capacity and the size of the queue, and though at no moment more than two `process()` calls run, one of them may start any number of events. Proved part (C91_overlap_partial): C91 (partial). With any number `N \u2265 1` of overlapping `process()` calls, at most `queue_capacity + N - 1` events are started between two capacity resets (by all calls together). The per-call bound of the claim is false (`C91_overlap_violation`). Proved part (C91_tight_partial): C91 (partial): the bound of `C91_overlap_partial` on the events started between two resets is reached, for every capacity, every size of the queue and every number of calls."
  },
  {
   "property": "C92",
   "status": "partial",
   "theorems": [
    "Verif.Processor.C92_exact_partial",
    "Verif.Processor.C92_stall_violation",
    "Verif.Processor.C92_recovers_partial"
   ],
   "note": "Refuted in general (C92_stall_violation): C92 is false: after that cancellation the processor never starts an event again, whatever is enqueued and however often `process()` is called. Proved part (C92_exact_partial): C92 (exact). At any moment at which every `process()` call has ended: the full capacity is available exactly if no event was started since the last call that returned normally after starting one; and no later history at all starts an event exactly if `queue_capacity` events or more were started since then. Proved part (C92_recovers_partial): C92 (partial). As long as no `process()` call is cancelled and no permission check raises (and calls do not overlap), the full capacity is available again whenever all calls have ended. With a cancelled call the processor can stall forever (`C92_stall_violation`)."
  },
  {
   "property": "C93",
   "status": "partial",
   "theorems": [
    "Verif.Executor.C93_exact_partial",
    "Verif.Executor.C93_any_cleanup_partial",
    "Verif.Executor.C93_cleanup_violation"
   ],
   "note": "Refuted in general (C93_cleanup_violation): `cleanup_events([PROCESSING])` while an event runs: when the event ends it is listed as completed although it is not stored, and asking for the completed events raises NotFoundError. Proved part (C93_exact_partial): C93 asks that the lists stay consistent under clean-ups of any status at any moment. Exactly: after any history whose clean-ups removed no event in hand, a further clean-up (of any statuses) keeps them consistent through every later history of the same kind if and only if it removes no event in hand itself, that is, none that a `process()` call has taken from the queue and is asking permission for or about to file, and none that is executing. In particular the clean-up of events that merely wait, in the queue or for a renewed attempt, does no harm. Proved part (C93_any_cleanup_partial): C93 asks the same for clean-ups of any status. Proved: it holds when, at each clean-up of waiting or executing events, none of these is still queued, held by a `process()` call or executing. Missing: clean-ups that remove such events (`C93_cleanup_violation`)."
  },
  {
   "property": "C94",
   "status": "partial",
   "theorems": [
    "Verif.Executor.C94_filed_partial",
    "Verif.Executor.C94_cancelled_violation",
    "Verif.Executor.C94_cut_off_partial"
   ],
   "note": "Refuted in general (C94_cancelled_violation): The `process()` call is cancelled: the executing event ends (as cancelled), but stays listed as processing for ever. Proved part (C94_filed_partial): When an executing event ends and its `finally` block completes, it is listed under the status it ended with, and under no other. Missing: an event cancelled together with its task group (`C94_cancelled_violation`). Proved part (C94_cut_off_partial): C94: an event whose execution is cut off together with its `process()` call stays listed as PROCESSING, and it is never executed again."
  },
  {
   "property": "C95",
   "status": "partial",
   "theorems": [
    "Verif.EventBus.C95_equal_handlers_violation",
    "Verif.EventBus.C95_equal_handlers_partial",
    "Verif.EventBus.C95_exact_partial"
   ],
   "note": "Refuted in general (C95_equal_handlers_violation): Two handlers that are `==` but different objects: unsubscribing one removes the other's subscription. Proved part (C95_equal_handlers_partial): C95, what does hold for every `==`: whenever `h` is a live subscriber, `unsubscribe` answers `True` and exactly one subscription of that topic goes away, and it is one of a handler that is `h` or equal to `h`; other topics keep theirs. Missing: that it is `h`'s own (`C95_equal_handlers_violation`). Proved part (C95_exact_partial): C95, exactly: unsubscribing a live handler removes its own (first) subscription exactly when no live handler before it in the topic compares equal to it."
  },
  {
   "property": "C96",
   "status": "partial",
   "theorems": [
    "Verif.EventBus.C96_bound_method_violation",
    "Verif.EventBus.C96_bound_method_partial"
   ],
   "note": "Refuted in general (C96_bound_method_violation): C96 fails in every state: after subscribing `obj.method` the live subscriptions are what they were before, so the method is not run by the next `emit`. Proved part (C96_bound_method_partial): C96, the part that holds: a bound method object that the caller keeps alive is delivered to."
  },
  {
   "property": "C97",
   "status": "partial",
   "theorems": [
    "Verif.EventBus.C97_call_raises_violation",
    "Verif.EventBus.C97_all_or_none_partial",
    "Verif.EventBus.C97_exact_partial"
   ],
   "note": "Refuted in general (C97_call_raises_violation): C97 fails in every state in which one live handler's call raises: `emit` raises and no handler is run. Proved part (C97_all_or_none_partial): C97, what holds: `emit` either runs all live handlers once, or raises without running any. Proved part (C97_exact_partial): C97, exactly: after any history, `emit` runs every live handler of the topic once and does not raise exactly when no call of a live handler raises at once; otherwise it raises and runs none."
  },
  {
   "property": "C98",
   "status": "partial",
   "theorems": [
    "Verif.Broadcaster.C98_bound_method_violation",
    "Verif.Broadcaster.C98_callable_object_violation",
    "Verif.Broadcaster.C98_unsubscribe_violation",
    "Verif.Broadcaster.C98_function_partial",
    "Verif.Broadcaster.C98_bound_method_partial"
   ],
   "note": "Refuted in general (C98_bound_method_violation): Subscribing the same bound method twice calls it twice, and unsubscribing it has no effect. Refuted in general (C98_callable_object_violation): Unsubscribing a callable object removes the subscription of one of its bound methods, and leaves its own. Refuted in general (C98_unsubscribe_violation): In every state `unsubscribe(obj.method)` changes nothing. Proved part (C98_function_partial): C98, what holds: `unsubscribe` of a function, also among bound methods, takes exactly its own (first) entry out of what the class delivers to, provided that the function is not itself the receiver of a subscribed method. (For a callable object that is, see `C98_callable_object_violation`.) Proved part (C98_bound_method_partial): C98, what holds: a subscribed bound method is delivered to for as long as its receiver and function live (and exactly as often as it was subscribed): subscribing appends one delivery."
  },
  {
   "property": "C99",
   "status": "partial",
   "theorems": [
    "Verif.Broadcaster.C99_inherited_instance_violation",
    "Verif.Broadcaster.C99_singleton_partial",
    "Verif.Broadcaster.C99_exact_partial"
   ],
   "note": "Refuted in general (C99_inherited_instance_violation): A subclass that does not redeclare `_instance` gets the instance of its base class, if that was constructed first. Proved part (C99_singleton_partial): C99, what holds: a class that declares `_instance` itself (so the lookup stops at the class) always constructs an instance of itself, the same one from then on, whatever other classes are constructed in between. Missing: classes that inherit the attribute (`C99_inherited_instance_violation`). Proved part (C99_exact_partial): C99, exactly: after any constructions, constructing a class returns an instance of that class exactly when the class that holds the `_instance` found for it is the class itself, or holds `None`."
  },
  {
   "property": "C100",
   "status": "partial",
   "theorems": [
    "Verif.Fanout.C100_exact_partial",
    "Verif.Fanout.C100_self_cancelled_violation",
    "Verif.Fanout.C100_self_cancelled_partial"
   ],
   "note": "Refuted in general (C100_self_cancelled_violation): Without `return_exceptions`, an awaitable that ends with a cancellation exception makes `gather` return normally, with the exception object and unfinished `None`s in the list. Proved part (C100_exact_partial): C100, exactly: `gather` can return normally with an entry that is no result if and only if some awaitable ends with a cancellation of its own. Proved part (C100_self_cancelled_partial): C100, what holds: if `gather` returns normally although not all entries are values, some awaitable ended with a cancellation of its own; no ordinary failure is ever returned as if it were a result."
  },
  {
   "property": "C101",
   "status": "partial",
   "theorems": [
    "Verif.Patterns.C101_leave_waits_violation",
    "Verif.Patterns.C101_leave_early_violation",
    "Verif.Patterns.C101_no_leak_partial",
    "Verif.Patterns.C101_exact_partial"
   ],
   "note": "Refuted in general (C101_leave_waits_violation): The documented claim: leaving the block early cancels the remaining awaitables, so leaving can complete although some awaitable was not run to its end. It is false in every execution: whenever the exit has completed, every awaitable has run to its end. Refuted in general (C101_leave_early_violation): A concrete early exit: one of two results consumed, block left; the exit is not complete before the second awaitable has run to its end. Proved part (C101_no_leak_partial): C101, what holds: once the exit has completed no awaitable is still running, and nothing more is yielded after the block was left. Proved part (C101_exact_partial): C101, when leaving the block is over: exactly when the block was left and every awaitable has run to its end (so leaving cancels nothing, whatever was consumed before)."
  },
  {
   "property": "C102",
   "status": "proved",
   "theorems": [
    "Verif.Patterns.C102_first",
    "Verif.Patterns.C102_available"
   ],
   "note": ""
  },
  {
   "property": "C103",
   "status": "partial",
   "theorems": [
    "Verif.Lexer.C103_exact_partial",
    "Verif.Lexer.C103_columns_partial",
    "Verif.Lexer.C103_columns_violation"
   ],
   "note": "Refuted in general (C103_columns_violation): The first token of the second line is reported in column 0, not 1. Proved part (C103_exact_partial): C103, exactly: the reported column is right if and only if the token is on the first line. Proved part (C103_columns_partial): C103, exactly what the lexer reports: the 1-indexed column on the first line, and one less than it on every later line."
  },
  {
   "property": "C104",
   "status": "partial",
   "theorems": [
    "Verif.Parser.C104_empty_value_violation",
    "Verif.Parser.C104_wellformed_partial",
    "Verif.Parser.C104_exact_partial"
   ],
   "note": "Refuted in general (C104_empty_value_violation): A field without a value makes the parser skip the closing brace: the text after the block is parsed as further fields. Proved part (C104_wellformed_partial): C104, where it holds: for well-formed blocks the result does not depend on the text after the closing brace. Proved part (C104_exact_partial): C104, exactly: the fields of a block do not depend on what follows its first closing brace if and only if its last field has a value."
  },
  {
   "property": "C105",
   "status": "partial",
   "theorems": [
    "Verif.Parser.C105_number_violation",
    "Verif.Parser.C105_parse_errors_partial",
    "Verif.Parser.C105_failures_partial"
   ],
   "note": "Refuted in general (C105_number_violation): A number with two dots raises `ValueError`, which is no `ParseError`. Proved part (C105_parse_errors_partial): C105, where it holds: if `int`/`float` accept every number token, every failure is a `ParseError`. Proved part (C105_failures_partial): C105 (partial), every text: a failure is a `ParseError`, or a `ValueError` that comes from a number token of the text which `int`/`float` does not accept."
  },
  {
   "property": "C106",
   "status": "partial",
   "theorems": [
    "Verif.Sim.C106_exact_partial",
    "Verif.Sim.C106_case_sensitive_violation",
    "Verif.Sim.C106_case_sensitive_partial"
   ],
   "note": "Refuted in general (C106_case_sensitive_violation): With `case_sensitive=True` only the best-scoring candidates are returned, not all those reaching the threshold. Proved part (C106_exact_partial): C106 (exact): the case-sensitive search returns every candidate that reaches the threshold exactly if all those candidates have the same score. Proved part (C106_case_sensitive_partial): C106, what is returned instead: the candidates reaching the threshold with the highest score among them, in input order."
  },
  {
   "property": "C107",
   "status": "partial",
   "theorems": [
    "Verif.Operable.C107_empty_include_violation",
    "Verif.Operable.C107_include_partial",
    "Verif.Operable.C107_exact_partial"
   ],
   "note": "Refuted in general (C107_empty_include_violation): C107 fails: asking for none of the fields returns all of them. Proved part (C107_include_partial): C107 in every other case: the names returned are those asked for. Proved part (C107_exact_partial): C107, exactly: only names asked for are returned iff some name was asked for or there are no specs."
  },
  {
   "property": "C108",
   "status": "partial",
   "theorems": [
    "Verif.Operable.C108_order_violation",
    "Verif.Operable.C108_perm_partial",
    "Verif.Operable.C108_exact_partial"
   ],
   "note": "Refuted in general (C108_order_violation): C108 fails: the order of the result is the iteration order of the set, so the same call may give different orders (of the fields of the generated model). Proved part (C108_perm_partial): C108 up to order: two enumerations of the same set give permutations of each other. Proved part (C108_exact_partial): C108, exactly: two calls with sets of names return the same sequence iff the sets are iterated in the same order."
  },
  {
   "property": "C109",
   "status": "partial",
   "theorems": [
    "Verif.Fuzzy.C109_unknown_field_violation",
    "Verif.Fuzzy.C109_strict_partial",
    "Verif.Fuzzy.C109_exact_partial"
   ],
   "note": "Refuted in general (C109_unknown_field_violation): C109 fails in fuzzy mode: an action for a field the model does not have is neither corrected nor rejected. Proved part (C109_strict_partial): C109 in strict mode: every action of an accepted program is for a field its model has. Proved part (C109_exact_partial): C109, exactly: for an operable without required fields, and every model name, the guarantee holds if and only if the mode is strict - in fuzzy mode, whatever the thresholds, an action for a field which the model does not have is accepted."
  },
  {
   "property": "C110",
   "status": "partial",
   "theorems": [
    "Verif.Resolver.C110_exact_partial",
    "Verif.Resolver.C110_overwrite_violation",
    "Verif.Resolver.C110_all_arrive_partial"
   ],
   "note": "Refuted in general (C110_overwrite_violation): Two variables for the same model field: the first one is dropped without an error. Proved part (C110_exact_partial): C110, exactly: every reference arrives if and only if no two references give different arguments for one field. Proved part (C110_all_arrive_partial): C110 where it holds: when the references of a model field are for different fields of the class, every one of them arrives under its field."
  },
  {
   "property": "C111",
   "status": "partial",
   "theorems": [
    "Verif.LndlTypes.C111_exact_partial",
    "Verif.LndlTypes.C111_extra_violation",
    "Verif.LndlTypes.C111_guard_partial"
   ],
   "note": "Refuted in general (C111_extra_violation): C111 fails: an action among the extra fields of a model (`extra=\"allow\"`) is not seen by the guard. Proved part (C111_exact_partial): C111, exactly: a model that passes the guard holds no action if and only if none is in the extra fields of a model (itself included). Proved part (C111_guard_partial): C111 for models without extra fields: a model that passes the guard has no action anywhere."
  },
  {
   "property": "C112",
   "status": "proved",
   "theorems": [
    "Verif.Fuzzy.C112_strict",
    "Verif.Fuzzy.C112_exact"
   ],
   "note": ""
  },
  {
   "property": "C113",
   "status": "proved",
   "theorems": [
    "Verif.Fuzzy.C113_exact_unchanged"
   ],
   "note": ""
  },
  {
   "property": "C114",
   "status": "partial",
   "theorems": [
    "Verif.Fuzzy.C114_case_violation",
    "Verif.Fuzzy.C114_best_partial",
    "Verif.Fuzzy.C114_exact_partial"
   ],
   "note": "Refuted in general (C114_case_violation): C114 fails: a candidate equal up to case loses against another one, as the final choice is made by case-sensitive similarity. Proved part (C114_best_partial): C114 where it holds: when the score of each candidate is the same with and without regard to case, the candidate chosen has the highest similarity. Proved part (C114_exact_partial): C114, exactly: the name chosen has the highest similarity without regard to case unless some candidate that is less similar with regard to case (by 0.05 or more) is more similar without."
  },
  {
   "property": "C115",
   "status": "proved",
   "theorems": [
    "Verif.Fuzzy.C115_capabilities"
   ],
   "note": ""
  },
  {
   "property": "C116",
   "status": "partial",
   "theorems": [
    "Verif.LndlTypes.C116_exact_partial",
    "Verif.LndlTypes.C116_excluded_violation",
    "Verif.LndlTypes.C116_kept_partial"
   ],
   "note": "Refuted in general (C116_excluded_violation): C116 fails: a field declared with `exclude=True` is not part of the data validated again. Proved part (C116_exact_partial): C116, exactly: the value of a field without action is part of the data validated again if and only if the field is not declared with `exclude=True` (extra fields have other names than declared ones). Proved part (C116_kept_partial): C116 without excluded fields: every field without action is passed on."
  },
  {
   "property": "C117",
   "status": "partial",
   "theorems": [
    "Verif.ToList.C117_exact_partial",
    "Verif.ToList.C117_interrupt",
    "Verif.ToList.C117_output_violation"
   ],
   "note": "Refuted in general (C117_output_violation): The output options are not applied to interrupted results: `output_dropna=True` returns a `None`. Proved part (C117_exact_partial): C117, exactly: an interrupted call returns the results so far as they are, whatever the output options; so the options are respected iff applying them to these results would change nothing."
  },
  {
   "property": "C118",
   "status": "partial",
   "theorems": [
    "Verif.ToList.C118_exact_partial",
    "Verif.ToList.C118_unique_partial",
    "Verif.ToList.C118_ignored_violation"
   ],
   "note": "Refuted in general (C118_ignored_violation): `input_unique=True` alone is ignored: the function is called on both copies of `1`. Proved part (C118_exact_partial): C118, exactly: without flattening and dropping, the elements that `func` is called with are those of the argument, in order and with repetitions, whatever `input_unique` says; so every element is passed once iff the argument has no repetition. Proved part (C118_unique_partial): `input_unique` together with `input_flatten` works on the distinct leaves (hashable case)."
  },
  {
   "property": "C119",
   "status": "partial",
   "theorems": [
    "Verif.KeyMatch.C119_keep_partial",
    "Verif.KeyMatch.C119_no_keys_violation",
    "Verif.KeyMatch.C119_exact_partial"
   ],
   "note": "Refuted in general (C119_no_keys_violation): With no expected keys, raise mode accepts, and remove mode keeps, a key that is not expected. Proved part (C119_keep_partial): Modes that keep unexpected keys: with no expected keys the result is the input. The full claim covers every mode. Proved part (C119_exact_partial): C119, exactly: with no expected keys the modes do what they say iff the mode is one that keeps keys or there is no key."
  },
  {
   "property": "C120",
   "status": "proved",
   "theorems": [
    "Verif.HashDict.C120_separates",
    "Verif.HashDict.C120_keys_limit"
   ],
   "note": "Limit of the domain (C120_keys_limit): Dicts with the keys `1` and `\"1\"` have the same representation."
  },
  {
   "property": "C121",
   "status": "proved",
   "theorems": [
    "Verif.Params.C121_with_updates",
    "Verif.Params.C121_unknown_key"
   ],
   "note": ""
  },
  {
   "property": "C122",
   "status": "partial",
   "theorems": [
    "Verif.Params.C122_attributes_partial",
    "Verif.Params.C122_enum_violation",
    "Verif.Params.C122_exact_partial"
   ],
   "note": "Refuted in general (C122_enum_violation): With `use_enum_values`, updating `y` turns the enum member in `x` into its plain value. Proved part (C122_attributes_partial): Attributes not mentioned keep their value, when nothing is normalised and only `Unset`/`Undefined` are sentinels (then a sentinel attribute reads `Unset`). The full claim covers every configuration. Proved part (C122_exact_partial): C122, exactly: an attribute that is set and not updated reads the value that the dictionary form has for it; it is unchanged iff that is the value itself."
  },
  {
   "property": "C123",
   "status": "partial",
   "theorems": [
    "Verif.Spec.C123_with_default_partial",
    "Verif.Spec.C123_override_violation",
    "Verif.Spec.C123_exact_partial"
   ],
   "note": "Refuted in general (C123_override_violation): A spec with a default cannot be given a factory; and if the default is falsy, both are kept and creating the default value fails: `0()`. Proved part (C123_with_default_partial): On a spec without a default, `with_default(v)` succeeds and its default value is `v`, or the call of `v` if that is a function. The full claim covers specs that already have a default or a factory. Proved part (C123_exact_partial): C123, the exact rule: on a spec that can be made, `with_default(v)` succeeds and its default value is `v` (the call of `v`, if that is a function) exactly if the spec has no entry of the other kind: no default for a function, no function as factory for anything else. Functions are taken to be truthy, and async ones and sentinels are left out."
  },
  {
   "property": "C124",
   "status": "partial",
   "theorems": [
    "Verif.Spec.C124_exact_partial",
    "Verif.Spec.C124_cache_partial",
    "Verif.Spec.C124_bounded",
    "Verif.Spec.C124_confusion_violation",
    "Verif.Spec.C124_kept"
   ],
   "note": "Refuted in general (C124_confusion_violation): After `Spec(int, default=1).annotated()`, `Spec(int, default=True).annotated()` carries the default `1`. Proved part (C124_exact_partial): C124, exactly: `annotated()` is right for a spec after every history if and only if every spec whose cache key equals its own has the same annotated type. Proved part (C124_cache_partial): Whatever was annotated before, the result is that of some spec equal to this one; so it is this spec's own, if equality of cache keys means sameness. The full claim has no such proviso."
  },
  {
   "property": "C125",
   "status": "partial",
   "theorems": [
    "Verif.Spec.C125_exact_partial",
    "Verif.Spec.C125_agree_partial",
    "Verif.Spec.C125_listable_violation"
   ],
   "note": "Refuted in general (C125_listable_violation): A listable spec: `annotation` is a list type, `annotated()` is not. Proved part (C125_exact_partial): C125, exactly: for a spec with a base type the two types agree if and only if it is not listable and its `nullable` entry, if any, is truthy only if it is `True`. Proved part (C125_agree_partial): The type part of `annotated()` is `annotation`, for specs with a base type that are not listable and whose `nullable` is a boolean. The full claim has no such condition."
  },
  {
   "property": "C126",
   "status": "partial",
   "theorems": [
    "Verif.FuzzyJson.C126_tidy_partial",
    "Verif.FuzzyJson.C126_content_violation",
    "Verif.FuzzyJson.C126_apostrophe_violation",
    "Verif.FuzzyJson.C126_contents_partial"
   ],
   "note": "Refuted in general (C126_content_violation): `{'a': 'x, ]'}`: whichever parser is used, if it rejects this text and reads `{\"a\": \"x]\"}`, the comma and the blanks of the value are gone. Refuted in general (C126_apostrophe_violation): An apostrophe in a double-quoted value becomes a quote, so a missing bracket can no longer be repaired. Proved part (C126_tidy_partial): Tidy text reaches the parser unchanged except for added closing brackets. The full claim: strings are never altered by the repairs. Proved part (C126_contents_partial): C126 (partial: texts as in `Tokenised`), C217: the contents of all strings are kept, in order; the only other strings are the bare keys."
  },
  {
   "property": "C127",
   "status": "proved",
   "theorems": [
    "Verif.FuzzyJson.C127_direct",
    "Verif.FuzzyJson.C127_blocks",
    "Verif.FuzzyJson.C127_single",
    "Verif.FuzzyJson.C127_empty_means_nothing"
   ],
   "note": ""
  },
  {
   "property": "C128",
   "status": "proved",
   "theorems": [
    "Verif.ToNum.C128_nearest",
    "Verif.ToNum.C128_general",
    "Verif.ToNum.C128_exact",
    "Verif.ToNum.C128_large_limit"
   ],
   "note": "Limit of the domain (C128_large_limit): A 54-bit integer changes: `to_num(9007199254740993, num_type=int)` is 9007199254740992."
  },
  {
   "property": "C129",
   "status": "proved",
   "theorems": [
    "Verif.Element.C129_cache",
    "Verif.Element.C129_round_trip",
    "Verif.Element.C129_failure"
   ],
   "note": ""
  },
  {
   "property": "C130",
   "status": "partial",
   "theorems": [
    "Verif.Element.C130_nested_partial",
    "Verif.Element.C130_nested_violation",
    "Verif.Element.C130_restore_violation",
    "Verif.Element.C130_exact_partial"
   ],
   "note": "Refuted in general (C130_nested_violation): C130 (violation). Of two Node classes with equal short names nested in different classes of a module, the tag of the first names the second; and a module-level class is displaced by a nested class of the same short name defined later in its module. Refuted in general (C130_restore_violation): The restored element is then of another class. Proved part (C130_nested_partial): C130 (partial). A class nested in another class or function is still found if no other Node class has its short name and no Node class claims its tag. Proved part (C130_exact_partial): C130, exactly: the tag of a class nested in another one leads back to it if and only if it is the last class whose short or full name is the tag, or no class has that name and it is the last one whose short or full name is the last part of the tag."
  },
  {
   "property": "C131",
   "status": "partial",
   "theorems": [
    "Verif.Element.C131_nested_violation",
    "Verif.Element.C131_key_violation",
    "Verif.Element.C131_tag_violation",
    "Verif.Element.C131_own_class_partial",
    "Verif.Element.C131_exact_partial"
   ],
   "note": "Refuted in general (C131_nested_violation): C131 (violation). An `Element` class nested in another class cannot be restored through its base class: its own tag does not load. Refuted in general (C131_key_violation): C131 (violation). With the key of another field as `meta_key`, that field is lost: the restored element has another id. Refuted in general (C131_tag_violation): C131 (violation). A metadata entry of the user's own under \"lion_class\" is lost. Proved part (C131_own_class_partial): C131 (partial). Any class, nested or not, is restored when its own `from_dict` is called and the class uses the `Element` or the `Node` implementation, under the conditions of C76 on fields and keys. Proved part (C131_exact_partial): C131, exactly which classes survive: under the conditions of C76 on fields, metadata and keys (and if a class with a `from_dict` of its own makes objects of that class), an element is restored by `B.from_dict` if and only if its name leads from `B` to its class."
  },
  {
   "property": "C132",
   "status": "partial",
   "theorems": [
    "Verif.Element.C132_valueError_partial",
    "Verif.Element.C132_inf_violation",
    "Verif.Element.C132_exact_partial"
   ],
   "note": "Refuted in general (C132_inf_violation): C132 (violation). The string \"inf\" raises `OverflowError`, also through the validator of `created_at`. Proved part (C132_valueError_partial): C132 (partial). Unusable input raises `ValueError`, except for infinities (see the violation). Proved part (C132_exact_partial): C78, C132 (exact). The outcome of reading a creation time is the one described by `TimeReads`, and no other."
  },
  {
   "property": "C133",
   "status": "partial",
   "theorems": [
    "Verif.ToDict.C133_content_partial",
    "Verif.ToDict.C133_string_violation",
    "Verif.ToDict.C133_exact_partial",
    "Verif.ToDict.C133_nondict_partial"
   ],
   "note": "Refuted in general (C133_string_violation): C133 (violation). A text that reads as a number comes out as that number, and no content comes out as an empty dict. Proved part (C133_content_partial): C133 (partial). A dict content in which nothing within five levels reads as JSON, is an enum class or is a convertible object is serialised as it is. Proved part (C133_exact_partial): C133, exactly, for contents that are dicts: the content is written unchanged if and only if nothing within five steps is rewritten. Proved part (C133_nondict_partial): C133: contents that are no dicts are never written unchanged: nothing, numbers, lists, tuples, sets."
  },
  {
   "property": "C134",
   "status": "partial",
   "theorems": [
    "Verif.ToDict.C134_succeeds_partial",
    "Verif.ToDict.C134_set_violation",
    "Verif.ToDict.C134_failure_partial",
    "Verif.ToDict.C134_exact_partial"
   ],
   "note": "Refuted in general (C134_set_violation): C134 (violation). A set containing a text that parses as a JSON object makes the conversion raise `TypeError`. Proved part (C134_succeeds_partial): C134 (partial). Recursive conversion of a dict in which no set is reached within the depth limit succeeds, whatever the strings and objects in it. Missing: sets, see the violation. Proved part (C134_failure_partial): C134: if the recursive conversion of a dict fails, then with TypeError, and a set is reached within the depth limit. Proved part (C134_exact_partial): C134, exactly. The recursive conversion of a dict raises \u2014 then `TypeError` \u2014 if and only if within the depth limit there is a set one of whose members is converted to something that cannot be a member of a set; otherwise it returns a dict."
  },
  {
   "property": "C135",
   "status": "proved",
   "theorems": [
    "Verif.JsonDefault.C135_history"
   ],
   "note": ""
  },
  {
   "property": "C136",
   "status": "partial",
   "theorems": [
    "Verif.Leak.C136_never_stuck_partial",
    "Verif.Leak.C136_gc_violation",
    "Verif.Leak.C136_exact_partial"
   ],
   "note": "Refuted in general (C136_gc_violation): C136 (violation). If the collector runs while a tracker call holds the lock and destroys one tracked object that was part of a reference cycle, the thread waits for a lock it holds itself; nothing that happens afterwards unblocks it. Proved part (C136_never_stuck_partial): C136 (partial). A thread whose collections of tracked cyclic garbage all happen outside of tracker calls is never blocked by the tracker's lock. Missing: collections inside a call, see the violation. Proved part (C136_exact_partial): C136 exactly: a thread is not blocked by the tracker's lock exactly if its tracker calls do not nest and no tracked cyclic garbage is collected inside one."
  },
  {
   "property": "C137",
   "status": "partial",
   "theorems": [
    "Verif.TypeScript.C137_exact_partial",
    "Verif.TypeScript.C137_list_violation",
    "Verif.TypeScript.C137_total_partial"
   ],
   "note": "Refuted in general (C137_list_violation): C137 (violation of \"rendering never fails\"). A `type` given as a list of names, which JSON Schema allows, raises `TypeError`. Proved part (C137_exact_partial): C137, exactly: rendering a schema fails exactly when some property is read through a list of type names. Proved part (C137_total_partial): C137 (partial). Rendering a schema never fails when no `type` is a list of names. Missing: list types, see the violation."
  },
  {
   "property": "C138",
   "status": "proved",
   "theorems": [
    "Verif.Parser.C138_document",
    "Verif.Parser.C138_fields"
   ],
   "note": ""
  },
  {
   "property": "C139",
   "status": "partial",
   "theorems": [
    "Verif.Flow.C139_exact_partial",
    "Verif.Flow.C139_dangling_partial",
    "Verif.Flow.C139_round_trip_partial",
    "Verif.Flow.C139_meta_key_violation"
   ],
   "note": "Refuted in general (C139_meta_key_violation): C139 is false for mode \"db\" and for every `meta_key`: the nested piles are written with their metadata under that key, and no call of `from_dict` on the result succeeds, whatever key it is told. Proved part (C139_exact_partial): C139 (exact). Under the conditions of `C139_round_trip_partial`, a flow comes back from `from_dict(to_dict(mode, meta_key=key), meta_key=key')` if and only if its metadata is written under \"metadata\". Proved part (C139_dangling_partial): C139 (failures). When both piles of a flow dict can be read (and its metadata is found), `Flow.from_dict` raises exactly if a progression lists an id that no item has, and then a NotFoundError; otherwise the flow has these items and progressions. Proved part (C139_round_trip_partial): C139 (partial). For every flow built with distinct names, after any history of calls that keeps it consistent (C11): in modes \"python\" and \"json\" without `meta_key`, `from_dict(to_dict())` succeeds and gives a flow with the same name, the same items and progressions in the same order, the same type constraint, and the same answer of `get_progression` for every key. Missing: mode \"db\" and every other `meta_key`, where it is false, see `C139_meta_key_violation`; and items with an empty constraint set (C10)."
  },
  {
   "property": "C140",
   "status": "partial",
   "theorems": [
    "Verif.Pile.C140_exact_partial",
    "Verif.Pile.C140_metadata_partial",
    "Verif.Pile.C140_stable_partial",
    "Verif.Pile.C140_metadata_violation"
   ],
   "note": "Refuted in general (C140_metadata_violation): C140 is false: the pile rebuilt by `Pile.from_dict` has the class tag among its metadata, and a named one has, also when rebuilt by `Element.from_dict`, an entry with the progression's name. Proved part (C140_exact_partial): C140, exactly: the metadata come back unchanged through `Pile.from_dict` if and only if they already hold the class tag and, for a named pile, the progression name; through `Element.from_dict` if and only if they hold no class tag and, for a named pile, already the progression name. Proved part (C140_metadata_partial): C140 (partial). After `Pile.from_dict(pile.to_dict())` or `Element.from_dict(pile.to_dict())` every metadata entry of the pile other than under the two reserved keys has its value, and no entry other than under the reserved keys is added. Missing: the reserved entries are added, see `C140_metadata_violation`. Proved part (C140_stable_partial): C140 (partial). Reading is stable: writing and reading again changes nothing more."
  },
  {
   "property": "C141",
   "status": "partial",
   "theorems": [
    "Verif.Validate.C141_reported_partial",
    "Verif.Validate.C141_no_json_violation",
    "Verif.Validate.C141_options_violation",
    "Verif.Validate.C141_exact_partial"
   ],
   "note": "Refuted in general (C141_no_json_violation): C141 is false: with key matching, a text without any JSON raises TypeError, whatever the target class. Refuted in general (C141_options_violation): C141 is false: with key matching that raises on unknown keys, ValueError escapes. Proved part (C141_reported_partial): C141 (partial). Without key matching, and with the default key matching of a dict, `fuzzy_validate_pydantic` returns an instance or raises ValidationError; parameters of a wrong type raise TypeError. Missing: key matching of a text without exactly one JSON object, and with explicit parameters; see the violations. Proved part (C141_exact_partial): C141: the outcome of `fuzzy_validate_pydantic` for every input, target class and parameters: an instance is returned; what is no text raises ValidationError; without key matching the data is validated; with key matching bad parameters and data that is no dict raise TypeError, and otherwise the keys are matched \u2014 fuzzily and with extra keys removed if no parameters are given, as the parameters say otherwise \u2014 and the outcome is validated."
  },
  {
   "property": "C142",
   "status": "proved",
   "theorems": [
    "Verif.Validate.C142_pydantic",
    "Verif.Validate.C142_response",
    "Verif.Validate.C142_block"
   ],
   "note": ""
  },
  {
   "property": "C143",
   "status": "partial",
   "theorems": [
    "Verif.Validate.C143_exact_partial",
    "Verif.Validate.C143_accepts_partial",
    "Verif.Validate.C143_alias_violation"
   ],
   "note": "Refuted in general (C143_alias_violation): C143 is false: the alias of a field is not a field name, so key matching removes the entry. Proved part (C143_exact_partial): C143 (partial, exact). For input holding the dict `d`: whatever the class accepts, key matching rejects nothing that is accepted without it, if and only if all keys of `d` are field names, or there are no field names. Proved part (C143_accepts_partial): C143 (partial). Key matching rejects nothing that is accepted without it, for dicts with only field names. Missing: dicts with other keys, where it is false, see `C143_alias_violation`."
  },
  {
   "property": "C144",
   "status": "proved",
   "theorems": [
    "Verif.Validate.C144_lenient",
    "Verif.Validate.C144_strict",
    "Verif.Validate.C144_data",
    "Verif.Validate.C144_no_sentinel",
    "Verif.Validate.C144_escape_limit",
    "Verif.Validate.C144_object",
    "Verif.Validate.C144_no_object"
   ],
   "note": "Limit of the domain (C144_escape_limit): Outside the domain of C144: an exception of another kind in a validator escapes from the lenient `validate_response`."
  },
  {
   "property": "C145",
   "status": "proved",
   "theorems": [
    "Verif.Validate.C145_update",
    "Verif.Validate.C145_excluded_limit"
   ],
   "note": "Limit of the domain (C145_excluded_limit): Outside the domain of C145: a field that `model_dump` leaves out (`exclude=True`) falls back to its default although it is not updated."
  },
  {
   "property": "C146",
   "status": "partial",
   "theorems": [
    "Verif.Validate.C146_mapping_partial",
    "Verif.Validate.C146_no_json_violation",
    "Verif.Validate.C146_text_partial"
   ],
   "note": "Refuted in general (C146_no_json_violation): C146 is false: a text without any JSON counts as the empty dict even without `suppress_conversion_errors`. Proved part (C146_mapping_partial): C146 (partial). None raises TypeError; an object that converts to a dict, and a text whose JSON is an object or a list starting with one, are matched as that dict; with `suppress_conversion_errors` everything else counts as the empty dict; an object that converts to something else raises ValueError without it. Missing: texts that contain no JSON do not raise ValueError, see `C146_no_json_violation`. Proved part (C146_text_partial): C146: the exact outcome for a text: its JSON object, or the first item of its JSON array if that is one, is matched; an empty array \u2014 unless it is only that nothing could be parsed, which counts as the empty dict \u2014 and every other value fail with ValueError, or count as the empty dict if errors are suppressed."
  },
  {
   "property": "C147",
   "status": "partial",
   "theorems": [
    "Verif.Exclude.C147_exact_partial",
    "Verif.Exclude.C147_exclude_partial",
    "Verif.Exclude.C147_forced_violation",
    "Verif.Exclude.C147_shape_violation",
    "Verif.Exclude.C147_raises_partial"
   ],
   "note": "Refuted in general (C147_forced_violation): C147 is false: the separately written fields appear although they are excluded. Refuted in general (C147_shape_violation): C147 is false: `exclude=None`, accepted by every other element, makes `Flow.to_dict` and `Graph.to_dict` raise TypeError; a dict that excludes a part of a field drops the whole field; a list together with a content serializer is ignored. Proved part (C147_exact_partial): C147 (exact). `to_dict(exclude=e)` writes exactly the fields not excluded as a whole if and only if: the argument is not None for a flow or a graph, not a list for one of the classes that hand it to pydantic, excludes no field that the class writes separately, does not exclude only a part of a field of a flow or a graph, and is not a list naming fields of a node with a content serializer. Proved part (C147_exclude_partial): C147 (partial). For the accepted shapes of the argument, the output of `to_dict(exclude=...)` has a field, other than those the class writes separately, exactly if the field is not excluded as a whole. Missing: the separately written fields, and the other shapes for `Flow`, `Graph` and `Node`, see the violations. Proved part (C147_raises_partial): C147 (failures). `to_dict(exclude=...)` raises exactly for None given to a flow or a graph and for a list given to one of the other classes (without a content serializer), and then a TypeError."
  },
  {
   "property": "C148",
   "status": "proved",
   "theorems": [
    "Verif.JsonDump.C148_lines",
    "Verif.JsonDump.C148_prefix"
   ],
   "note": ""
  },
  {
   "property": "C149",
   "status": "partial",
   "theorems": [
    "Verif.JsonDump.C149_exact_partial",
    "Verif.JsonDump.C149_chunks",
    "Verif.JsonDump.C149_options_partial",
    "Verif.JsonDump.C149_indent_violation"
   ],
   "note": "Refuted in general (C149_indent_violation): C149 is false: with `OPT_INDENT_2` a single record gives three lines. Proved part (C149_exact_partial): C149, exactly. When every record can be converted, each record gives one line if and only if indentation is not asked for or no record has items. Proved part (C149_options_partial): C149 (partial). Whatever options are given, every chunk ends with a line break; without indentation the stream is the default one. Missing: with `OPT_INDENT_2` a record spreads over several lines, see `C149_indent_violation`."
  },
  {
   "property": "C150",
   "status": "proved",
   "theorems": [
    "Verif.JsonDump.C150_order",
    "Verif.JsonDump.C150_tie_limit"
   ],
   "note": "Limit of the domain (C150_tie_limit): Outside the domain of C150: two such objects come out in iteration order."
  },
  {
   "property": "C151",
   "status": "proved",
   "theorems": [
    "Verif.JsonDump.C151_address",
    "Verif.JsonDump.C151_plain"
   ],
   "note": ""
  },
  {
   "property": "C152",
   "status": "partial",
   "theorems": [
    "Verif.JsonDump.C152_exact_partial",
    "Verif.JsonDump.C152_safe_partial",
    "Verif.JsonDump.C152_clip_violation",
    "Verif.JsonDump.C152_repr_violation"
   ],
   "note": "Refuted in general (C152_clip_violation): C152 is false: with `fallback_clip=10` every object that is not an exception and has no `model_dump` or `dict` raises ValueError, however short its text. Refuted in general (C152_repr_violation): C152 is false: an object whose `repr` raises makes the fallback raise. Proved part (C152_exact_partial): C152 (partial, exact). For an object without a serializer: the result of `model_dump()`, else of `dict()`; else, without safe fallback, `TypeError`; with it, the message of an exception, or the clipped text. It raises exactly if the needed text cannot be computed, or (`ValueError`) if the limit is not positive or smaller than the mark for the cut. Proved part (C152_safe_partial): C152 (partial). With `safe_fallback`, an object whose text can be computed and whose placeholder fits never raises; the text is at most `fallback_clip` characters long if `textwrap.shorten` keeps its width. Missing: smaller `fallback_clip` and objects whose `repr` raises, see the violations."
  },
  {
   "property": "C153",
   "status": "proved",
   "theorems": [
    "Verif.Deadline.C153_effective_deadline",
    "Verif.Deadline.C153_nesting_tightens",
    "Verif.Deadline.C153_absolute"
   ],
   "note": ""
  },
  {
   "property": "C154",
   "status": "partial",
   "theorems": [
    "Verif.Deadline.C154_violation",
    "Verif.Deadline.C154_none_means_unlimited_partial",
    "Verif.Deadline.C154_exact_partial"
   ],
   "note": "Refuted in general (C154_violation): C154: the answer `None` means that no limit applies. This fails: inside a block whose deadline has already passed on entry (also after it passes, or after `cancel()`), AnyIO reports minus infinity, and `effective_deadline()` turns it into `None`, \"unlimited\". Proved part (C154_none_means_unlimited_partial): C154 (partial): missing: blocks that are cancelled. As long as no visible block has been cancelled, `None` is answered only if no visible block has a limit. Proved part (C154_exact_partial): C154 (partial): exactly when the answer is `None`. Whatever blocks are nested and whichever of them have been cancelled (by a call or because their deadline passed; counted from the innermost), the answer is `None` if and only if no limit applies, or a block that applies was overdue on entry or has been cancelled."
  },
  {
   "property": "C155",
   "status": "proved",
   "theorems": [
    "Verif.Deadline.C155_timeout_outcome",
    "Verif.Deadline.C155_overdue"
   ],
   "note": ""
  },
  {
   "property": "C156",
   "status": "proved",
   "theorems": [
    "Verif.Queue.C156_fifo",
    "Verif.Queue.C156_get",
    "Verif.Queue.C156_put"
   ],
   "note": ""
  },
  {
   "property": "C157",
   "status": "partial",
   "theorems": [
    "Verif.Queue.C157_exact_partial",
    "Verif.Queue.C157_violation",
    "Verif.Queue.C157_drain_partial"
   ],
   "note": "Refuted in general (C157_violation): C157: items accepted by the queue before `close()` can still be received. This fails: `close()` also closes the receiving end, so items already stored are lost and their puts have long returned. Proved part (C157_exact_partial): C157, exactly: what is in the queue when `close()` is called can be received afterwards if and only if there is nothing. Proved part (C157_drain_partial): C157 (partial): missing: the receiving end stays open. If only the sending end is closed, everything pending is still received, in order."
  },
  {
   "property": "C158",
   "status": "proved",
   "theorems": [
    "Verif.RunAsync.C158_limit",
    "Verif.RunAsync.C158_run_async"
   ],
   "note": "Limit of the domain (C158_limit): C158: `run_async(coro)` returns the coroutine's result or raises what it raises. This fails: after a `BaseException` that is no `Exception` (for example a `CancelledError` or `SystemExit`), it returns `None` as if the coroutine had returned it."
  },
  {
   "property": "C159",
   "status": "partial",
   "theorems": [
    "Verif.RunAsync.C159_violation",
    "Verif.RunAsync.C159_is_coro_func_partial",
    "Verif.RunAsync.C159_call_partial",
    "Verif.RunAsync.C159_exact_partial"
   ],
   "note": "Refuted in general (C159_violation): C159: `is_coro_func` tells for every callable whether calling it runs async code, and `alcall` awaits the result then. This fails for objects with an async `__call__`, whose coroutine `alcall` returns instead of the result, and for objects that are not hashable, where both raise `TypeError`. Proved part (C159_is_coro_func_partial): C159 (partial): missing: callable objects. For functions, methods and partials of any depth over them, in any history of questions, every answer says whether that callable is async, provided callables that are equal (same key) are alike; no exception is raised. Proved part (C159_call_partial): C159 (partial): for them `call_func` awaits async callables and calls the others in a thread; without timeout the outcome is the callee's. Proved part (C159_exact_partial): C159: the exact answer for every callable: `TypeError` exactly for a callable object that is not hashable, otherwise `True` exactly if what remains without partials is an `async def` function."
  },
  {
   "property": "C160",
   "status": "partial",
   "theorems": [
    "Verif.RunAsync.C160_violation",
    "Verif.RunAsync.C160_timeout_partial",
    "Verif.RunAsync.C160_exact_partial"
   ],
   "note": "Refuted in general (C160_violation): C160: a call of the function that takes as long as `retry_timeout` or longer fails with `TimeoutError`. This fails for synchronous functions: the worker thread is waited for however long it takes, and the result is used. It also fails for a coroutine function that does not suspend any more when the timeout passes. Proved part (C160_timeout_partial): C160 (partial): missing: synchronous functions, and coroutine functions that keep running without suspending. A coroutine function that is suspended until it ends is cut off by the timeout exactly if it takes that long, and otherwise its outcome is kept. Proved part (C160_exact_partial): C159, C160: the exact outcome of `call_func` for every callable, timeout and callee."
  },
  {
   "property": "C161",
   "status": "partial",
   "theorems": [
    "Verif.ParamCall.C161_exact_partial",
    "Verif.ParamCall.C161_call_partial",
    "Verif.ParamCall.C161_violation",
    "Verif.ParamCall.C161_refused"
   ],
   "note": "Refuted in general (C161_violation): C161: every stored parameter reaches the function. This fails: `AlcallParams(retry_default=None)` treats `None` as not given, and `alcall` is called with `retry_default=Unset`, which raises the last error instead of returning `None`. Proved part (C161_exact_partial): C161 (partial, exact). Whatever is stored, an argument `p` of the function gets the value given in the call, else that of the stored `kw`, else that of the stored `kwargs`, else the stored one unless it is a sentinel of the class, else the default; so it has the expected value exactly if no sentinel is stored for it, or something else decides, or the default is that sentinel. Proved part (C161_call_partial): C161 (partial): missing: stored values that count as \"not given\" for the class, in particular `None` for `AlcallParams`. For every other stored value, stored `kw`/`kwargs` dictionary and keyword of the call, calling the object calls the function with exactly the expected value of every argument (and passes unknown names on, if the function takes them)."
  },
  {
   "property": "C162",
   "status": "partial",
   "theorems": [
    "Verif.ParamCall.C162_violation"
   ],
   "note": "Refuted in general (C162_violation): C162: calling a `BcallParams` object gives the batches of `bcall` with the stored parameters. This fails always: whatever is stored and given, the call raises `TypeError` (two values for `batch_size`, or awaiting an async generator)."
  },
  {
   "property": "C163",
   "status": "partial",
   "theorems": [
    "Verif.ParamCall.C163_violation",
    "Verif.ParamCall.C163_defaults_partial",
    "Verif.ParamCall.C163_exact_partial"
   ],
   "note": "Refuted in general (C163_violation): C163: a field that is not given has its declared default. This fails with `slots=True` (as in all classes of the library: `FuzzyMatchKeysParams().similarity_threshold` is `Unset`), and for default factories. Proved part (C163_defaults_partial): C163 (partial): missing: classes with slots and default factories. Without slots, every field has the given value, else its declared plain default, else `Unset`. Proved part (C163_exact_partial): C163 (exact): construction of a decorated class in every case. An unknown name is refused (`ValueError`); in strict mode a field without a usable value is refused; otherwise each field holds the given value, else its plain default if the class has no slots, else nothing or `Unset`: defaults of slotted classes and default factories are never used."
  },
  {
   "property": "C164",
   "status": "partial",
   "theorems": [
    "Verif.ParamCall.C164_violation",
    "Verif.ParamCall.C164_hash_partial",
    "Verif.ParamCall.C164_exact_partial"
   ],
   "note": "Refuted in general (C164_violation): C164: instances of subclasses are hashable by content. This fails: a `DataClass` subclass decorated with plain `@dataclass` is unhashable; a frozen `Params` subclass raises `TypeError` once a field holds an unhashable value such as a list or dict. Proved part (C164_hash_partial): C164 (partial): missing: plain `@dataclass` on `DataClass` subclasses and unhashable values in frozen `Params` subclasses. A class whose decorators all say `eq=False` hashes by what `to_dict` shows and never raises; a frozen `Params` subclass whose field values are hashable never raises, and equal field values hash equally. Proved part (C164_exact_partial): C164 (exact): the last decorator with `eq=True` decides. None: the hash of what `to_dict` shows. Not frozen: `hash` raises `TypeError` for every object. Frozen: the hash of all fields, `TypeError` exactly if one holds an unhashable value, `AttributeError` exactly if one is not set."
  },
  {
   "property": "C165",
   "status": "partial",
   "theorems": [
    "Verif.ParamCall.C165_violation",
    "Verif.ParamCall.C165_with_updates_partial",
    "Verif.ParamCall.C165_construct",
    "Verif.ParamCall.C165_exact_partial"
   ],
   "note": "Refuted in general (C165_violation): C165: `with_updates` of a `DataClass` changes exactly the given fields. This fails: a required field that holds `Unset` makes it raise `TypeError`, and a field that was set to `Unset` comes back with its default. Proved part (C165_with_updates_partial): C165 (partial): missing: fields that hold a sentinel while their default is no sentinel or missing. Otherwise `with_updates` succeeds for known names (outside strict mode), and afterwards `to_dict` shows the new value of every given field and the old value of every other one. Proved part (C165_exact_partial): C165 (exact): `with_updates` of a `DataClass` in every case."
  },
  {
   "property": "C166",
   "status": "partial",
   "theorems": [
    "Verif.HashModel.C166_violation",
    "Verif.HashModel.C166_select_partial",
    "Verif.HashModel.C166_raises",
    "Verif.HashModel.C166_json_partial",
    "Verif.HashModel.C166_exact_partial"
   ],
   "note": "Refuted in general (C166_violation): C166: `to_dict(mode=..., include=..., exclude=...)` contains exactly the fields asked for. This fails in json mode: `exclude` (like `include`) is ignored. Proved part (C166_select_partial): C166 (partial): missing: the json mode. In python mode the result contains exactly the fields asked for that hold no sentinel, with models in the values turned into dicts; in json mode without `include`/`exclude` the result is that of reading back `to_json()`. Proved part (C166_json_partial): C166 (partial). In json mode `to_dict` shows exactly the fields that hold no sentinel, whatever `include` and `exclude` ask for. Proved part (C166_exact_partial): C166 (partial), the exact condition: `to_dict(mode=\"json\", include=..., exclude=...)` contains exactly the fields asked for that hold no sentinel iff every field that holds no sentinel is asked for."
  },
  {
   "property": "C167",
   "status": "partial",
   "theorems": [
    "Verif.HashModel.C167_violation",
    "Verif.HashModel.C167_json_deterministic_partial",
    "Verif.HashModel.C167_exact_partial"
   ],
   "note": "Refuted in general (C167_violation): C167: models with the same content have the same JSON text. This fails for sets: the same set iterated in two orders gives two texts. Proved part (C167_json_deterministic_partial): C167 (partial): missing: fields that contain sets. Otherwise `to_json` of two models with the same content gives the same text (or the same error), in whatever order fields and dict entries were given at any depth. Proved part (C167_exact_partial): C167 (partial, exact): if `to_json` gives a text, then every model with the same content gives the same text exactly if no set in a field that is written has two elements that are written differently."
  },
  {
   "property": "C168",
   "status": "proved",
   "theorems": [
    "Verif.HashModel.C168_sentinel_limit",
    "Verif.HashModel.C168_json_mode",
    "Verif.HashModel.C168_raises"
   ],
   "note": "Limit of the domain (C168_sentinel_limit): Why C168 asks for JSON data: the sentinels are not. It would fail when a nested model has an unset field: `to_dict()` shows the sentinel, and `to_json()` and `to_dict(mode=\"json\")` raise `TypeError`."
  },
  {
   "property": "C169",
   "status": "partial",
   "theorems": [
    "Verif.HashModel.C169_violation",
    "Verif.HashModel.C169_round_trip_partial",
    "Verif.HashModel.C169_exact_partial"
   ],
   "note": "Refuted in general (C169_violation): C169: `from_dict(m.to_dict())` has the fields of `m`. This fails for unset fields: one with another default comes back with that default, and one without default is an error. Proved part (C169_round_trip_partial): C169 (partial): missing: fields that hold a sentinel other than their default. If validation accepts every dumped field value and gives the value back, and fields holding a sentinel have it as default, then `from_dict(m.to_dict())` has exactly the fields of `m`. Proved part (C169_exact_partial): C169, exact: `from_dict` accepts exactly the dicts whose keys are all fields and that give every field a value (a valid one, or a default when it is not given); the instance then has these values in the order of declaration. Everything else is a `ValidationError`."
  },
  {
   "property": "C170",
   "status": "partial",
   "theorems": [
    "Verif.HashModel.C170_violation",
    "Verif.HashModel.C170_hash_partial",
    "Verif.HashModel.C170_raises",
    "Verif.HashModel.C170_exact_partial"
   ],
   "note": "Refuted in general (C170_violation): C170: equal models have equal hashes, and hashing never raises. Both fail: a field with `{1}` equals one with `frozenset({1})`, yet what is hashed differs (and so does every collision-free hash); a field with a set of models cannot be hashed. Proved part (C170_hash_partial): C170 (partial): missing: sets compared with frozensets, sets of models, keys or set elements that `str` and `<` do not separate (see C61). Otherwise models with equal fields have equal hashes (or both fail), and without models in sets hashing never raises. Proved part (C170_exact_partial): C170 (partial, exact): for a hash without collisions, and a model without models in sets, every equal model has the same hash exactly if no field of the model contains a set or frozenset."
  },
  {
   "property": "C171",
   "status": "proved",
   "theorems": [
    "Verif.Sentinel.C171_limit",
    "Verif.Sentinel.C171_is_sentinel",
    "Verif.Sentinel.C171_raises",
    "Verif.Sentinel.C171_first"
   ],
   "note": "Limit of the domain (C171_limit): C171: `is_sentinel` answers for every value. This fails with `empty_as_sentinel=True` for values whose comparison has no truth value, such as arrays."
  },
  {
   "property": "C172",
   "status": "proved",
   "theorems": [
    "Verif.Sentinel.C172_one_object"
   ],
   "note": ""
  },
  {
   "property": "C173",
   "status": "partial",
   "theorems": [
    "Verif.Sentinel.C173_violation",
    "Verif.Sentinel.C173_serial_partial"
   ],
   "note": "Refuted in general (C173_violation): C173: a class made with `SingletonType` has one instance. This fails when its first calls overlap: both threads find no instance, both create one, and one of them goes home with an instance that is not the final one. Proved part (C173_serial_partial): C173 (partial): missing: overlapping first calls. If calls do not overlap, every class has one instance, and different classes have different ones."
  },
  {
   "property": "C174",
   "status": "partial",
   "theorems": [
    "Verif.Field.C174_violation",
    "Verif.Field.C174_default_partial",
    "Verif.Field.C174_conflict_partial",
    "Verif.Field.C174_callable_partial",
    "Verif.Field.C174_exact_partial"
   ],
   "note": "Refuted in general (C174_violation): C174: a model made from a spec gives a missing field the value `create_default_value()` gives. This fails: a callable given as `default` is the default for the spec, but is called by the model; and a spec with a falsy default and a factory is accepted, but no field can be made from it. Proved part (C174_default_partial): C174 (partial): missing: callables given as `default`, specs with both a (falsy) default and a factory, and factories that cannot be called. For every other spec that can be made, a field can be made too; what a model gives the missing field is what `create_default_value()` gives; if that raises because there is no default, the field defaults to `None` if nullable and is required otherwise. Proved part (C174_conflict_partial): C174 (the failures): making a field fails only with `TypeError`, exactly if there are both a default and a factory other than `None`. Missing: callables given as `default`. Proved part (C174_callable_partial): C174 (callables given as `default`, without a factory): `create_default_value()` gives the callable itself if it gives anything, and a model calls it. Proved part (C174_exact_partial): C174, exactly, for specs whose default is not callable (callables: `C174_callable_partial`): a field can be made and gives what `create_default_value()` gives if and only if a factory given beside a default is `None`, and a factory given alone can be called (or is `Undefined`, when the spec gives no default at all)."
  },
  {
   "property": "C175",
   "status": "partial",
   "theorems": [
    "Verif.Field.C175_exact_partial",
    "Verif.Field.C175_violation",
    "Verif.Field.C175_metadata_partial"
   ],
   "note": "Refuted in general (C175_violation): C175: every further metadata entry of a spec reaches the field, as parameter or as extra schema entry. This fails: `json_schema_extra` replaces the entries before it, and entries whose value is a type are dropped. Proved part (C175_exact_partial): C175, exactly, for a spec without `json_schema_extra`: a further entry reaches the field if and only if `Field` has a parameter of that name or its value is no type. Proved part (C175_metadata_partial): C175 (partial): missing: specs with a `json_schema_extra` entry, and values that are types. Otherwise every further entry is found under its key among the parameters (if `Field` has such a parameter) or the extra entries (if not), with its value, and nothing else is there."
  },
  {
   "property": "C176",
   "status": "partial",
   "theorems": [
    "Verif.Field.C176_exact_partial",
    "Verif.Field.C176_violation",
    "Verif.Field.C176_untouched_partial",
    "Verif.Field.C176_no_dict"
   ],
   "note": "Refuted in general (C176_violation): C176: making a field leaves the spec as it is. This fails: metadata entries after `json_schema_extra` are written into the dict given there. Proved part (C176_exact_partial): C176, exactly: the dict given as `json_schema_extra` stays as it is if and only if every entry after it is a common one, a parameter, a type, or in the dict already. Proved part (C176_untouched_partial): C176 (partial): missing: entries for the extra schema after a `json_schema_extra` entry. If all entries after it are common ones, parameters or types, the dict given there stays as it is."
  },
  {
   "property": "C177",
   "status": "partial",
   "theorems": [
    "Verif.Field.C177_violation",
    "Verif.Field.C177_create_model_partial",
    "Verif.Field.C177_exact_partial"
   ],
   "note": "Refuted in general (C177_violation): C177: `create_model` makes a model with the selected fields and their validators. This fails for a spec with a list of validators (which `Spec` accepts): it raises `TypeError`. Proved part (C177_create_model_partial): C177 (partial): missing: lists of validators, and specs from which no field can be made (see C174). Otherwise, for distinct names, the model has exactly the fields of the base class and of the selected specs with a name, the latter as `create_field` makes them, and the validators of the base class and of those specs. Proved part (C177_exact_partial): C177, exactly: for distinct names a model can be made if and only if a field can be made from every named spec (see C174) and no named spec has a validator other than one function or a sentinel; otherwise `TypeError` is raised."
  },
  {
   "property": "C178",
   "status": "partial",
   "theorems": [
    "Verif.Event.C178_streaming_violation",
    "Verif.Event.C178_exact_partial"
   ],
   "note": "Refuted in general (C178_streaming_violation): C178 is false: `as_fresh_event` drops `streaming`: a streaming event's fresh copy is not streaming. Proved part (C178_exact_partial): C178, exactly: a fresh copy is never streaming, so it agrees with the original iff that is not streaming either."
  },
  {
   "property": "C179",
   "status": "partial",
   "theorems": [
    "Verif.ToList.C179_exact_partial",
    "Verif.ToList.C179_options_violation"
   ],
   "note": "Refuted in general (C179_options_violation): `lcall([1, 1], f, output_unique=True, output_dropna=True)` passes the validation, runs the function on everything, then fails. Proved part (C179_exact_partial): C179, exactly: when the function returns on everything and the options pass the validation, the call fails iff `output_unique` is set and either `output_flatten` is not, or one of the leaves to be returned is neither hashable nor a mapping."
  },
  {
   "property": "C180",
   "status": "partial",
   "theorems": [
    "Verif.KeyMatch.C180_nonempty_partial",
    "Verif.KeyMatch.C180_empty_bin_violation",
    "Verif.KeyMatch.C180_exact_partial"
   ],
   "note": "Refuted in general (C180_empty_bin_violation): An oversized first item leaves an empty bin in front. Proved part (C180_nonempty_partial): No bin is empty, provided the first item is below the bound. The full claim has no such condition and fails without it. Proved part (C180_exact_partial): C180, exactly: no bin is empty iff the first string is shorter than the bound (or there is none)."
  },
  {
   "property": "C181",
   "status": "partial",
   "theorems": [
    "Verif.PileConc.C181_returns_true_partial",
    "Verif.PileConc.C181_exact_partial",
    "Verif.PileConc.C181_false_violation"
   ],
   "note": "Refuted in general (C181_false_violation): C181 (violation). Two threads include the same new item: both see that it is missing, one adds it, the other gets `ExistsError`, which is suppressed: it returns `False` although the item is in the pile. Likewise for `exclude`. Proved part (C181_returns_true_partial): C181 (partial). If no other thread works on the same item, an admissible call returns `True`, whatever the other threads do and in every interleaving. Missing: calls on the same item, see the violation. Proved part (C181_exact_partial): C181, exactly: an admissible call returns `True` in every interleaving if and only if it is not contended."
  },
  {
   "property": "C182",
   "status": "proved",
   "theorems": [
    "Verif.Sync.C182_linearizable"
   ],
   "note": ""
  },
  {
   "property": "C183",
   "status": "proved",
   "theorems": [
    "Verif.Sync.C183_all_calls_can_complete",
    "Verif.Sync.C183_no_deadlock",
    "Verif.Sync.C183_order_limit",
    "Verif.GraphSync.C183_graph_and_piles"
   ],
   "note": "Limit of the domain (C183_order_limit): Two locks taken in both orders: a deadlock; C183 needs its rank order."
  },
  {
   "property": "C184",
   "status": "proved",
   "theorems": [
    "Verif.GraphSync.C184_graph_mutators_linearizable",
    "Verif.GraphSync.C184_graph_endpoints",
    "Verif.GraphSync.C184_graph_calls_complete"
   ],
   "note": ""
  },
  {
   "property": "C185",
   "status": "partial",
   "theorems": [
    "Verif.GraphSync.C185_while_adding_partial",
    "Verif.GraphSync.C185_add_edge_violation",
    "Verif.GraphSync.C185_query_violation"
   ],
   "note": "Refuted in general (C185_add_edge_violation): C185 fails where nothing is removed: `get_predecessors(2)` raises `RuntimeError`, because another thread adds an edge that points to 2 while the loop runs over the live set of edges. Refuted in general (C185_query_violation): C185 fails: `get_predecessors(2)` raises `NotFoundError` although node 2 is in the graph throughout, when another thread removes an edge into 2 after the loop has got the id of the edge and before the edge is looked up. Proved part (C185_while_adding_partial): C185 where nothing is removed: threads add nodes and edges to a graph built before (`ops\u2080`) while thread 0 calls `get_predecessors` any number of times. Under every schedule a query returns nodes of the graph, or it raises `RuntimeError` (\"Set changed size during iteration\") and some other thread adds an edge that points to a node asked about."
  },
  {
   "property": "C186",
   "status": "partial",
   "theorems": [
    "Verif.FlowSync.C186_kept_item_partial",
    "Verif.FlowSync.C186_integrity_without_remove_item_partial",
    "Verif.FlowSync.C186_removed_item_partial",
    "Verif.FlowSync.C186_remove_item_violation",
    "Verif.FlowSync.C186_skipped_violation",
    "Verif.FlowSync.C186_add_item_violation"
   ],
   "note": "Refuted in general (C186_remove_item_violation): C186 fails with `remove_item`: it takes no lock of the flow, so it can run between the check and the insertion of `add_progression`; both calls succeed and a progression of the flow lists an item that is gone. Refuted in general (C186_skipped_violation): C186 fails with `remove_item` and `remove_progression`: the loop of `remove_item` walks over the live list of progressions, so when another thread takes out a progression already visited, the next one is skipped and keeps listing the removed item. Refuted in general (C186_add_item_violation): C186 fails with `remove_item` and `add_item`: the item is removed between its insertion and its entry in the progression. Proved part (C186_kept_item_partial): C186 for the items that nobody removes: threads make any calls of `add_progression`, `remove_progression`, `add_item` and `remove_item` on one flow; at every moment, also in the middle of calls, a progression lists an id that is no item only if some call removes this id. Proved part (C186_integrity_without_remove_item_partial): C186 where no item is removed. Proved part (C186_removed_item_partial): C186 for an item that is removed: if the progressions list it at most once at the start, a dangling reference to it arises only if some call puts a new reference to it into the flow or takes a progression out of the flow."
  },
  {
   "property": "C187",
   "status": "proved",
   "theorems": [
    "Verif.PileSync.C187_pile_linearizable",
    "Verif.PileSync.C187_pile_calls_complete"
   ],
   "note": ""
  },
  {
   "property": "C188",
   "status": "partial",
   "theorems": [
    "Verif.PileSync.C188_iteration_while_adding_partial",
    "Verif.PileSync.C188_kept_front_partial",
    "Verif.PileSync.C188_key_error_violation",
    "Verif.PileSync.C188_skip_violation"
   ],
   "note": "Refuted in general (C188_key_error_violation): C188 fails with removals: another thread has taken the item out but not yet its id, and the iteration raises `KeyError`. Refuted in general (C188_skip_violation): C188 fails with removals: when an item already seen is removed, the iteration skips the next one, which stays in the pile all the time. Proved part (C188_iteration_while_adding_partial): C188 where nothing is removed: thread 0 iterates over a pile (up to `fuel` items) while other threads add, replace and look up items; under every schedule the iteration does not raise, it yields the first items of the pile in its order, each once, and among them all (up to `fuel`) that were in the pile when it started. Proved part (C188_kept_front_partial): C188 with removals: thread 0 iterates over a pile (up to `fuel` items) while other threads make any calls, among which none takes out one of the first items `pre`. Under every schedule the iteration yields these items first, in their order, and only items that somebody put into the pile, or it raises `KeyError` and some call takes items out. (An item that stays can be missed only if an item before it is taken out.)"
  },
  {
   "property": "C189",
   "status": "proved",
   "theorems": [
    "Verif.FlowSync.C189_progression_methods_linearizable",
    "Verif.FlowSync.C189_progression_calls_complete"
   ],
   "note": ""
  },
  {
   "property": "C190",
   "status": "proved",
   "theorems": [
    "Verif.Embedding.C190_embedding_validation"
   ],
   "note": ""
  },
  {
   "property": "C191",
   "status": "partial",
   "theorems": [
    "Verif.Embedding.C191_rejection_partial",
    "Verif.Embedding.C191_overflow_violation",
    "Verif.Embedding.C191_exact_partial",
    "Verif.Embedding.C191_overflow_partial"
   ],
   "note": "Refuted in general (C191_overflow_violation): C191 is refuted: an int too large for a float makes the constructor raise `OverflowError`, which is no `ValidationError`. Proved part (C191_rejection_partial): C191 with the restriction that the ints given fit a float: a value that is not accepted is reported as a `ValidationError`. Proved part (C191_exact_partial): C191, exactly: a refused embedding is refused with a ValidationError, except that a list of numbers with an int that does not fit a float is refused with an OverflowError. Proved part (C191_overflow_partial): A list of numbers with an int that does not fit is refused."
  },
  {
   "property": "C192",
   "status": "proved",
   "theorems": [
    "Verif.Embedding.C192_embedding_round_trip",
    "Verif.Embedding.C192_nan_limit",
    "Verif.Embedding.C192_form",
    "Verif.Embedding.C192_absent"
   ],
   "note": "Limit of the domain (C192_nan_limit): The restriction to finite floats in C192 is needed: a node accepts nan in its embedding, but what `to_dict(mode=\"json\")` writes for it is rejected."
  },
  {
   "property": "C193",
   "status": "partial",
   "theorems": [
    "Verif.Embedding.C193_context_unchanged_partial",
    "Verif.Embedding.C193_exact_partial",
    "Verif.Embedding.C193_context_violation",
    "Verif.Embedding.C193_none_violation"
   ],
   "note": "Refuted in general (C193_context_violation): C193 is refuted: the format of one call is left in the caller's context and is then used by a later call that asks for no format. Refuted in general (C193_none_violation): C193 is refuted: `context=None`, which `model_dump` accepts, raises `TypeError` when a format is given. Proved part (C193_context_unchanged_partial): C193 restricted to calls without embedding format, in python mode, or without a context: the caller's context is unchanged. Proved part (C193_exact_partial): C193 exactly: the call succeeds and leaves the context alone in python mode, without a format, without a context, or when the context already holds that format."
  },
  {
   "property": "C194",
   "status": "partial",
   "theorems": [
    "Verif.Embedding.C194_pure_serializer_partial",
    "Verif.Embedding.C194_exact_partial",
    "Verif.Embedding.C194_twice_violation",
    "Verif.Embedding.C194_argument",
    "Verif.Embedding.C194_one_shot_violation"
   ],
   "note": "Refuted in general (C194_twice_violation): C194 is refuted: with a serializer that stores the content externally, one `to_dict` stores it twice; the first copy is never referred to. Refuted in general (C194_one_shot_violation): C194 is refuted: a serializer that succeeds the first time makes `to_dict` fail, with an exception that is not a `ValueError`. Proved part (C194_pure_serializer_partial): C194 for serializers without effects: `to_dict(content_serializer=f)` has `f(content)` as its content and the other entries unchanged, and raises `ValueError` if `f` raises. Proved part (C194_exact_partial): C194, exactly: `to_dict(content_serializer=f)` does what one application of `f` does if and only if `f` fails, or a second application right after the first one returns the same value and has no further effect."
  },
  {
   "property": "C195",
   "status": "partial",
   "theorems": [
    "Verif.CreatePath.C195_inside_partial",
    "Verif.CreatePath.C195_dotdot_violation",
    "Verif.CreatePath.C195_absolute_violation",
    "Verif.CreatePath.C195_dots_violation",
    "Verif.CreatePath.C195_exact_partial",
    "Verif.CreatePath.C195_absolute_exact_partial"
   ],
   "note": "Refuted in general (C195_dotdot_violation): C195 is refuted: a filename with \"..\" leads out of the directory. Refuted in general (C195_absolute_violation): C195 is refuted: an absolute filename replaces the directory. Refuted in general (C195_dots_violation): C195 is refuted: the filename \"...\" is split into the name \"..\" and an empty extension, the empty filename gives the directory itself. Proved part (C195_inside_partial): C195 for filenames that do not begin with \"/\", have no component \"..\", and whose last component is not made of at most three dots: the path returned lies in the directory. Proved part (C195_exact_partial): C195, exactly, when the directory part of the filename is not absolute: the path returned lies in the directory if and only if no component of the directory part is \"..\", the file name is not made of \"...\", and \u2014 when the last component yields no name \u2014 some other component does. Proved part (C195_absolute_exact_partial): C195: an absolute directory part of the filename replaces the directory: the path does not depend on it."
  },
  {
   "property": "C196",
   "status": "proved",
   "theorems": [
    "Verif.CreatePath.C196_with_extension",
    "Verif.CreatePath.C196_without_extension",
    "Verif.CreatePath.C196_no_extension",
    "Verif.CreatePath.C196_trailing_dot_limit"
   ],
   "note": "Limit of the domain (C196_trailing_dot_limit): Limit of C196: a name ending with a dot counts as having an (empty) extension, so the extension argument is dropped, and so is the dot."
  },
  {
   "property": "C197",
   "status": "partial",
   "theorems": [
    "Verif.CreatePath.C197_backslash_partial",
    "Verif.CreatePath.C197_subdirectory_violation",
    "Verif.CreatePath.C197_exact_partial"
   ],
   "note": "Refuted in general (C197_subdirectory_violation): C197 is refuted: a backslash in a subdirectory of the filename is accepted. Proved part (C197_backslash_partial): C197 for a backslash in the last component: `ValueError`, and nothing is created. Proved part (C197_exact_partial): C197, exactly: a filename is refused for its characters iff its last component has a backslash."
  },
  {
   "property": "C198",
   "status": "proved",
   "theorems": [
    "Verif.CreatePath.C198_status",
    "Verif.CreatePath.C198_frame",
    "Verif.CreatePath.C198_ready",
    "Verif.CreatePath.C198_outcome"
   ],
   "note": ""
  },
  {
   "property": "C199",
   "status": "partial",
   "theorems": [
    "Verif.ImportModule.C199_returns_partial",
    "Verif.ImportModule.C199_submodule_violation",
    "Verif.ImportModule.C199_singleton_violation",
    "Verif.ImportModule.C199_missing_attribute_violation",
    "Verif.ImportModule.C199_missing_module"
   ],
   "note": "Refuted in general (C199_submodule_violation): C199 is refuted: `import_module(\"a\", \"b\")` returns the package `a`, not the module `a.b` (the documentation shows the module). Refuted in general (C199_singleton_violation): C199 is refuted: a list of one name gives the attribute, not a list with the attribute. Refuted in general (C199_missing_attribute_violation): C199 is refuted: a missing attribute raises `AttributeError`, which is no `ImportError`. Proved part (C199_returns_partial): C199 for the requests `Served`: `import_module` returns the module, the attribute, or the list of attributes in order, and returns nothing else."
  },
  {
   "property": "C200",
   "status": "proved",
   "theorems": [
    "Verif.Lndl.C200_sound",
    "Verif.Lndl.C200_complete",
    "Verif.Lndl.C200_unique",
    "Verif.Lndl.C200_no_out",
    "Verif.Lndl.C200_actions"
   ],
   "note": ""
  },
  {
   "property": "C201",
   "status": "proved",
   "theorems": [
    "Verif.Lndl.C201_strict",
    "Verif.Lndl.C201_correct_documents"
   ],
   "note": ""
  },
  {
   "property": "C202",
   "status": "proved",
   "theorems": [
    "Verif.EventSerial.C202_entries",
    "Verif.EventSerial.C202_kept"
   ],
   "note": ""
  },
  {
   "property": "C203",
   "status": "partial",
   "theorems": [
    "Verif.EventSerial.C203_json_partial",
    "Verif.EventSerial.C203_bytes_violation",
    "Verif.EventSerial.C203_details_violation",
    "Verif.EventSerial.C203_raises_partial"
   ],
   "note": "Refuted in general (C203_bytes_violation): C203 (violation): an event that returned bytes cannot be written in mode json, while one that returned a list of bytes can. Refuted in general (C203_details_violation): C203 (violation): so with an error of the package whose details hold an object. Proved part (C203_json_partial): C203 (partial): an event can be written in mode json exactly if its response is not one of the bare values that are passed without a check (bytes, integers beyond 64 bits, texts with surrogates, enumeration members with such a value) and its error has writable texts and details. Responses of every other kind, however they are nested, can be written. Proved part (C203_raises_partial): C203 (failures): in mode python only an event restored by `from_dict` cannot be written (AttributeError); in mode json also what C203 describes, with TypeError."
  },
  {
   "property": "C204",
   "status": "partial",
   "theorems": [
    "Verif.EventSerial.C204_round_trip_partial",
    "Verif.EventSerial.C204_completed",
    "Verif.EventSerial.C204_pending_violation",
    "Verif.EventSerial.C204_failed_violation",
    "Verif.EventSerial.C204_again_violation",
    "Verif.EventSerial.C204_refused_partial"
   ],
   "note": "Refuted in general (C204_pending_violation): C204 (violation): a new event cannot be read from what it writes. Refuted in general (C204_failed_violation): C204 (violation): nor can a failed one. Refuted in general (C204_again_violation): C204 (violation): a restored event cannot be written again: its status is a text. Proved part (C204_round_trip_partial): C204 (partial): an event read from what `to_dict` wrote, in either mode, is restored exactly if it has a duration and a retryable flag and no error, which is the case once it is completed; status, duration, retryable flag and a plain response are the same. Proved part (C204_refused_partial): C204 (failures): what cannot be read is refused with a validation error."
  },
  {
   "property": "C205",
   "status": "proved",
   "theorems": [
    "Verif.SchemaModel.C205_title_name",
    "Verif.SchemaModel.C205_identifier_kept"
   ],
   "note": ""
  },
  {
   "property": "C206",
   "status": "partial",
   "theorems": [
    "Verif.SchemaModel.C206_result_partial",
    "Verif.SchemaModel.C206_base_model_violation",
    "Verif.SchemaModel.C206_name_violation",
    "Verif.SchemaModel.C206_exact_partial"
   ],
   "note": "Refuted in general (C206_base_model_violation): C206 (violation): for a schema titled \"BaseModel\" the result is pydantic's `BaseModel`, not the generated class. Refuted in general (C206_name_violation): C206 (violation): the given name is not the name of the class. Proved part (C206_result_partial): C206 (partial): a returned class is the attribute of the generated module named after the title (or the given name), or else its attribute `Model`; it is a class generated from the schema unless that attribute is `BaseModel` itself. Proved part (C206_exact_partial): C206 exactly: the class that is returned, and when."
  },
  {
   "property": "C207",
   "status": "partial",
   "theorems": [
    "Verif.SchemaModel.C207_errors_partial",
    "Verif.SchemaModel.C207_exact_partial",
    "Verif.SchemaModel.C207_attribute_violation"
   ],
   "note": "Refuted in general (C207_attribute_violation): C207 (violation): for a title in lower case the class is not found and the call raises `AttributeError`. Proved part (C207_errors_partial): C207 (partial): the exceptions are the documented ones, with the documented causes, as long as the generator writes its file and the module has an attribute with the name or an attribute `Model`. Proved part (C207_exact_partial): C207 (partial), the exact condition: `FileNotFoundError` comes exactly if the generator returns without writing its file, `AttributeError` exactly if the module has neither the name nor `Model`; and `TypeError` comes for a schema of the wrong type and, besides, exactly if what is found there is not a model class."
  },
  {
   "property": "C208",
   "status": "partial",
   "theorems": [
    "Verif.SchemaModel.C208_exact_partial",
    "Verif.SchemaModel.C208_file_partial",
    "Verif.SchemaModel.C208_escape_violation"
   ],
   "note": "Refuted in general (C208_escape_violation): C208 (violation): a given name with \"../\" leads out of the temporary directory. Proved part (C208_exact_partial): C208, exactly. Let `n` be the name used (from the title or, failing that, the name given), in lower case. If `n` is not an absolute path, the file lies directly in the temporary directory if and only if no component before a slash in `n` names anything: each is empty or \".\". Proved part (C208_file_partial): C208 (partial): a file is written in the temporary directory itself if the name used contains no slash, as is the case for names taken from titles."
  },
  {
   "property": "C209",
   "status": "proved",
   "theorems": [
    "Verif.Element.C209_failure",
    "Verif.Element.C209_form"
   ],
   "note": ""
  },
  {
   "property": "C210",
   "status": "proved",
   "theorems": [
    "Verif.Element.C210_accepts",
    "Verif.Element.C210_rejects"
   ],
   "note": ""
  },
  {
   "property": "C211",
   "status": "proved",
   "theorems": [
    "Verif.Element.C211_own",
    "Verif.Element.C211_plain",
    "Verif.Element.C211_element",
    "Verif.Element.C211_node",
    "Verif.Element.C211_not_a_name"
   ],
   "note": ""
  },
  {
   "property": "C212",
   "status": "proved",
   "theorems": [
    "Verif.Executor.C212_waits"
   ],
   "note": ""
  },
  {
   "property": "C213",
   "status": "partial",
   "theorems": [
    "Verif.Container.C213_keys",
    "Verif.Container.C213_exact_partial",
    "Verif.Container.C213_db_violation",
    "Verif.Container.C213_refused_partial"
   ],
   "note": "Refuted in general (C213_db_violation): C213 is false in general: no pile written in mode \"db\" without `meta_key` is read back by `Pile.from_dict` unless it is told the key \"node_metadata\". Proved part (C213_exact_partial): C213 (partial). With the same keys on both sides, the pile comes back exactly if it is not written in mode \"db\" without `meta_key` and no name is lost to `meta_key=\"\"` in mode \"db\". Missing: these cases, see `C213_db_violation`. Proved part (C213_refused_partial): C213 (failures). A dict whose metadata is stored under a key `from_dict` is not told about is refused: with a TypeError if one of the items names, under \"metadata\", a class the constraint excludes, and with a ValueError otherwise."
  },
  {
   "property": "C214",
   "status": "partial",
   "theorems": [
    "Verif.Container.C214_round_trip_partial",
    "Verif.Container.C214_db_violation",
    "Verif.Container.C214_exact_partial",
    "Verif.Container.C214_refused_partial"
   ],
   "note": "Refuted in general (C214_db_violation): C214 is false in general: in mode \"db\" without `meta_key`, or with any `item_meta_key` but \"node_metadata\", the call `Graph.from_dict(graph.to_dict(\"db\", meta_key=key, item_meta_key=ikey), meta_key=key, item_meta_key=ikey)` raises, whatever the graph. Proved part (C214_round_trip_partial): C214 (partial, sufficient condition). Every reachable graph comes back (nodes, edges and their order, as in C20) from `Graph.from_dict(graph.to_dict(mode, meta_key=key, item_meta_key=ikey), meta_key=key, item_meta_key=ikey)` in modes \"python\" and \"json\" with any keys, and in mode \"db\" with a `meta_key` and `item_meta_key=\"node_metadata\"`. Missing: the other cases of mode \"db\", where it is false (`C214_db_violation`). Proved part (C214_exact_partial): C214 (exact). Every reachable graph comes back with the same keys on both sides if and only if it is not written in mode \"db\", or with a `meta_key` and `item_meta_key=\"node_metadata\"`. Proved part (C214_refused_partial): C214 (failures). A graph dict whose piles can be read but whose own metadata is stored under a key `from_dict` is not told about is refused with a ValueError."
  },
  {
   "property": "C215",
   "status": "proved",
   "theorems": [
    "Verif.Fuzzy.C215_corrected",
    "Verif.Fuzzy.C215_errors",
    "Verif.Fuzzy.C215_exact"
   ],
   "note": ""
  },
  {
   "property": "C216",
   "status": "proved",
   "theorems": [
    "Verif.Fuzzy.C216_models",
    "Verif.Fuzzy.C216_others"
   ],
   "note": ""
  },
  {
   "property": "C217",
   "status": "partial",
   "theorems": [
    "Verif.FuzzyJson.C217_repaired_partial",
    "Verif.FuzzyJson.C217_compact_violation",
    "Verif.FuzzyJson.C217_list_violation"
   ],
   "note": "Refuted in general (C217_compact_violation): The full claim: bare keys get quotes. Without white space a key reaches up to the last colon: `{a:1,b:2}` is read as an object with the one key `a:1,b`. Refuted in general (C217_list_violation): In a list of objects only the first may have a bare first key: the brace of the second becomes part of a string. Proved part (C217_repaired_partial): C217 (partial: texts as in `Tokenised`). A text that is not JSON is repaired token by token: quotes become double quotes around the same contents, white space between tokens becomes one blank, commas before closing brackets go, bare keys get quotes, and nothing else changes; the result is parsed, if necessary after adding closing brackets."
  },
  {
   "property": "C218",
   "status": "proved",
   "theorems": [
    "Verif.Json.C218_verbatim",
    "Verif.Json.C218_tokens",
    "Verif.Json.C218_grammar",
    "Verif.Json.C218_round_trip"
   ],
   "note": ""
  },
  {
   "property": "C219",
   "status": "proved",
   "theorems": [
    "Verif.Progression.C219_construct",
    "Verif.Progression.C219_add",
    "Verif.Progression.C219_remove",
    "Verif.Progression.C219_query",
    "Verif.Progression.C219_bad_item",
    "Verif.Progression.C219_read_slice",
    "Verif.Progression.C219_write_slice"
   ],
   "note": ""
  },
  {
   "property": "C220",
   "status": "partial",
   "theorems": [
    "Verif.Progression.C220_exact_partial",
    "Verif.Progression.C220_other_partial",
    "Verif.Progression.C220_violation"
   ],
   "note": "Refuted in general (C220_violation): C220 is false: `p.extend(p)` on a progression that is not empty never returns; the iterator reads the list that the call is appending to, and after every number of rounds the call is still running with one more id per round. Proved part (C220_exact_partial): C220, exactly: `p.extend(q)` (`none`: `q` is `p` itself) returns if and only if `q` is another progression or empty, and then the ids of `q` are added. Proved part (C220_other_partial): C220: `p.extend(q)` for another progression `q` returns, with the ids of `q` added in order; `p.extend(p)` for an empty `p` returns at once. Not covered: `p.extend(p)` for a progression that is not empty (`C220_violation`)."
  },
  {
   "property": "C221",
   "status": "proved",
   "theorems": [
    "Verif.StreamFail.C221_values",
    "Verif.StreamFail.C221_end",
    "Verif.StreamFail.C221_raised",
    "Verif.StreamFail.C221_quiet",
    "Verif.StreamFail.C221_cancelled",
    "Verif.StreamFail.C221_stops",
    "Verif.StreamFail.C221_progress",
    "Verif.StreamFail.C221_bound",
    "Verif.StreamFail.C221_cancelled_limit"
   ],
   "note": "Limit of the domain (C221_cancelled_limit): The domain is needed: an awaitable that ends in a cancellation (for instance a task cancelled elsewhere) stops the iteration, its siblings are cancelled, and a cancellation that nobody asked for goes on to the caller."
  },
  {
   "property": "C222",
   "status": "proved",
   "theorems": [
    "Verif.Spec.C222_construct",
    "Verif.Spec.C222_refused",
    "Verif.Spec.C222_default",
    "Verif.Spec.C222_default_async",
    "Verif.Spec.C222_metadict"
   ],
   "note": ""
  },
  {
   "property": "C223",
   "status": "partial",
   "theorems": [
    "Verif.ToDict.C223_returns_partial",
    "Verif.ToDict.C223_errors_partial",
    "Verif.ToDict.C223_suppress",
    "Verif.ToDict.C223_dict_partial",
    "Verif.ToDict.C223_texts",
    "Verif.ToDict.C223_objects",
    "Verif.ToDict.C223_violation"
   ],
   "note": "Refuted in general (C223_violation): C223 is false: `to_dict(\"[1]\")` returns a list, also with `suppress=True`; and a frozenset holding the pair `(7, 8)` becomes `{7: 8}`, where the list of the same item becomes `{0: (7, 8)}`. Proved part (C223_returns_partial): C223: what `to_dict(v)` without recursion returns, for every kind of value. Proved part (C223_errors_partial): C223: when it raises: ValueError for a text that does not parse and for a bad depth, TypeError for what has no dict form. Proved part (C223_dict_partial): C223: the result is a dict, unless it is what a text (the input, or what an object or an earlier text turned into) parses to. The full claim has no exception."
  },
  {
   "property": "C224",
   "status": "partial",
   "theorems": [
    "Verif.ToDict.C224_exact_partial",
    "Verif.ToDict.C224_partial",
    "Verif.ToDict.C224_violation"
   ],
   "note": "Refuted in general (C224_violation): C224 is false: a parser that takes the text alone reads no nested text at all, whatever it would return: every text inside stays a text. Proved part (C224_exact_partial): C224 (partial, exact). A parser either takes the additional keyword (and reads the same with it) or does not (and raises). Above the depth limit a nested text that reads as `u`, with nothing to convert in it, is replaced by `u` exactly if the parser takes the keyword, or `u` is the text itself. Proved part (C224_partial): C224: true when no parser is given, or one that does not mind the extra keyword: then above the depth limit a nested text is read exactly as at the top level. The full claim has no condition on the parser."
  },
  {
   "property": "C225",
   "status": "proved",
   "theorems": [
    "Verif.Queue.C225_once",
    "Verif.Queue.C225_cancel",
    "Verif.Queue.C225_closed"
   ],
   "note": ""
  },
  {
   "property": "C226",
   "status": "proved",
   "theorems": [
    "Verif.Pile.C226_types",
    "Verif.Pile.C226_fail_fast",
    "Verif.Pile.C226_items",
    "Verif.Pile.C226_loaded"
   ],
   "note": ""
  },
  {
   "property": "C227",
   "status": "proved",
   "theorems": [
    "Verif.FindPathConc.C227_path",
    "Verif.FindPathConc.C227_none",
    "Verif.FindPathConc.C227_raises",
    "Verif.FindPathConc.C227_add_limit",
    "Verif.FindPathConc.C227_remove_limit",
    "Verif.FindPathConc.C227_node_limit",
    "Verif.FindPathConc.C227_reuse_limit"
   ],
   "note": "Limit of the domain (C227_add_limit): C227 limit: the search for a path from 1 to 4 raises `RuntimeError` when another task adds a further edge at node 1 while the condition of the only edge of node 1 is awaited, although the path is in the graph all the time and every condition says yes. Limit of the domain (C227_remove_limit): C227 limit: a path found and then broken: the edge 10 is removed while the condition of edge 12 is awaited; the call raises `NotFoundError`. Limit of the domain (C227_node_limit): C227 limit: node 3, waiting in the queue, is removed while the condition of edge 12 is awaited; the call raises `KeyError`. Limit of the domain (C227_reuse_limit): C227 limit: the domain \"ids are not reused\" is needed. Edge 10 is replaced by an edge 3 \u2192 1 with the same id while the condition of edge 12 is awaited; the call returns edges that do not form a walk."
  },
  {
   "property": "C228",
   "status": "proved",
   "theorems": [
    "Verif.Sim.C228_symmetric",
    "Verif.Sim.C228_identity",
    "Verif.Sim.C228_scaling_limit"
   ],
   "note": "Limit of the domain (C228_scaling_limit): C228 limit: with scaling 1/4 the Jaro-Winkler score of different strings is 1 as soon as they share the first four characters."
  },
  {
   "property": "C229",
   "status": "proved",
   "theorems": [
    "Verif.Sim.C229_jaro",
    "Verif.Sim.C229_values"
   ],
   "note": ""
  },
  {
   "property": "C230",
   "status": "proved",
   "theorems": [
    "Verif.FuzzyJson.C230_read",
    "Verif.FuzzyJson.C230_unclosed",
    "Verif.FuzzyJson.C230_spaced",
    "Verif.FuzzyJson.C230_compact_limit",
    "Verif.FuzzyJson.C230_list_limit",
    "Verif.FuzzyJson.C230_comma_limit",
    "Verif.FuzzyJson.C230_apostrophe_limit",
    "Verif.FuzzyJson.C230_valid_json"
   ],
   "note": "Limit of the domain (C230_compact_limit): C230. Without white space after the comma the keys are not found: `{a:1,b:2}` is read as a dict with the one key `a:1,b`. Limit of the domain (C230_list_limit): C230. Without white space after the brace of a later list item the keys are not found and the text is refused. Limit of the domain (C230_comma_limit): C230. A text that stops at a comma is refused. Limit of the domain (C230_apostrophe_limit): C230. An apostrophe inside a string in double quotes ends it: the text is refused (unless it is valid JSON to begin with)."
  },
  {
   "property": "C231",
   "status": "proved",
   "theorems": [
    "Verif.PriorityQueueCancel.C231_cancel_silent",
    "Verif.PriorityQueueCancel.C231_history",
    "Verif.PriorityQueueCancel.C231_wakeup",
    "Verif.PriorityQueueCancel.C231_lost_limit"
   ],
   "note": "Limit of the domain (C231_lost_limit): Where the condition variable does not pass the notification on, a call interrupted after it was notified takes the wake-up with it: the item stays, the other get waits."
  },
  {
   "property": "C232",
   "status": "partial",
   "theorems": [
    "Verif.HeapRaise.C232_comparable_partial",
    "Verif.HeapRaise.C232_exact_partial",
    "Verif.HeapRaise.C232_errors_partial",
    "Verif.HeapRaise.C232_raise_violation",
    "Verif.HeapRaise.C232_returns"
   ],
   "note": "Refuted in general (C232_raise_violation): C232 is refuted: the put of a second item of the same priority raises and stores it; a get that has to compare the two raises and loses the item it should have returned. Proved part (C232_comparable_partial): C232 where it holds: when any two items can be compared, no operation raises TypeError; the operations are those of the total queue of C33. Proved part (C232_exact_partial): C232, exactly: a put that raises TypeError has stored its item nevertheless; a get that raises TypeError has removed the first item of the heap, which nobody receives. So no operation that raises TypeError leaves the queue as it was; those that raise for a full or empty queue do. Proved part (C232_errors_partial): C232, which errors there are: a put raises exactly for a full queue, or TypeError; a get raises for an empty queue (QueueEmpty) and only then, or TypeError."
  },
  {
   "property": "C233",
   "status": "proved",
   "theorems": [
    "Verif.ItemType.C233_extract",
    "Verif.ItemType.C233_pile",
    "Verif.ItemType.C233_same",
    "Verif.ItemType.C233_filter",
    "Verif.ItemType.C233_flow",
    "Verif.ItemType.C233_empty_limit"
   ],
   "note": "Limit of the domain (C233_empty_limit): With an empty list or set a pile accepts nothing, a flow everything."
  },
  {
   "property": "C234",
   "status": "proved",
   "theorems": [
    "Verif.Element.C234_text_round_trip",
    "Verif.Element.C234_text_is_dict",
    "Verif.Element.C234_errors"
   ],
   "note": ""
  },
  {
   "property": "C235",
   "status": "partial",
   "theorems": [
    "Verif.LndlOutput.C235_fields_partial",
    "Verif.LndlOutput.C235_exact_partial",
    "Verif.LndlOutput.C235_missing_violation"
   ],
   "note": "Refuted in general (C235_missing_violation): C235 (violation). `hasattr` of a missing name raises KeyError, so does `getattr` with a default (and `copy.deepcopy`, which asks for `__deepcopy__`); a field with the name of an attribute of the class cannot be read as an attribute. Proved part (C235_fields_partial): C235 (partial). For a name the class does not use, `output.name` is `output[\"name\"]`: the field, or KeyError if there is none. Proved part (C235_exact_partial): C235 (partial). `hasattr` and `getattr` with a default fail with KeyError exactly for the names that are neither taken nor a field; otherwise `hasattr` is True, and `getattr` ignores the default, iff the name is one of the object's own or a field and not one of the five of the class."
  },
  {
   "property": "C236",
   "status": "partial",
   "theorems": [
    "Verif.Alcall.C236_results",
    "Verif.Alcall.C236_exact_partial",
    "Verif.Alcall.C236_iterable_violation"
   ],
   "note": "Refuted in general (C236_iterable_violation): `alcall([1, 2], f)` where `f(1)` returns `range(2)`: the caller gets `[[0, 1], 10]`, not `[range(0, 2), 10]`. Proved part (C236_exact_partial): C236, exactly: these are the very objects if and only if none of them has an iterable other than a list, tuple or set in it."
  },
  {
   "property": "C237",
   "status": "proved",
   "theorems": [
    "Verif.Alcall.C237_plain_input",
    "Verif.Alcall.C237_members",
    "Verif.Alcall.C237_flat_input",
    "Verif.Alcall.C237_unique_input",
    "Verif.Alcall.C237_flat_output",
    "Verif.Alcall.C237_unique_output",
    "Verif.Alcall.C237_raises"
   ],
   "note": ""
  },
  {
   "property": "C238",
   "status": "partial",
   "theorems": [
    "Verif.Alcall.C238_exact_partial",
    "Verif.Alcall.C238_output_unique_violation",
    "Verif.Alcall.C238_unique_violation"
   ],
   "note": "Refuted in general (C238_output_unique_violation): C238: `output_unique` without `output_flatten`: every call that completes, whatever the items did otherwise, ends in `ValueError`, although all items were run. Refuted in general (C238_unique_violation): The case: `alcall([1, 2], f, output_unique=True)`; and `alcall([2, 2], f, input_unique=True)` calls the function twice. Proved part (C238_exact_partial): C238: for an input with at least one item, the arguments that are rejected with `ValueError` before the function is called, whatever it would do and however the call is scheduled, are exactly these: not one callable, a negative `max_concurrent`, `input_dropna` with `input_unique` but without `input_flatten`."
  },
  {
   "property": "C239",
   "status": "proved",
   "theorems": [
    "Verif.Alcall.C239_all",
    "Verif.Alcall.C239_first_failure"
   ],
   "note": ""
  },
  {
   "property": "C240",
   "status": "partial",
   "theorems": [
    "Verif.Alcall.C240_exact_partial",
    "Verif.Alcall.C240_negative_violation"
   ],
   "note": "Refuted in general (C240_negative_violation): `bcall([1, 2], f, -1)` yields nothing, calls nothing and raises nothing. Proved part (C240_exact_partial): C240: `bcall` raises because of its batch size exactly if that is 0; and nothing is called then."
  },
  {
   "property": "C241",
   "status": "proved",
   "theorems": [
    "Verif.TypeScript.C241_lines",
    "Verif.TypeScript.C241_unique"
   ],
   "note": ""
  },
  {
   "property": "C242",
   "status": "partial",
   "theorems": [
    "Verif.TypeScript.C242_quote_violation",
    "Verif.TypeScript.C242_determined_partial"
   ],
   "note": "Refuted in general (C242_quote_violation): A string with a double quote: two different enumerations have the same text. Proved part (C242_determined_partial): C242 (partial): non-empty enumerations whose strings have no double quote are different whenever their lists of values are, order and repetitions included. Missing: strings with double quotes, which are not escaped."
  },
  {
   "property": "C243",
   "status": "partial",
   "theorems": [
    "Verif.Element.C243_exact_partial",
    "Verif.Element.C243_violation"
   ],
   "note": "Refuted in general (C243_violation): C243, refuted in full: `load_type_from_string(\"..X\")` raises `TypeError`, whatever can be imported and whatever was loaded before. Proved part (C243_exact_partial): C243. A class name that cannot be loaded is reported by `ValueError`, unless it starts with a dot and has another dot after it: then, and only then, by `TypeError`."
  },
  {
   "property": "C244",
   "status": "proved",
   "theorems": [
    "Verif.SeqMatch.C244_range",
    "Verif.SeqMatch.C244_value",
    "Verif.SeqMatch.C244_value_exists"
   ],
   "note": ""
  },
  {
   "property": "C245",
   "status": "partial",
   "theorems": [
    "Verif.SeqMatch.C245_common_partial",
    "Verif.SeqMatch.C245_short_partial",
    "Verif.SeqMatch.C245_zero_exact_partial",
    "Verif.SeqMatch.C245_long_violation"
   ],
   "note": "Refuted in general (C245_long_violation): C245 fails: of every length from 200 on there are two strings that differ in the first character only and score 0. Proved part (C245_common_partial): C245, the part that holds: a common part without characters that are frequent in a long second string counts in full. Proved part (C245_short_partial): In a second string of less than 200 characters nothing is left out. Proved part (C245_zero_exact_partial): C245, exactly when two strings score 0: the characters they share are all frequent in a second string of at least 200 characters, and they do not start with the same character."
  },
  {
   "property": "C246",
   "status": "partial",
   "theorems": [
    "Verif.SeqMatch.C246_order_violation",
    "Verif.SeqMatch.C246_bounds_partial",
    "Verif.SeqMatch.C246_substring_partial"
   ],
   "note": "Refuted in general (C246_order_violation): C246 fails: the score depends on the order of the arguments, for short strings too. Proved part (C246_bounds_partial): C246, the part that holds: in both orders the score lies between the same bounds, given by a longest common substring (without characters frequent in a long string) and by the common subsequences. Proved part (C246_substring_partial): The order does not matter when a longest common subsequence is a substring of both."
  },
  {
   "property": "C247",
   "status": "partial",
   "theorems": [
    "Verif.LndlValue.C247_exact_partial",
    "Verif.LndlValue.C247_value_partial",
    "Verif.LndlValue.C247_rewritten_violation"
   ],
   "note": "Refuted in general (C247_rewritten_violation): C247 is false: the text `true` arrives as `True`, `null` as `None` and `1.50` as `1.5`. Proved part (C247_exact_partial): C247, exactly: a field of type `str` for which the text `t` is written holds `t` without the surrounding white space if and only if the text is `True` or `False`, or none of the words `true`, `false`, `null` (in any capitalisation) and either no Python literal or one that Python writes in the same way. Proved part (C247_value_partial): C247, what arrives in every case: the text Python gives for what the text stands for."
  },
  {
   "property": "C248",
   "status": "partial",
   "theorems": [
    "Verif.LndlValue.C248_exact_partial",
    "Verif.LndlValue.C248_words_partial",
    "Verif.LndlValue.C248_no_violation"
   ],
   "note": "Refuted in general (C248_no_violation): C248 is false: `no`, `off` and `0.0 percent` make a boolean field `True`. Proved part (C248_exact_partial): C248, exactly: a field of type `bool` for which a text is written is `False` if and only if what the text stands for counts as false in Python: the words `false` and `null`, a literal for zero or for something empty, and white space. Proved part (C248_words_partial): C248, what holds: `true` and `false`, in any capitalisation, are read as such."
  },
  {
   "property": "C249",
   "status": "partial",
   "theorems": [
    "Verif.LndlValue.C249_exact_partial",
    "Verif.LndlValue.C249_integer_partial",
    "Verif.LndlValue.C249_fraction_partial",
    "Verif.LndlValue.C249_fraction_violation"
   ],
   "note": "Refuted in general (C249_fraction_violation): C249 is false: `2.5` arrives as 2, written in a variable or directly, and `true` as 1. Proved part (C249_exact_partial): C249, exactly: when a field of type `int` for which a text is written holds `n`, the text denotes the number `n` if and only if it does not stand for a truth value, a compound value or a number with a fractional part. Proved part (C249_integer_partial): C249, what holds: an integer literal arrives as it is. Proved part (C249_fraction_partial): C249, what happens instead: a number with a fractional part arrives without it (rounded towards zero, not down)."
  },
  {
   "property": "C250",
   "status": "partial",
   "theorems": [
    "Verif.LndlValue.C250_exact_partial",
    "Verif.LndlValue.C250_raises_violation"
   ],
   "note": "Refuted in general (C250_raises_violation): C250 is false: `parse_value` raises for a text such as `{[]}`, a set display with an unhashable element. Proved part (C250_exact_partial): C250, exactly: `parse_value` returns a value for a text if and only if the text without the surrounding white space is one of the three words or `ast.literal_eval` of it does not end with an exception other than `ValueError` and `SyntaxError`; the value is then what the text stands for."
  },
  {
   "property": "C251",
   "status": "proved",
   "theorems": [
    "Verif.ExecLoop.C251_no_further_batch",
    "Verif.ExecLoop.C251_returns",
    "Verif.ExecLoop.C251_events"
   ],
   "note": ""
  },
  {
   "property": "C252",
   "status": "partial",
   "theorems": [
    "Verif.ExecLoop.C252_exact_partial",
    "Verif.ExecLoop.C252_violation",
    "Verif.ExecLoop.C252_holds_partial"
   ],
   "note": "Refuted in general (C252_violation): C252 fails: `stop()` is undone by an `execute()` call that begins after it (it need not have been made after it: a task group begins it later), without any `start()` by the caller; and the `execute()` call that was to end goes on too. Proved part (C252_exact_partial): C252. `is_stopped()` answers True exactly when `stop()` was called and neither `start()` nor the beginning of an `execute()` call came after it. Proved part (C252_holds_partial): C252. What remains true: with no `execute()` beginning and no `start()` after it, the signal stays set (`C252_exact_partial`) and no `execute()` call begins a batch."
  },
  {
   "property": "C253",
   "status": "partial",
   "theorems": [
    "Verif.ExecLoop.C253_raised_violation",
    "Verif.ExecLoop.C253_two_violation",
    "Verif.ExecLoop.C253_raises_partial",
    "Verif.ExecLoop.C253_exact_partial"
   ],
   "note": "Refuted in general (C253_raised_violation): C253 fails: `execution_mode` stays True when the `execute()` call has ended with an exception \u2026 Refuted in general (C253_two_violation): \u2026 and is False while one runs, if another one has returned meanwhile. Proved part (C253_raises_partial): C253, when an `execute()` call ends with an exception: it was cancelled in its sleep, or the `process()` call it was in failed. Proved part (C253_exact_partial): C253. What holds if no two `execute()` calls overlap: `execution_mode` is True exactly when the last `execute()` call has not returned normally; so while none has ended with an exception it tells exactly whether one is under way."
  },
  {
   "property": "C254",
   "status": "partial",
   "theorems": [
    "Verif.ExecLoop.C254_exact_partial",
    "Verif.ExecLoop.C254_returned_partial",
    "Verif.ExecLoop.C254_violation"
   ],
   "note": "Refuted in general (C254_violation): C254 fails: `join()` returns while an accepted event is still to be processed: its permission is denied afterwards, it is put back into the queue and started later. Proved part (C254_exact_partial): C254. When a `join()` call returns (at once, or on waking up), the queue is empty at that moment. If no `process()` call has failed, every event accepted until then has been started, found missing or aborted exactly if no `process()` call holds an event at that moment. Proved part (C254_returned_partial): C254: a `join()` call that has returned has returned for good, and one that has not is waiting, whatever happens."
  },
  {
   "property": "C255",
   "status": "proved",
   "theorems": [
    "Verif.ExecLoop.C255_progress"
   ],
   "note": ""
  },
  {
   "property": "C256",
   "status": "proved",
   "theorems": [
    "Verif.Resolver.C256_report",
    "Verif.Resolver.C256_exclusive"
   ],
   "note": ""
  },
  {
   "property": "C257",
   "status": "proved",
   "theorems": [
    "Verif.ExecSlots.C257_limit",
    "Verif.ExecSlots.C257_refines",
    "Verif.ExecSlots.C257_enabled",
    "Verif.ExecSlots.C257_drains"
   ],
   "note": "Limit of the domain (C257_limit): C257: whatever is appended, processed (by any number of overlapping calls), cancelled or cleaned up, and however events end, at most `limit` events are executed at the same time, and as many more as there are free slots may begin: no slot is lost."
  },
  {
   "property": "C258",
   "status": "proved",
   "theorems": [
    "Verif.PileScope.C258_exclusive",
    "Verif.PileScope.C258_in_turn",
    "Verif.PileScope.C258_progress",
    "Verif.PileScope.C258_no_nesting",
    "Verif.PileScope.C258_asks",
    "Verif.PileScope.C258_handover"
   ],
   "note": ""
  },
  {
   "property": "C259",
   "status": "partial",
   "theorems": [
    "Verif.PileScope.C259_exact_partial",
    "Verif.PileScope.C259_stable_partial",
    "Verif.PileScope.C259_violation"
   ],
   "note": "Refuted in general (C259_violation): C259 is refuted: task 2 calls a method without `async with pile` while task 1 is in the block; the pile changes under task 1. Proved part (C259_exact_partial): C259, exactly. While `t` is in the block, every call of a method of the pile is made by `t` if and only if every such call is made by a task in its own block: the block protects against tasks that also use `async with pile`, and against no others. Proved part (C259_stable_partial): C259 (partial). If all calls made meanwhile come from tasks in their own block, the pile is, during the block of `t`, what it was at the entry followed by the calls of `t`."
  },
  {
   "property": "C260",
   "status": "proved",
   "theorems": [
    "Verif.CopyContainers.C260_same_values",
    "Verif.CopyContainers.C260_same_values_dataclass",
    "Verif.CopyContainers.C260_invalid",
    "Verif.CopyContainers.C260_identities",
    "Verif.CopyContainers.C260_identities_dataclass"
   ],
   "note": ""
  },
  {
   "property": "C261",
   "status": "partial",
   "theorems": [
    "Verif.CopyContainers.C261_exact_partial",
    "Verif.CopyContainers.C261_dataclass_partial",
    "Verif.CopyContainers.C261_independent_partial",
    "Verif.CopyContainers.C261_violation"
   ],
   "note": "Refuted in general (C261_violation): C261 is false of the code: a list in a tuple is shared by the deep copy, and appending to it changes the original. Proved part (C261_exact_partial): C261 (Params, exact): after `with_updates(copy_containers=\"deep\", ...)` a kept field of the new object shares a mutable object with the values of the original exactly if its value is not itself a mutable container (a tuple, a frozen dataclass, an object of another class) and a mutable object can be reached from it. Proved part (C261_dataclass_partial): C261 (DataClass, exact): the same. Proved part (C261_independent_partial): C261 (effect): if a kept value is a mutable container, no modification of any object reachable from it in the new object, with any contents, changes any value of the original."
  },
  {
   "property": "C262",
   "status": "partial",
   "theorems": [
    "Verif.Streaming.C262_exact_partial",
    "Verif.Streaming.C262_pending_for_ever_partial",
    "Verif.Streaming.C262_cancelled_partial",
    "Verif.Streaming.C262_violation"
   ],
   "note": "Refuted in general (C262_violation): C262 is false of the code: the stream raises, the error is swallowed, and the event is listed as pending, not as failed. Proved part (C262_exact_partial): C262 (exact): when the stream of an executing event has been exhausted or has raised, the event is listed under exactly one status: the one the code of `stream()` assigned last, PENDING if it assigned none. So it is listed as the claim says exactly if `stream()` itself assigned that status. Proved part (C262_pending_for_ever_partial): C262 (consequence): an event whose `stream()` raised without assigning a status is reported nowhere and processed never again: it is listed as pending at every later moment and never executes. Proved part (C262_cancelled_partial): C262, a cancelled stream: whatever statuses its code has assigned, the event stays listed as PROCESSING, and it is never executed again."
  },
  {
   "property": "C263",
   "status": "proved",
   "theorems": [
    "Verif.Executor.C263_at_most_once"
   ],
   "note": ""
  },
  {
   "property": "C264",
   "status": "proved",
   "theorems": [
    "Verif.Executor.C264_settled"
   ],
   "note": ""
  },
  {
   "property": "C265",
   "status": "partial",
   "theorems": [
    "Verif.Event.C265_tree_partial",
    "Verif.Event.C265_violation"
   ],
   "note": "Refuted in general (C265_violation): C265 is false of the code: for every `n` up to 101 there is an error of `n + 1` exception objects whose serialisation has `2 ^ (n + 1) - 1` entries. Proved part (C265_tree_partial): C265, where it holds: if no exception object is listed by two groups or twice by one, and the error itself by none, the serialised error has at most one entry per exception object."
  },
  {
   "property": "C266",
   "status": "partial",
   "theorems": [
    "Verif.Element.C266_exact_partial",
    "Verif.Element.C266_basic_date_violation"
   ],
   "note": "Refuted in general (C266_basic_date_violation): C266 is false of the code for every day of the calendar written `YYYYMMDD`: the text is ISO 8601 and the library reads it, but the creation time is the number read as a timestamp - some day between 1970 and 1973 -, never the day written. Proved part (C266_exact_partial): C266, exactly: a text that `fromisoformat` reads as `t` becomes the creation time `t` if and only if `float` does not read it, or the number is not a timestamp, or happens to be the timestamp of `t`."
  },
  {
   "property": "C267",
   "status": "proved",
   "theorems": [
    "Verif.Fixtures.C267_simple_graph",
    "Verif.Fixtures.C267_cyclic_graph",
    "Verif.Fixtures.C267_dag_graph",
    "Verif.Fixtures.C267_elements",
    "Verif.Fixtures.C267_test_pile",
    "Verif.Fixtures.C267_test_flow",
    "Verif.Fixtures.C267_test_progression"
   ],
   "note": ""
  },
  {
   "property": "C268",
   "status": "partial",
   "theorems": [
    "Verif.Processor.C268_never_aborted_violation",
    "Verif.Processor.C268_exact_partial"
   ],
   "note": "Refuted in general (C268_never_aborted_violation): C268, refuted for every processor whose queue can hold `max_denial_tracking` events: enqueue `n \u2265 max_denial_tracking` events and let `process()` be called again and again, as `execute()` does, the permission being denied every time. After any number `k` of calls there have been `k` denials, all `n` events are still in the queue, and none has been aborted (or started). Proved part (C268_exact_partial): C268, exact: `n` events (as many as the queue takes) are enqueued and every permission check denies. Some event is aborted eventually exactly if there are fewer than `max_denial_tracking` of them."
  },
  {
   "property": "C269",
   "status": "partial",
   "theorems": [
    "Verif.HashModel.C269_violation",
    "Verif.HashModel.C269_mode_partial",
    "Verif.HashModel.C269_round_trip_partial",
    "Verif.HashModel.C269_exact_partial"
   ],
   "note": "Refuted in general (C269_violation): C269: `from_json(m.to_json())` has the fields of `m`. This fails for unset fields (another default comes back); a nested model with an unset field has no JSON text at all; and in python mode the text is always refused. Proved part (C269_mode_partial): C269 (partial): the mode. Reading a JSON text succeeds in json mode only: python mode refuses every text with a validation error, any other mode with `ValueError`, whatever the text and the class are. Proved part (C269_round_trip_partial): C269 (partial): missing: fields that hold a sentinel other than their default, and models without a JSON text. If validation gives every field value back from what its JSON text reads as (whatever it reads as: dates, paths and sets read as strings and lists), and fields holding a sentinel have it as default, then `from_json(m.to_json())` has exactly the fields of `m`, in their order. Proved part (C269_exact_partial): C269, exactly. A model that has a JSON text is restored from it if and only if every field that holds a sentinel has this sentinel as its default, and validation gives every other field value back from what its JSON text reads as. (`C269_violation` has a model without a text, and a field whose default is another value.)"
  },
  {
   "property": "C270",
   "status": "proved",
   "theorems": [
    "Verif.Broadcaster.C270_delivered",
    "Verif.Broadcaster.C270_released",
    "Verif.Broadcaster.C270_limit"
   ],
   "note": "Limit of the domain (C270_limit): Unsubscribing the object itself, when it is subscribed too, takes a subscription of its method away."
  },
  {
   "property": "C271",
   "status": "partial",
   "theorems": [
    "Verif.EventSerial.C271_violation",
    "Verif.EventSerial.C271_exact_partial"
   ],
   "note": "Refuted in general (C271_violation): C271: the serialised error of an event shows its error, with every exception nested in it. This fails for an exception group that holds an exception which is no `Exception` (a `BaseExceptionGroup`): its members are left out. Proved part (C271_exact_partial): C271, the exact condition: everything is shown iff no group in it is a `BaseExceptionGroup` and groups are nested at most 101 deep."
  },
  {
   "property": "C272",
   "status": "partial",
   "theorems": [
    "Verif.JsonEncode.C272_violation",
    "Verif.JsonEncode.C272_exact_partial",
    "Verif.JsonEncode.C272_default_partial"
   ],
   "note": "Refuted in general (C272_violation): C272: with `enum_as_name=True` members of enumerations are written by their names. This fails for every value: the flag never changes what is written, and a member is written as its value. Proved part (C272_exact_partial): C272, the exact condition: what is written has the names of all members of enumerations iff the value of each member is written as its name. Proved part (C272_default_partial): C272 (partial): the function that `get_orjson_default` returns does give the name, when it is called with a member: with the flag the name, whatever the other serializers do; without it what they give."
  },
  {
   "property": "C273",
   "status": "proved",
   "theorems": [
    "Verif.KeyMatch.C273_fewest"
   ],
   "note": ""
  },
  {
   "property": "C274",
   "status": "proved",
   "theorems": [
    "Verif.Lndl.C274_smaller_operable",
    "Verif.Lndl.C274_unknown",
    "Verif.Lndl.C274_left",
    "Verif.Lndl.C274_empty_limit"
   ],
   "note": "Limit of the domain (C274_empty_limit): The domain is needed: an empty list of capabilities still requires the required specs of the whole operable, while the operable without specs takes an empty `OUT{}`."
  },
  {
   "property": "C275",
   "status": "partial",
   "theorems": [
    "Verif.Executor.C275_exact_partial",
    "Verif.Executor.C275_violation"
   ],
   "note": "Refuted in general (C275_violation): C275 is false: events that timed out stay stored after any number of default clean-ups. Proved part (C275_exact_partial): C275 (partial): the default clean-up removes precisely the completed, failed and aborted events; cancelled and skipped ones stay. Missing: that these go too (`C275_violation`); they are gone iff there were none."
  },
  {
   "property": "C276",
   "status": "partial",
   "theorems": [
    "Verif.ContainerText.C276_exact_partial",
    "Verif.ContainerText.C276_violation",
    "Verif.ContainerText.C276_dict_text_partial",
    "Verif.ContainerText.C276_graph_exact_partial",
    "Verif.ContainerText.C276_flow_exact_partial"
   ],
   "note": "Refuted in general (C276_violation): C276 is false: whatever pile with an item is written, the pile that is read has none, and no error is raised. Proved part (C276_exact_partial): C276 (partial, exact for piles). For every reachable pile whose classes can be found again (the domain of C10) and whose own metadata has no entry `progression_name`, compact or indented, keys sorted or not: `Pile.from_json(pile.to_json())` succeeds and gives a pile with the same type constraint but without items and without name; so the pile comes back exactly if it has no items and no name. Missing: all other piles, for which the claim is false (`C276_violation`). Proved part (C276_dict_text_partial): C276 (partial, what does hold). The text of `pile.to_dict(mode=\"json\")` is read back by `Pile.from_json` as the same pile, on the domain of C10. Proved part (C276_graph_exact_partial): C276 (partial, exact for graphs). For every reachable graph `Graph.from_json(graph.to_json())` succeeds and gives a graph without nodes and edges; so the graph comes back exactly if it had none. Proved part (C276_flow_exact_partial): C276 (partial, exact for flows). For every flow built with distinct names, after any history of calls `Flow.from_json(flow.to_json())` succeeds and gives a flow with the same name and the same type constraint, but without items and without progressions; so the flow comes back exactly if it had neither."
  },
  {
   "property": "C277",
   "status": "partial",
   "theorems": [
    "Verif.Adapt.C277_node",
    "Verif.Adapt.C277_exact_partial",
    "Verif.Adapt.C277_violation",
    "Verif.Adapt.C277_adapter_fails",
    "Verif.Adapt.C277_graph_exact_partial",
    "Verif.Adapt.C277_graph_violation"
   ],
   "note": "Refuted in general (C277_violation): C277 is false for piles: with default arguments on both sides, `Pile.adapt_from` raises on everything `Pile.adapt_to` writes. Refuted in general (C277_graph_violation): C277 is false for graphs: with default arguments on both sides, `Graph.adapt_from` raises on everything `Graph.adapt_to` writes. Proved part (C277_exact_partial): C277 (partial, exact for piles). With a lossless adapter, a pile of the domain of C213 comes back from `adapt_from(adapt_to(..))` exactly if the arguments of `adapt_from` name the keys that `adapt_to` used: with default arguments of `adapt_to` (mode \"db\"), exactly if `adapt_from` is given `adapt_kw={\"meta_key\": \"node_metadata\"}`. Missing: the default arguments of `adapt_from` (`C277_violation`). Proved part (C277_graph_exact_partial): C277 (partial, exact for graphs). With a lossless adapter and default arguments of `adapt_to`, a reachable graph comes back from `adapt_from` exactly if that is given `adapt_kw={\"meta_key\": \"node_metadata\", \"item_meta_key\": \"node_metadata\"}`."
  },
  {
   "property": "C278",
   "status": "proved",
   "theorems": [
    "Verif.Nested.C278_nested",
    "Verif.Nested.C278_refused"
   ],
   "note": ""
  },
  {
   "property": "C279",
   "status": "partial",
   "theorems": [
    "Verif.CallParse.C279_accepts",
    "Verif.CallParse.C279_values",
    "Verif.CallParse.C279_exact_partial",
    "Verif.CallParse.C279_errors_partial",
    "Verif.CallParse.C279_duplicate_violation",
    "Verif.CallParse.C279_reserved_violation",
    "Verif.CallParse.C279_type_error_violation",
    "Verif.CallParse.C279_hashable"
   ],
   "note": "Refuted in general (C279_duplicate_violation): `f(a=1, a=2)` is accepted (the duplicate is found by the compiler, which is not run) and the first value is lost. Refuted in general (C279_reserved_violation): `f(1, _pos_0=2)` loses the positional argument. Refuted in general (C279_type_error_violation): `f({[]: 0})`: the documented exception is `ValueError`, but `TypeError` escapes. Proved part (C279_exact_partial): C279 (exactly when no argument is lost). The result has an entry for every argument exactly if the keyword names are distinct and none of them is the key `_pos_i` of a positional argument. Proved part (C279_errors_partial): C279 (refusals). A refused text raises `ValueError`, or `TypeError`; the latter only if a set or a dict key written in an argument has an unhashable element. Missing: such a text raises `TypeError` (`C279_type_error_violation`)."
  },
  {
   "property": "C280",
   "status": "partial",
   "theorems": [
    "Verif.Errors.C280_retryable_and_details",
    "Verif.Errors.C280_exact_partial",
    "Verif.Errors.C280_to_dict",
    "Verif.Errors.C280_library",
    "Verif.Errors.C280_empty_message_violation",
    "Verif.Errors.C280_cause_violation"
   ],
   "note": "Refuted in general (C280_empty_message_violation): The message `\"\"` is replaced by the default, although the documentation says that only `None` is. Refuted in general (C280_cause_violation): A cause whose truth value is false (an exception class with `__len__`, say) is forgotten. Proved part (C280_exact_partial): C280, exactly when all is as promised: the message is promised unless it is empty (and the default is not), the cause is kept unless it is an exception with a false truth value, and the details are the very dict passed unless that is empty."
  },
  {
   "property": "C281",
   "status": "partial",
   "theorems": [
    "Verif.Event.C281_starts_bounded",
    "Verif.Event.C281_no_overlap",
    "Verif.Event.C281_exact_partial",
    "Verif.Event.C281_assignment",
    "Verif.Event.C281_overwritten_violation",
    "Verif.Event.C281_second_run_violation",
    "Verif.Event.C281_timeout"
   ],
   "note": "Refuted in general (C281_overwritten_violation): A status assigned while the body runs is overwritten when it ends: an event that was aborted ends `COMPLETED`. Refuted in general (C281_second_run_violation): A finished event set back to `PENDING` runs again, and until then shows the response of the first run. Proved part (C281_exact_partial): C281, exactly when an assigned status lasts: after any history, assigning a status other than `PENDING` lasts until the next assignment, whatever calls of `invoke` do, if and only if the body is not running at that moment; then the body does not start either."
  },
  {
   "property": "C282",
   "status": "partial",
   "theorems": [
    "Verif.Graph.C282_structure",
    "Verif.Graph.C282_unchecked",
    "Verif.Graph.C282_exact_partial",
    "Verif.Graph.C282_reopened_violation"
   ],
   "note": "Refuted in general (C282_reopened_violation): C282 (violation): an edge that was closed is open after writing and reading. Proved part (C282_exact_partial): C282 (partial, exact). With `check_conditions`, all answers (path lengths included) survive writing and reading exactly if beside every edge between two different nodes whose condition says no there is a parallel edge that may be used; the answers to \"is there a path\" survive exactly if every edge whose condition says no is bypassed by a walk of edges that may be used."
  },
  {
   "property": "C283",
   "status": "partial",
   "theorems": [
    "Verif.Prune.C283_exact_partial",
    "Verif.Prune.C283_json_text",
    "Verif.Prune.C283_list",
    "Verif.Prune.C283_object",
    "Verif.Prune.C283_number_violation",
    "Verif.Prune.C283_text_violation"
   ],
   "note": "Refuted in general (C283_number_violation): C283 (violation): the text \"0123\" is shown as itself, the text \"123\" as a number. Refuted in general (C283_text_violation): C283 (violation): a text that denotes a text that is JSON: `\"1\"` is shown as the text 1, and the text 1 as a number. Proved part (C283_exact_partial): C283 (partial, exact): a text is shown as that text exactly if it is not a JSON document; otherwise what it denotes is shown (and, with `drop_empties`, pruned)."
  },
  {
   "property": "C284",
   "status": "partial",
   "theorems": [
    "Verif.ExecStatus.C284_exact_partial",
    "Verif.ExecStatus.C284_filed_partial",
    "Verif.ExecStatus.C284_found_partial",
    "Verif.ExecStatus.C284_tells_partial",
    "Verif.ExecStatus.C284_aborted_violation",
    "Verif.ExecStatus.C284_processing_violation",
    "Verif.ExecStatus.C284_appended_violation"
   ],
   "note": "Refuted in general (C284_aborted_violation): C284 fails for events that were denied three times: `get_events_by_status(ABORTED)` returns an event whose status is PENDING. Refuted in general (C284_processing_violation): C284 fails for PROCESSING: an event that waits for a slot is still PENDING, one that was cancelled before it was filed is CANCELLED for ever. Refuted in general (C284_appended_violation): C284 fails for events that are appended after they have run: a completed event is listed under PENDING. Proved part (C284_exact_partial): C284, exactly: whatever is appended (while pending), started, denied, executed, cancelled, timed out or cleaned up in whatever order, an event which the executor lists under a status other than PROCESSING has this status itself, unless the list is ABORTED; the events listed there are all still PENDING. Proved part (C284_filed_partial): C284, filing: an executing event whose `invoke()` has begun is filed under its own status when its `finally` clause runs: it is then listed there and nowhere else, and does not execute any more. Before `invoke()` has begun nothing is filed. Proved part (C284_found_partial): Conversely, a stored event with status `st` is listed under `st`; or under PROCESSING, where it waits for its execution to begin or to be filed, or was cut off; or, if it is pending, perhaps under ABORTED. Proved part (C284_tells_partial): C284: what the executor's answer tells. The own status of an event that was pending is PENDING exactly as long as no `invoke()` of it has begun, PROCESSING exactly while its body has begun and not ended, and afterwards COMPLETED, FAILED or CANCELLED exactly according to how the body ended the first time; so every event listed under one of these three ended that way."
  },
  {
   "property": "C285",
   "status": "partial",
   "theorems": [
    "Verif.PileLoop.C285_no_error",
    "Verif.PileLoop.C285_exact_partial",
    "Verif.PileLoop.C285_kept_partial",
    "Verif.PileLoop.C285_remove_each_partial",
    "Verif.PileLoop.C285_remove_all_partial",
    "Verif.PileLoop.C285_violation"
   ],
   "note": "Refuted in general (C285_violation): The full claim fails: the body takes out item 1 only, item 2 is in the pile throughout, and the loop ends without having visited it. Proved part (C285_exact_partial): An item that the body never takes out is visited at most once, and when the loop has ended it has been visited exactly unless some turn moved it from a position still to come to one already passed. Proved part (C285_kept_partial): A body that takes nothing out: when the loop has ended it has visited the items of the final pile (the added ones too), each once and in order. Proved part (C285_remove_each_partial): A loop that takes out every item it visits ends, has visited the items at the even positions and leaves those at the odd positions. Proved part (C285_remove_all_partial): So such a loop empties the pile exactly if it has at most one item."
  },
  {
   "property": "C286",
   "status": "proved",
   "theorems": [
    "Verif.BroadcastConc.C286_exact",
    "Verif.BroadcastConc.C286_order",
    "Verif.BroadcastConc.C286_returns",
    "Verif.BroadcastConc.C286_aborts"
   ],
   "note": ""
  },
  {
   "property": "C287",
   "status": "partial",
   "theorems": [
    "Verif.BroadcastConc.C287_exact_partial",
    "Verif.BroadcastConc.C287_violation"
   ],
   "note": "Refuted in general (C287_violation): C287 fails: 1 and 2 subscribe and a broadcast begins; 1 unsubscribes 2, which is called nevertheless. Proved part (C287_exact_partial): C287, exactly: after the history `pre`, somebody unsubscribes the (existing) callback `h`. It can be called afterwards without being subscribed again if and only if a broadcast is running that was begun before and has `h` still before it."
  },
  {
   "property": "C288",
   "status": "proved",
   "theorems": [
    "Verif.FlowSync.C288_names",
    "Verif.FlowSync.C288_items",
    "Verif.FlowSync.C288_at_rest"
   ],
   "note": ""
  },
  {
   "property": "C289",
   "status": "partial",
   "theorems": [
    "Verif.LndlValue.C289_exact_partial",
    "Verif.LndlValue.C289_value_partial",
    "Verif.LndlValue.C289_true_violation"
   ],
   "note": "Refuted in general (C289_true_violation): C289 is false: `true` arrives as 1.0, and 9007199254740993 as 9007199254740992.0. Proved part (C289_exact_partial): C289, exactly: when a field of type `float` for which a text is written holds `x`, the text denotes the number `x` if and only if it does not stand for a truth value, a compound value or a whole number that is no double. Proved part (C289_value_partial): C289, what arrives: a float literal as it is; a whole number as the nearest double; `true` and `false` as 1 and 0."
  },
  {
   "property": "C290",
   "status": "proved",
   "theorems": [
    "Verif.LndlValue.C290_truth_values",
    "Verif.LndlValue.C290_whole_numbers",
    "Verif.LndlValue.C290_decimals"
   ],
   "note": ""
  },
  {
   "property": "C291",
   "status": "partial",
   "theorems": [
    "Verif.Parser.C291_valued_partial",
    "Verif.Parser.C291_exact_partial",
    "Verif.Parser.C291_dropped_violation"
   ],
   "note": "Refuted in general (C291_dropped_violation): C291 fails: a field without a value is dropped silently - and if the next field follows, its name is taken as the value and its own value is dropped. Proved part (C291_valued_partial): C291, where it holds: in a block in which each `name:` is followed by a value, the fields of the result are exactly those that are written (whatever follows the block). Proved part (C291_exact_partial): C291, exactly: of a block (with distinct names) at the end of the text, all fields that are written arrive if and only if each `name:` is followed by a value; no field arrives that is not written."
  },
  {
   "property": "C292",
   "status": "proved",
   "theorems": [
    "Verif.EventBusConc.C292_only",
    "Verif.EventBusConc.C292_all",
    "Verif.EventBusConc.C292_progress",
    "Verif.EventBusConc.C292_emit",
    "Verif.EventBusConc.C292_ops"
   ],
   "note": ""
  },
  {
   "property": "C293",
   "status": "partial",
   "theorems": [
    "Verif.EventBusConc.C293_exact_partial",
    "Verif.EventBusConc.C293_violation"
   ],
   "note": "Refuted in general (C293_violation): C293 fails: 1 and 2 subscribe, `emit` is called, 2 is run first and unsubscribes 1; then 1 is run, though nothing is subscribed under 1 any more. Proved part (C293_exact_partial): C293, what holds exactly: a handler can be run next for an emission of a topic if and only if an emission of that topic, called while the handler was subscribed, has not yet returned nor run it for that subscription; whether it is subscribed now does not matter."
  },
  {
   "property": "C294",
   "status": "partial",
   "theorems": [
    "Verif.Graph.C294_answers_partial",
    "Verif.Graph.C294_exact_partial",
    "Verif.Graph.C294_refresh_partial",
    "Verif.Graph.C294_violation"
   ],
   "note": "Refuted in general (C294_violation): C294, refuted in full: the re-pointed edge is listed for its former node only; after `remove_edge` that node can neither be asked for its successors nor be removed. Proved part (C294_answers_partial): C294 (partial: the answers go by the ends under which the edges were filed, and removals are only considered while these are the current ones). Proved part (C294_exact_partial): C294 (partial): the edges are listed for the right nodes exactly while each edge has the ends under which it was filed. Proved part (C294_refresh_partial): C294 (partial): an assignment to a field of the graph repairs it: afterwards the graph answers as one to which its nodes and edges were added as they are now."
  },
  {
   "property": "C295",
   "status": "partial",
   "theorems": [
    "Verif.Flow.C295_answers_partial",
    "Verif.Flow.C295_exact_partial",
    "Verif.Flow.C295_violation"
   ],
   "note": "Refuted in general (C295_violation): C295, refuted in full: after renaming \"a\" to \"b\" the progression is not found as \"b\" but as \"a\"; a second \"b\" is accepted; and after the renamed one is removed by id, \"a\" can neither be looked up nor given to a new progression. Proved part (C295_answers_partial): C295 (partial: progressions are found under the name they came in with, not under the one they bear, and removals by id of renamed progressions are left out). Proved part (C295_exact_partial): C295 (partial): every progression is found under the name it bears, and under no other, exactly if each bears the name it came in with."
  },
  {
   "property": "C296",
   "status": "partial",
   "theorems": [
    "Verif.Flow.C296_exact_partial",
    "Verif.Flow.C296_kept_partial",
    "Verif.Flow.C296_rebuild_partial",
    "Verif.Flow.C296_violation"
   ],
   "note": "Refuted in general (C296_violation): C296, refuted in full: appending an unknown id to a stored progression, and removing a listed item from the items pile, are accepted. Proved part (C296_exact_partial): C296 (partial): an act done on an intact flow leaves it intact exactly if it respects the references. Proved part (C296_kept_partial): C296 (partial): histories whose acts all respect the references end in an intact flow. Proved part (C296_rebuild_partial): C296 (partial): building a flow anew from the items and progressions of a flow \u2014 as `from_dict` does \u2014 tells: it fails with `NotFoundError` exactly if the flow is not intact."
  },
  {
   "property": "C297",
   "status": "partial",
   "theorems": [
    "Verif.AlcallTime.C297_not_before",
    "Verif.AlcallTime.C297_gap_partial",
    "Verif.AlcallTime.C297_exact_partial",
    "Verif.AlcallTime.C297_violation"
   ],
   "note": "Refuted in general (C297_violation): C297 is false when items wait for a slot: with `throttle_period = 2` and `max_concurrent = 1`, and no delay by the scheduler, the function is called for the third item one second after it was called for the second. Proved part (C297_gap_partial): C297, restricted to items called at once: if the function is called for an item in the moment its task is started, the calls for all later items come at least one throttle period per position later. Missing: an item that had to wait for a slot (or for the scheduler), see `C297_violation`. Proved part (C297_exact_partial): C297 with a free slot for every item: when the scheduler adds no delay and `max_concurrent` is absent or not smaller than the number of items, the function is called for the item at position `i` exactly at `delay_before_start + i * throttle_period`."
  },
  {
   "property": "C298",
   "status": "proved",
   "theorems": [
    "Verif.AlcallTime.C298_pauses",
    "Verif.AlcallTime.C298_duration"
   ],
   "note": ""
  },
  {
   "property": "C299",
   "status": "partial",
   "theorems": [
    "Verif.AlcallTime.C299_clock_partial",
    "Verif.Alcall.C299_exact_partial",
    "Verif.Alcall.C299_partial",
    "Verif.Alcall.C299_violation"
   ],
   "note": "Refuted in general (C299_violation): C299 is false for 0, which is accepted and means no limit: all items of any list are processed at the same time under some schedule. Proved part (C299_clock_partial): C299 on the clock: with a limit `k`, at no time more than `k` items are between their first call and their end, pauses between attempts included; an item ends only after its call, and is called only after its task was started. Proved part (C299_exact_partial): C299, exactly: a call with `max_concurrent = m` that is not rejected processes at most `m` items at the same time, under every schedule and whatever the function does, if and only if `m` is not 0 or there is no item at all. Proved part (C299_partial): C299 for positive limits. Missing: `max_concurrent = 0`."
  },
  {
   "property": "C300",
   "status": "proved",
   "theorems": [
    "Verif.LazyInit.C300_safe",
    "Verif.LazyInit.C300_once",
    "Verif.LazyInit.C300_refill_limit"
   ],
   "note": "Limit of the domain (C300_refill_limit): Without the lock a table may be filled more than once (with the same value): two threads in their first call."
  },
  {
   "property": "C301",
   "status": "partial",
   "theorems": [
    "Verif.Graph.C301_exact_partial",
    "Verif.Graph.C301_kept_partial",
    "Verif.Graph.C301_holds_partial",
    "Verif.Graph.C301_violation"
   ],
   "note": "Refuted in general (C301_violation): C301, refuted in full: an edge added to the pile of edges closes a cycle that the graph does not see; a node taken from the pile of nodes leaves an edge to nowhere, on which the queries raise; to a node added to the pile of nodes no edge can be added: the call stores the edge and raises `KeyError`. Proved part (C301_exact_partial): C301 (partial): after calls on the piles of a graph, its answers fit what it holds exactly if it holds the same node ids and the same edges with the same ends as before these calls. Proved part (C301_kept_partial): C301 (partial): calls of the methods, and calls on the piles followed by an assignment to a field of the graph while every edge connects two nodes, leave a graph whose answers fit what it holds and whose methods do what they should. Proved part (C301_holds_partial): C301 (partial): the piles themselves do what they should: the graph holds what the calls did to each of the two lists."
  },
  {
   "property": "C302",
   "status": "partial",
   "theorems": [
    "Verif.Flow.C302_exact_partial",
    "Verif.Flow.C302_holds_partial",
    "Verif.Flow.C302_refused_partial",
    "Verif.Flow.C302_violation"
   ],
   "note": "Refuted in general (C302_violation): C302 fails for a pile, a serialised pile, a list of dicts and an empty `item_type`: each call succeeds and the flow holds an element of class 0. Proved part (C302_exact_partial): C302, exactly. A flow made by `Flow(items, item_type=t, strict_type=s)` keeps to `t` and `s` through every history iff every class that its `items` argument makes it take is allowed by `t` and `s`. Missing from the full claim: a pile, a serialised pile and a list of dicts bring their own constraint, and an empty `item_type` is no constraint (`C302_violation`). Proved part (C302_holds_partial): C302 for `item_type` naming at least one type (or missing) and items given as elements: the flow keeps to the constraint through every history of calls on the flow, its progressions and its items pile. Proved part (C302_refused_partial): C302. With `item_type` naming at least one type and items given as elements, the constructor raises TypeError if the first element that does not fit is preceded by fitting elements with distinct ids; no flow is made."
  },
  {
   "property": "C303",
   "status": "proved",
   "theorems": [
    "Verif.LoadHeap.C303_unchanged",
    "Verif.LoadHeap.C303_own_metadata"
   ],
   "note": ""
  },
  {
   "property": "C304",
   "status": "partial",
   "theorems": [
    "Verif.LoadHeap.C304_exact_partial",
    "Verif.LoadHeap.C304_independent_partial",
    "Verif.LoadHeap.C304_violation"
   ],
   "note": "Refuted in general (C304_violation): C304 fails: the list `[\"a\"]` in the metadata of the dict is also in the metadata of the element, and a write to it there shows in the dict. Proved part (C304_exact_partial): C304, exactly. The element that `Element.from_dict(d)` returns (for a class that has the `from_dict` of `Element`, and a dict with a metadata dict) shares an object with what was there before iff one of the values that it takes over from `d` is a dict, list or other object; a value that it takes over is then the very same object. Missing from the full claim: such values are not copied (`C304_violation`). Proved part (C304_independent_partial): C304 where no value taken over is a dict, list or object: writing to anything that can be reached from the element changes nothing that was there before."
  },
  {
   "property": "C305",
   "status": "proved",
   "theorems": [
    "Verif.DumpHeap.C305_unchanged"
   ],
   "note": ""
  },
  {
   "property": "C306",
   "status": "partial",
   "theorems": [
    "Verif.DumpHeap.C306_text",
    "Verif.DumpHeap.C306_plain_partial",
    "Verif.DumpHeap.C306_independent_partial",
    "Verif.DumpHeap.C306_exact_partial",
    "Verif.DumpHeap.C306_violation"
   ],
   "note": "Refuted in general (C306_violation): C306 fails: an object of another class in the metadata is also in the dict, and so is what a content serializer returns, here the content itself, also in mode json. Proved part (C306_plain_partial): C306 in every mode, without a content serializer, for data that consist of dicts, lists, elements and piles: nothing that can be reached from the returned dict was there before. Proved part (C306_independent_partial): So writing to anything that can be reached from the dict leaves the element alone. Proved part (C306_exact_partial): C306, exactly, for elements without a `to_dict` of their own in mode python: the returned dict shares an object with what was there before exactly if `model_dump` meets an object of a class it does not know."
  },
  {
   "property": "C307",
   "status": "proved",
   "theorems": [
    "Verif.Flows.C307_alone",
    "Verif.Flows.C307_untouched",
    "Verif.Flows.C307_foreign_limit",
    "Verif.Flows.C307_single",
    "Verif.Flows.C307_history"
   ],
   "note": "Limit of the domain (C307_foreign_limit): The domain of C307 is needed: passing an instance that belongs to another flow to `add_item` changes the other flow."
  },
  {
   "property": "C308",
   "status": "partial",
   "theorems": [
    "Verif.Flows.C308_exact_partial",
    "Verif.Flows.C308_history_partial",
    "Verif.Flows.C308_separate_partial",
    "Verif.Flows.C308_violation"
   ],
   "note": "Refuted in general (C308_violation): C308 fails in general, in three ways, with both flows intact before: `remove_item` on one of two flows over the same items pile leaves the other with a reference to nothing; `add_item` with a progression of another flow puts in an id that is no item there; `add_progression` to a shared pile of progressions brings in ids that are no items of the other flow. Proved part (C308_exact_partial): C308, exactly. A call on any flow `i` leaves the references of flow `g` (the same flow or another one) intact, precisely unless it is one of the three kinds of call of `Breaks`. Proved part (C308_history_partial): C308. Along a history without such calls the references of the flow stay intact. Proved part (C308_separate_partial): C308. When the flows share nothing, calls on other flows never break the references of a flow."
  },
  {
   "property": "C309",
   "status": "proved",
   "theorems": [
    "Verif.Semaphore.C309_init",
    "Verif.Semaphore.C309_bound",
    "Verif.Semaphore.C309_count",
    "Verif.Semaphore.C309_busy",
    "Verif.Semaphore.C309_turn",
    "Verif.Semaphore.C309_kept",
    "Verif.Semaphore.C309_limit"
   ],
   "note": "Limit of the domain (C309_limit): The domain of `C309_bound` is needed: after a release by a task without a slot, two tasks are inside a semaphore of one."
  },
  {
   "property": "C310",
   "status": "partial",
   "theorems": [
    "Verif.EventShare.C310_once",
    "Verif.EventShare.C310_not_stuck",
    "Verif.EventShare.C310_turn",
    "Verif.EventShare.C310_begun",
    "Verif.EventShare.C310_final",
    "Verif.EventShare.C310_listed_partial",
    "Verif.EventShare.C310_exact_partial",
    "Verif.EventShare.C310_violation"
   ],
   "note": "Refuted in general (C310_violation): C310 fails in general: an executor lists an event as pending that has ended in another one; one whose `process()` call is cancelled while the event runs elsewhere lists it as processing for good; one that gave up after three denials lists as aborted an event that another one completed. Proved part (C310_listed_partial): C310. When nothing is going on any more, every executor that tried to run the event, none of whose attempts was cancelled and which did not abort it, lists the event under the status with which it ended \u2014 whichever executor ran it and whatever the other executors did, including cancelling and aborting. Proved part (C310_exact_partial): C310, exactly. Under the same conditions an executor that has the event lists it under the status of the event if and only if it has tried to run it, or the event is pending: an executor whose turn has not come goes on listing it as pending."
  },
  {
   "property": "C311",
   "status": "proved",
   "theorems": [
    "Verif.Condition.C311_exclusive",
    "Verif.Condition.C311_progress",
    "Verif.Condition.C311_turn",
    "Verif.Condition.C311_errors"
   ],
   "note": ""
  },
  {
   "property": "C312",
   "status": "proved",
   "theorems": [
    "Verif.Condition.C312_notify",
    "Verif.Condition.C312_cause",
    "Verif.Condition.C312_locked"
   ],
   "note": ""
  },
  {
   "property": "C313",
   "status": "partial",
   "theorems": [
    "Verif.Condition.C313_exact_partial",
    "Verif.Condition.C313_violation"
   ],
   "note": "Refuted in general (C313_violation): C313 fails: the notified task is cancelled before it runs; its wait raises, and the other task, which could have used the notification, goes on sleeping. Proved part (C313_exact_partial): C313, exactly. A notified task that has not run since: what happens to it next, whatever else is done, is that its wait returns, exactly if it runs before it is cancelled, and that the notification is lost, exactly if it is cancelled before it runs."
  },
  {
   "property": "C314",
   "status": "proved",
   "theorems": [
    "Verif.EventFlag.C314_set",
    "Verif.EventFlag.C314_not_before",
    "Verif.EventFlag.C314_released",
    "Verif.EventFlag.C314_once",
    "Verif.EventFlag.C314_waiting"
   ],
   "note": ""
  },
  {
   "property": "C315",
   "status": "proved",
   "theorems": [
    "Verif.TaskGroup.C315_joined",
    "Verif.TaskGroup.C315_leaves",
    "Verif.TaskGroup.C315_outcome",
    "Verif.TaskGroup.C315_cancelled",
    "Verif.TaskGroup.C315_closed"
   ],
   "note": ""
  },
  {
   "property": "C316",
   "status": "proved",
   "theorems": [
    "Verif.TaskGroup.C316_answers",
    "Verif.TaskGroup.C316_handed_on",
    "Verif.TaskGroup.C316_ends"
   ],
   "note": ""
  },
  {
   "property": "C317",
   "status": "proved",
   "theorems": [
    "Verif.Params.C317_content",
    "Verif.Params.C317_once",
    "Verif.Params.C317_rebuilt",
    "Verif.Params.C317_limit"
   ],
   "note": "Limit of the domain (C317_limit): The domain is needed: an enumeration member whose value counts as a sentinel is shown by `to_dict`, and the strict class then refuses to rebuild the object."
  },
  {
   "property": "C318",
   "status": "partial",
   "theorems": [
    "Verif.Spec.C318_nullable",
    "Verif.Spec.C318_listable",
    "Verif.Spec.C318_validator",
    "Verif.Spec.C318_order_partial",
    "Verif.Spec.C318_exact_partial",
    "Verif.Spec.C318_violation"
   ],
   "note": "Refuted in general (C318_violation): C318 fails in general: the two orders give specs that are not equal, and `as_nullable()` of a nullable spec need not be equal to it, because the metadata are compared in order. Proved part (C318_order_partial): C318, in part. Two such calls in either order, or the same call twice, give the same base, the same entries and the same annotation. Missing: equal specs (see below). Proved part (C318_exact_partial): C318, exactly. A call of `as_nullable` or `as_listable` on a spec that has the entry already gives an equal spec exactly if the entry is the last one of the metadata."
  },
  {
   "property": "C319",
   "status": "proved",
   "theorems": [
    "Verif.RaceLive.C319_nothing_left",
    "Verif.RaceLive.C319_outcome",
    "Verif.RaceLive.C319_cancels",
    "Verif.RaceLive.C319_ends",
    "Verif.RaceLive.C319_waits"
   ],
   "note": ""
  },
  {
   "property": "C320",
   "status": "proved",
   "theorems": [
    "Verif.Element.C320_canonical",
    "Verif.Element.C320_sorted",
    "Verif.Element.C320_unsorted",
    "Verif.Element.C320_separates"
   ],
   "note": ""
  },
  {
   "property": "C321",
   "status": "partial",
   "theorems": [
    "Verif.BroadcastRefs.C321_violation",
    "Verif.BroadcastRefs.C321_exact_partial",
    "Verif.BroadcastRefs.C321_released_partial",
    "Verif.BroadcastRefs.C321_kept_partial"
   ],
   "note": "Refuted in general (C321_violation): C321 fails: after one broadcast a callback stays subscribed, is counted and is called although the program has given up every reference to it; without the broadcast it is released. Proved part (C321_exact_partial): C321, the exact condition: an object to which the program has given up every reference is collected exactly if no broadcast has called a callback that needs it. Proved part (C321_released_partial): C321, released: once collected, a callback is never called again, whatever happens, and is not among those a broadcast or `get_subscriber_count` finds. Holds for callbacks of every kind. Proved part (C321_kept_partial): C321, kept: a subscribed callback that a broadcast has called and whose object the program then gives up stays subscribed for ever: whatever is done afterwards (no call of `unsubscribe` can remove it), it is counted and every broadcast that is not aborted calls it."
  },
  {
   "property": "C322",
   "status": "partial",
   "theorems": [
    "Verif.BroadcastRefs.C322_violation",
    "Verif.BroadcastRefs.C322_exact_partial",
    "Verif.BroadcastRefs.C322_functions_partial"
   ],
   "note": "Refuted in general (C322_violation): C322 fails: the body of an object with an async `__call__` is not run (its coroutine is dropped), and an object that is not hashable is not called at all. Proved part (C322_exact_partial): C322, the exact condition: a broadcast that is not aborted runs the body of exactly those live subscribers that are hashable and either do not return a coroutine or are `async def` functions, methods or partials of them, in the order of subscription. An aborted one does so up to and including the callback that raised. Proved part (C322_functions_partial): C322 for functions, methods and partials of them: a broadcast runs all live subscribers in the order of subscription, unless one of them aborts it; exceptions do not stop it."
  },
  {
   "property": "C323",
   "status": "proved",
   "theorems": [
    "Verif.JsonCached.C323_history",
    "Verif.JsonCached.C323_bounded"
   ],
   "note": ""
  },
  {
   "property": "C324",
   "status": "partial",
   "theorems": [
    "Verif.NodeContent.C324_violation",
    "Verif.NodeContent.C324_exact_partial",
    "Verif.NodeContent.C324_read_partial"
   ],
   "note": "Refuted in general (C324_violation): C324 fails: a dict whose entry \"metadata\" is `None` makes the constructor raise `AttributeError`, and one whose metadata name a class is taken for a serialised element. Proved part (C324_exact_partial): C324, the exact condition: content is accepted and kept as it is exactly if it is `None`, an object with `to_dict`, a pydantic model, or a dict with texts as keys that names no class. Proved part (C324_read_partial): C324, restored: content is replaced by an element exactly if it is a dict that names a class and the reading function for that name (of `Node` if the name or its last part is registered, else of `Element`) returns that element."
  },
  {
   "property": "C325",
   "status": "partial",
   "theorems": [
    "Verif.NodeContent.C325_violation",
    "Verif.NodeContent.C325_exact_partial"
   ],
   "note": "Refuted in general (C325_violation): C325 fails: a number as content raises `TypeError`, a dict with odd metadata `AttributeError` or `TypeError`. Proved part (C325_exact_partial): C325, the exact condition: something else than `ValidationError` is raised exactly if the content is of another type than the declared ones, a dict with metadata that are no dict or a class entry that is true and no text, or the reading function raises something else than `ValueError`."
  },
  {
   "property": "C326",
   "status": "partial",
   "theorems": [
    "Verif.PileLoadKeys.C326_violation",
    "Verif.PileLoadKeys.C326_exact_partial",
    "Verif.PileLoadKeys.C326_plain_partial"
   ],
   "note": "Refuted in general (C326_violation): C326 fails: if the metadata of the items is under the key given as `item_meta_key`, the items are built before the class of the second one is refused; and an item whose entry under the key declares an allowed class is refused for what its unused entry \"metadata\" says. Proved part (C326_exact_partial): C326, exactly when no item is built: there is none, or there is a constraint and an item whose entry \"metadata\" is faulty, whatever key was given; then the call fails. Proved part (C326_plain_partial): C326 (partial; missing: items whose metadata is not under \"metadata\", see `C326_violation`). If every item has its metadata, a dict, under \"metadata\" and nothing under the key, an item that declares a class outside the constraint makes the call raise `TypeError` before any item is built, whatever the other items are."
  },
  {
   "property": "C327",
   "status": "proved",
   "theorems": [
    "Verif.PileLoadKeys.C327_loaded",
    "Verif.PileLoadKeys.C327_refused",
    "Verif.PileLoadKeys.C327_undeclared"
   ],
   "note": ""
  },
  {
   "property": "C328",
   "status": "partial",
   "theorems": [
    "Verif.ClassTree.C328_violation",
    "Verif.ClassTree.C328_exact_partial",
    "Verif.ClassTree.C328_top_partial"
   ],
   "note": "Refuted in general (C328_violation): C328 fails: `Pile.from_dict` makes a plain pile of the data of a subclass, `Graph.from_dict` and `Element.from_dict` make a plain pile of a subclass in a graph; an item whose class cannot be imported makes the whole call fail. Proved part (C328_exact_partial): C328, exactly: `B.from_dict(x.to_dict())` succeeds with every element at every depth of its own class if and only if the class of `x` is found by `B.from_dict`, the classes of all items of piles, at every depth, are found from `Element`, and the piles of all graphs and flows are instances of `Pile` itself. Proved part (C328_top_partial): C328, which class comes out at the top: `from_dict` called on a pile or graph class gives an instance of that very class, whatever the data say; called on another class it gives one of the class named in the data, if that is found."
  },
  {
   "property": "C329",
   "status": "partial",
   "theorems": [
    "Verif.CreatePathConc.C329_violation",
    "Verif.CreatePathConc.C329_looked_partial",
    "Verif.CreatePathConc.C329_free_partial",
    "Verif.CreatePathConc.C329_exact_partial"
   ],
   "note": "Refuted in general (C329_violation): C329 fails: with `file_exist_ok=False` a call returns a path at which a file was created after it had asked; and two calls return the same path, even if each program creates its file at once. Proved part (C329_looked_partial): C329 (partial; missing: files created between the question and the end of the call, see `C329_violation`). The step with which a call ends follows a moment during the call at which it looked: with `file_exist_ok=False` the call returns exactly if there was no file at its path at that moment, and raises `FileExistsError` otherwise; with `file_exist_ok=True` it always returns. Proved part (C329_free_partial): C329 (partial). If nothing creates the file after the call has looked, a path returned with `file_exist_ok=False` is free when the call returns. Proved part (C329_exact_partial): C329 (partial), the exact condition: a path at which there was no file when the call looked is free when the call returns iff every file created there in between has been deleted again."
  },
  {
   "property": "C330",
   "status": "proved",
   "theorems": [
    "Verif.CreatePathConc.C330_one",
    "Verif.CreatePathConc.C330_some"
   ],
   "note": ""
  },
  {
   "property": "C331",
   "status": "proved",
   "theorems": [
    "Verif.LazyInit.C331_ends"
   ],
   "note": ""
  }
 ]
}