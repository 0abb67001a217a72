{
 "claims": [
  {
   "property": "C01",
   "status": "proved",
   "theorems": [
    "Nestl.Set.set_history_refinement"
   ],
   "note": "all histories over several sets, every strict weak order, every allocation/constructor failure pattern"
  },
  {
   "property": "C02",
   "status": "proved",
   "theorems": [
    "Nestl.Set.set_insert_present",
    "Nestl.Set.set_insert_absent"
   ],
   "note": "on a refused allocation/constructor the pair {end(), true} is returned with err set"
  },
  {
   "property": "C03",
   "status": "proved",
   "theorems": [
    "Nestl.Set.set_find"
   ],
   "note": ""
  },
  {
   "property": "C04",
   "status": "proved",
   "theorems": [
    "Nestl.Set.set_erase_key"
   ],
   "note": ""
  },
  {
   "property": "C05",
   "status": "proved",
   "theorems": [
    "Nestl.Set.set_erase_iterator",
    "Nestl.Set.set_erase_range"
   ],
   "note": "any comparator"
  },
  {
   "property": "C06",
   "status": "proved",
   "theorems": [
    "Nestl.Set.set_iterators_stable",
    "Nestl.Set.set_frame"
   ],
   "note": ""
  },
  {
   "property": "C07",
   "status": "proved",
   "theorems": [
    "Nestl.Set.set_size_empty"
   ],
   "note": ""
  },
  {
   "property": "C08",
   "status": "proved",
   "theorems": [
    "Nestl.Set.set_walk_back",
    "Nestl.Set.set_incr_decr"
   ],
   "note": ""
  },
  {
   "property": "C09",
   "status": "proved",
   "theorems": [
    "Nestl.Set.set_log_comparisons"
   ],
   "note": "comparator calls counted, any comparator; the height bound is Nestl.RB.Tree.height_le"
  },
  {
   "property": "C10",
   "status": "proved",
   "theorems": [
    "Nestl.Set.set_insert_failure_atomic",
    "Nestl.Set.set_insert_absent"
   ],
   "note": "all of memory is unchanged; an error is reported iff a request is refused"
  },
  {
   "property": "C100",
   "status": "proved",
   "theorems": [
    "Nestl.LO.listOf_references",
    "Nestl.LO.listOf_references_insert",
    "Nestl.LO.listOf_references_erase",
    "Nestl.LO.listOf_references_sort",
    "Nestl.TO.treeOf_references",
    "Nestl.TO.treeOf_references_insert",
    "Nestl.TO.treeOf_references_erase"
   ],
   "note": "together with the refinement theorems of C97 and C98, which say which positions remain; tree copy is excluded, as the statement says"
  },
  {
   "property": "C101",
   "status": "proved",
   "theorems": [
    "Nestl.LO.listOf_error_cause",
    "Nestl.LO.listOf_error_iff",
    "Nestl.TO.treeOf_error_cause",
    "Nestl.TO.treeOf_error_iff"
   ],
   "note": "in the first theorem of each container the failing copy is some copy of the element class; the exact statement is the second one"
  },
  {
   "property": "C102",
   "status": "proved",
   "theorems": [
    "Nestl.VO.vectorOf_references",
    "Nestl.VO.vectorOf_references_push",
    "Nestl.VO.vectorOf_references_data",
    "Nestl.VO.vectorOf_references_reserve",
    "Nestl.VO.vectorOf_references_shrink",
    "Nestl.VO.vectorOf_references_resize",
    "Nestl.VO.vectorOf_references_swap",
    "Nestl.VO.vectorOf_references_move",
    "Nestl.VO.vectorOf_references_moveAssign",
    "Nestl.VO.vectorOf_references_push_failed"
   ],
   "note": "the last theorem is the counterexample the statement mentions; insertion in the middle: C104"
  },
  {
   "property": "C103",
   "status": "proved",
   "theorems": [
    "Nestl.VO.vectorOf_requests",
    "Nestl.VO.vectorOf_error_cause",
    "Nestl.VO.vectorOf_error_iff"
   ],
   "note": "in the second theorem the failing copy is some copy of the element class; the exact statement is the third one"
  },
  {
   "property": "C104",
   "status": "partial",
   "theorems": [
    "Nestl.VO.vectorOf_insert_safe",
    "Nestl.VO.vectorOf_insert_partial",
    "Nestl.VO.vectorOf_insert_sure",
    "Nestl.VO.vectorOf_insert_outside",
    "Nestl.VO.vectorOf_insert_leaves",
    "Nestl.VO.vectorOf_insert_others",
    "Nestl.VO.vectorOf_insert_references",
    "Nestl.VO.vectorOf_insert_requests",
    "Nestl.VO.vectorOf_insert_error_cause",
    "Nestl.VO.vectorOf_insert_error_iff",
    "Nestl.VO.vectorOf_insert_failure_violated"
   ],
   "note": "a copy that fails while elements are shifted breaks the vector: the last theorem is the counterexample; everything else is proved, and the full refinement for classes whose copies cannot fail"
  },
  {
   "property": "C105",
   "status": "partial",
   "theorems": [
    "Nestl.VO.vectorOf_range_safe",
    "Nestl.VO.vectorOf_range_partial",
    "Nestl.VO.vectorOf_range_outside",
    "Nestl.VO.vectorOf_range_others",
    "Nestl.VO.vectorOf_range_failure_violated"
   ],
   "note": "a copy that fails while elements are shifted breaks the vector: the last theorem is the counterexample"
  },
  {
   "property": "C106",
   "status": "partial",
   "theorems": [
    "Nestl.VO.vectorOf_throws_push",
    "Nestl.VO.vectorOf_throws_push_strong",
    "Nestl.VO.vectorOf_throws_copy",
    "Nestl.VO.vectorOf_throws_copy_error",
    "Nestl.VO.vectorOf_throws_assign",
    "Nestl.LO.listOf_throws_push",
    "Nestl.LO.listOf_throws_push_strong",
    "Nestl.LO.listOf_throws_copy",
    "Nestl.LO.listOf_throws_copy_error",
    "Nestl.LO.listOf_throws_assign_partial",
    "Nestl.LO.listOf_throws_assign_wrong_allocator",
    "Nestl.LO.listOf_throws_assign_violated"
   ],
   "note": "complete except for assignment to non-empty lists whose allocator is not default constructed, where the code swaps lists with different allocators; proved to be undefined behaviour whenever the copy of the source succeeds (listOf_throws_assign_wrong_allocator)"
  },
  {
   "property": "C107",
   "status": "proved",
   "theorems": [
    "Nestl.Errors.errors_ptr",
    "Nestl.Errors.errors_code",
    "Nestl.Errors.errors_agree",
    "Nestl.Errors.errors_code_value",
    "Nestl.Errors.errors_throw",
    "Nestl.Errors.errors_sticky"
   ],
   "note": "std::exception_ptr, std::make_exception_ptr and std::rethrow_exception behave as the C++ standard says; error codes are distinct and positive as the C standard says"
  },
  {
   "property": "C108",
   "status": "proved",
   "theorems": [
    "Nestl.VO.vectorOf_weak_calls",
    "Nestl.VO.vectorOf_weak_insert",
    "Nestl.VO.vectorOf_weak_tells",
    "Nestl.VO.vectorOf_weak_between",
    "Nestl.LO.listOf_weak_calls",
    "Nestl.LO.listOf_weak_tells",
    "Nestl.LO.listOf_weak_between",
    "Nestl.TO.treeOf_weak_calls",
    "Nestl.TO.treeOf_weak_tells",
    "Nestl.TO.treeOf_weak_between",
    "Nestl.TO.nest_weak_vector_calls",
    "Nestl.TO.nest_weak_list_calls",
    "Nestl.TO.nest_weak_set_calls"
   ],
   "note": "insertion in front of an element that fails may break the vector (C33) and is excluded as in C104; valid calls on smart pointers exclude the defects of C52-C56"
  },
  {
   "property": "C109",
   "status": "proved",
   "theorems": [
    "Nestl.VO.vectorOf_equal",
    "Nestl.VO.vectorOf_equal_compares",
    "Nestl.LO.listOf_equal_compares",
    "Nestl.TO.treeOf_equal_compares",
    "Nestl.TO.nest_equal",
    "Nestl.TO.nest_copy_equal"
   ],
   "note": "operator== of lists and trees of objects themselves: C97, C99"
  },
  {
   "property": "C11",
   "status": "proved",
   "theorems": [
    "Nestl.Set.set_clear",
    "Nestl.Set.set_destroy",
    "Nestl.Set.set_no_leak",
    "Nestl.Set.set_all_released"
   ],
   "note": ""
  },
  {
   "property": "C110",
   "status": "proved",
   "theorems": [
    "Nestl.TO.treeOf_ne",
    "Nestl.TO.treeOf_order",
    "Nestl.TO.treeOf_comparisons"
   ],
   "note": ""
  },
  {
   "property": "C111",
   "status": "partial",
   "theorems": [
    "Nestl.Own.set_assign_partial",
    "Nestl.Own.set_assign_loses_elements",
    "Nestl.Own.set_assign_self"
   ],
   "note": "violated by the code: if the allocators differ and an allocation fails, the remaining elements are destroyed with the source and no error is reported"
  },
  {
   "property": "C112",
   "status": "proved",
   "theorems": [
    "Nestl.LC.list_requests",
    "Nestl.Full.tree_requests_nothing",
    "Nestl.Full.tree_requests_one",
    "Nestl.Full.tree_requests_insert",
    "Nestl.Full.tree_requests_copy"
   ],
   "note": "exact numbers for calls that succeed, upper bounds for calls that fail"
  },
  {
   "property": "C113",
   "status": "proved",
   "theorems": [
    "Nestl.LO.listOf_requests",
    "Nestl.TO.treeOf_requests_nothing",
    "Nestl.TO.treeOf_requests_one",
    "Nestl.TO.treeOf_requests_insert",
    "Nestl.TO.treeOf_requests_copy"
   ],
   "note": "requests made by the elements themselves belong to the element class and are not counted"
  },
  {
   "property": "C114",
   "status": "proved",
   "theorems": [
    "Nestl.TO.treeOf_log_comparisons",
    "Nestl.LO.listOf_merge_comparisons",
    "Nestl.LO.listOf_sort_comparisons"
   ],
   "note": "erase of an array of keys: C116"
  },
  {
   "property": "C115",
   "status": "proved",
   "theorems": [
    "Nestl.VC.vector_requests",
    "Nestl.VC.vector_one_request",
    "Nestl.VC.vector_insert_range_requests",
    "Nestl.VC.vector_assign_input_requests"
   ],
   "note": "the price of a call is the specification Nestl.VC.Price; Nestl.VC.price_total: every call has one"
  },
  {
   "property": "C116",
   "status": "proved",
   "theorems": [
    "Nestl.Full.tree_no_comparisons",
    "Nestl.Full.tree_erase_keys_comparisons",
    "Nestl.LC.list_no_comparisons",
    "Nestl.TO.treeOf_no_comparisons",
    "Nestl.TO.treeOf_erase_keys_comparisons",
    "Nestl.LO.listOf_no_comparisons"
   ],
   "note": ""
  },
  {
   "property": "C117",
   "status": "partial",
   "theorems": [
    "Nestl.Full.tree_move_alloc_same",
    "Nestl.Full.tree_move_alloc_other_partial",
    "Nestl.Full.tree_move_alloc_crashes"
   ],
   "note": "by intent (the code does not compile if instantiated); the claim that a failing request does not crash is false: with different allocators a refused node makes s_minimum run on a null root, proved for every state in which the first node is refused"
  },
  {
   "property": "C118",
   "status": "proved",
   "theorems": [
    "Nestl.Own.set_program_history",
    "Nestl.Own.set_program_exact",
    "Nestl.Own.set_program_call",
    "Nestl.Own.set_program_query",
    "Nestl.Own.set_program_no_leak"
   ],
   "note": "set::operator=(set&&) is modelled by intent (C111); that it can lose elements without a report is C111"
  },
  {
   "property": "C119",
   "status": "partial",
   "theorems": [
    "Nestl.TO.treeOf_insert_range",
    "Nestl.TO.treeOf_insert_from",
    "Nestl.TO.treeOf_insert_range_cause",
    "Nestl.TO.treeOf_set_assign_partial",
    "Nestl.TO.treeOf_assign_loses_elements",
    "Nestl.TO.treeOf_set_assign_self"
   ],
   "note": "the range part is proved in full; move assignment loses elements without a report if they cannot be copied (treeOf_assign_loses_elements), and loses all of them on self-assignment (treeOf_set_assign_self)"
  },
  {
   "property": "C12",
   "status": "proved",
   "theorems": [
    "Nestl.Set.set_move"
   ],
   "note": ""
  },
  {
   "property": "C120",
   "status": "proved",
   "theorems": [
    "Nestl.Multi.multiset_value_memory_safe",
    "Nestl.Multi.multiset_value_refinement",
    "Nestl.Multi.multiset_value_insert",
    "Nestl.Multi.multiset_value_range"
   ],
   "note": "about the functions as intended: as written they do not compile (m_insert_ is called without its error argument)"
  },
  {
   "property": "C121",
   "status": "proved",
   "theorems": [
    "Nestl.Full.tree_iterator_step",
    "Nestl.Full.tree_iterate_forward",
    "Nestl.Full.tree_iterate_backward",
    "Nestl.Full.tree_iterate_all"
   ],
   "note": "cost = number of parent/left/right links read; the counted functions are proved to compute what the uncounted ones do"
  },
  {
   "property": "C122",
   "status": "proved",
   "theorems": [
    "Nestl.Full.tree_insert_rotations",
    "Nestl.Full.tree_erase_rotations",
    "Nestl.Full.tree_link_rotations"
   ],
   "note": "the counted functions are proved to compute what the uncounted ones do"
  },
  {
   "property": "C123",
   "status": "proved",
   "theorems": [
    "Nestl.Full.tree_rebalance_amortised",
    "Nestl.Full.tree_rebalance_continues"
   ],
   "note": "the counted functions are proved to compute what the uncounted ones do"
  },
  {
   "property": "C124",
   "status": "proved",
   "theorems": [
    "Nestl.TO.treeOf_self_check_accepts",
    "Nestl.TO.treeOf_self_check_rejects"
   ],
   "note": "rb_tree_black_count is declared but not defined in the source; modelled by intent"
  },
  {
   "property": "C125",
   "status": "proved",
   "theorems": [
    "Nestl.TO.treeOf_iterator_step",
    "Nestl.TO.treeOf_iterate",
    "Nestl.TO.treeOf_iterate_all",
    "Nestl.TO.treeOf_insert_rotations",
    "Nestl.TO.treeOf_erase_rotations"
   ],
   "note": ""
  },
  {
   "property": "C126",
   "status": "proved",
   "theorems": [
    "Nestl.Full.tree_insert_any_rotations"
   ],
   "note": ""
  },
  {
   "property": "C127",
   "status": "proved",
   "theorems": [
    "Nestl.Full.tree_range_cost",
    "Nestl.Full.tree_sorted_range_linear",
    "Nestl.Full.tree_sorted_equal_range_linear"
   ],
   "note": "the insertion that keeps equivalent keys is about the function as intended: as written it does not compile"
  },
  {
   "property": "C128",
   "status": "proved",
   "theorems": [
    "Nestl.Full.tree_erase_range_rotations",
    "Nestl.Full.tree_erase_key_rotations"
   ],
   "note": ""
  },
  {
   "property": "C129",
   "status": "proved",
   "theorems": [
    "Nestl.TO.treeOf_recursion_logarithmic",
    "Nestl.TO.treeOf_recursion_needs_logarithm"
   ],
   "note": ""
  },
  {
   "property": "C13",
   "status": "proved",
   "theorems": [
    "Nestl.Set.set_copy",
    "Nestl.Set.set_copy_self",
    "Nestl.Set.set_no_leak"
   ],
   "note": "set::copy_nothrow itself does not compile at this commit; the tree function it forwards to is modelled"
  },
  {
   "property": "C130",
   "status": "proved",
   "theorems": [
    "Nestl.VO.vectorOf_geometric_growth",
    "Nestl.VO.vectorOf_push_constructions"
   ],
   "note": ""
  },
  {
   "property": "C131",
   "status": "proved",
   "theorems": [
    "Nestl.VO.vectorOf_constructions",
    "Nestl.VO.vectorOf_insert_constructions"
   ],
   "note": ""
  },
  {
   "property": "C132",
   "status": "proved",
   "theorems": [
    "Nestl.VO.vectorOf_range_cost"
   ],
   "note": ""
  },
  {
   "property": "C133",
   "status": "proved",
   "theorems": [
    "Nestl.LO.listOf_constructions",
    "Nestl.TO.treeOf_constructions_none",
    "Nestl.TO.treeOf_constructions_one",
    "Nestl.TO.treeOf_constructions_insert",
    "Nestl.TO.treeOf_constructions_copy",
    "Nestl.TO.treeOf_constructions_range",
    "Nestl.TO.treeOf_constructions_from",
    "Nestl.TO.treeOf_constructions_assign"
   ],
   "note": ""
  },
  {
   "property": "C14",
   "status": "proved",
   "theorems": [
    "Nestl.Set.set_memory_safe",
    "Nestl.Set.set_no_leak"
   ],
   "note": "all operations of Call, any comparator; hinted insertion needs an asymmetric one, see C84"
  },
  {
   "property": "C15",
   "status": "proved",
   "theorems": [
    "Nestl.Set.set_lower_bound",
    "Nestl.Set.set_upper_bound",
    "Nestl.Set.set_equal_range_count"
   ],
   "note": ""
  },
  {
   "property": "C16",
   "status": "proved",
   "theorems": [
    "Nestl.Set.set_insert_hint"
   ],
   "note": "for every strict weak order; the whole memory is the same, not only the contents"
  },
  {
   "property": "C17",
   "status": "proved",
   "theorems": [
    "Nestl.LC.list_history_refinement",
    "Nestl.LC.list_calls_safe"
   ],
   "note": "every history of calls in every allocation/construction environment"
  },
  {
   "property": "C18",
   "status": "proved",
   "theorems": [
    "Nestl.LC.list_backward_iteration"
   ],
   "note": ""
  },
  {
   "property": "C19",
   "status": "proved",
   "theorems": [
    "Nestl.LC.list_iterator_stability"
   ],
   "note": ""
  },
  {
   "property": "C20",
   "status": "proved",
   "theorems": [
    "Nestl.LC.list_insert_atomic",
    "Nestl.LC.list_push_back_atomic",
    "Nestl.LC.list_push_front_atomic"
   ],
   "note": ""
  },
  {
   "property": "C21",
   "status": "partial",
   "theorems": [
    "Nestl.LC.list_range_insert_order_partial",
    "Nestl.LC.list_range_insert_reverses",
    "Nestl.LC.list_range_insert_order_violated"
   ],
   "note": "the code inserts a range in reverse order: the property is false (witness and exact behaviour proved); it holds for ranges that read the same both ways"
  },
  {
   "property": "C22",
   "status": "proved",
   "theorems": [
    "Nestl.LC.list_splice_all",
    "Nestl.LC.list_splice_one",
    "Nestl.LC.list_splice_one_later",
    "Nestl.LC.list_splice_one_earlier",
    "Nestl.LC.list_splice_range",
    "Nestl.LC.list_splice_range_later",
    "Nestl.LC.list_splice_range_earlier"
   ],
   "note": ""
  },
  {
   "property": "C23",
   "status": "partial",
   "theorems": [
    "Nestl.LC.list_splice_range_at_last_partial",
    "Nestl.LC.list_splice_range_at_last_violated"
   ],
   "note": "false in the code for every non-empty range (assertion failure proved); holds for empty ranges"
  },
  {
   "property": "C24",
   "status": "proved",
   "theorems": [
    "Nestl.LC.list_merge"
   ],
   "note": ""
  },
  {
   "property": "C25",
   "status": "proved",
   "theorems": [
    "Nestl.LC.list_sort"
   ],
   "note": ""
  },
  {
   "property": "C26",
   "status": "proved",
   "theorems": [
    "Nestl.LC.list_swap",
    "Nestl.LC.list_move_construct"
   ],
   "note": ""
  },
  {
   "property": "C27",
   "status": "proved",
   "theorems": [
    "Nestl.LC.list_clear",
    "Nestl.LC.list_destroy",
    "Nestl.LC.list_no_leak"
   ],
   "note": ""
  },
  {
   "property": "C28",
   "status": "partial",
   "theorems": [
    "Nestl.LC.list_assign_n_partial",
    "Nestl.LC.list_assign_values_partial",
    "Nestl.LC.list_assign_range_partial",
    "Nestl.LC.list_copy_partial",
    "Nestl.LC.list_self_copy_violated"
   ],
   "note": "proved for lists that are empty or have a default allocator and distinct source; self copy and other allocators are undefined behaviour in the code (C61, C29)"
  },
  {
   "property": "C29",
   "status": "partial",
   "theorems": [
    "Nestl.LC.list_own_allocator_partial",
    "Nestl.LC.list_assign_wrong_allocator",
    "Nestl.LC.list_swap_wrong_allocator"
   ],
   "note": "false in the code for assign and swap (proved); holds when the allocators that meet are equal"
  },
  {
   "property": "C30",
   "status": "proved",
   "theorems": [
    "Nestl.LC.list_equality"
   ],
   "note": ""
  },
  {
   "property": "C31",
   "status": "proved",
   "theorems": [
    "Nestl.VC.vector_push_back"
   ],
   "note": "also emplace_back_nothrow"
  },
  {
   "property": "C32",
   "status": "proved",
   "theorems": [
    "Nestl.VC.vector_insert"
   ],
   "note": "for arguments that the shift does not touch; own elements: C42"
  },
  {
   "property": "C33",
   "status": "partial",
   "theorems": [
    "Nestl.VC.vector_insert_failure_partial",
    "Nestl.VC.vector_insert_failure_violated"
   ],
   "note": "false in the code: after a failing copy in the middle the destructor of the vector destroys a dead element (proved for every state with such a failure); holds for insertion at end() and for a failing reallocation"
  },
  {
   "property": "C34",
   "status": "proved",
   "theorems": [
    "Nestl.VC.vector_reserve",
    "Nestl.VC.vector_shrink_to_fit"
   ],
   "note": "for n * sizeof(T) < 2^64, see C35"
  },
  {
   "property": "C35",
   "status": "partial",
   "theorems": [
    "Nestl.VC.vector_reserve_room_partial",
    "Nestl.VC.vector_reserve_room_violated"
   ],
   "note": "false in the code when n * sizeof(T) overflows (out of bounds write proved); holds for all other n"
  },
  {
   "property": "C36",
   "status": "proved",
   "theorems": [
    "Nestl.VC.vector_geometric_growth"
   ],
   "note": "n appends to a vector of m elements: at most n + 3(m + n) element constructions (relocations included) and 2 log2(m + n + 1) allocations"
  },
  {
   "property": "C37",
   "status": "proved",
   "theorems": [
    "Nestl.VC.vector_resize_shrink",
    "Nestl.VC.vector_resize_grow"
   ],
   "note": "own element as argument: C42"
  },
  {
   "property": "C38",
   "status": "proved",
   "theorems": [
    "Nestl.VC.vector_assign_n",
    "Nestl.VC.vector_assign_values",
    "Nestl.VC.vector_assign_input",
    "Nestl.VC.vector_assign_sub",
    "Nestl.VC.vector_copy"
   ],
   "note": "also for aliased arguments and self copy"
  },
  {
   "property": "C39",
   "status": "proved",
   "theorems": [
    "Nestl.VC.vector_history_refinement",
    "Nestl.VC.vector_calls_safe",
    "Nestl.VC.vector_storage",
    "Nestl.VC.vector_all_destroyed"
   ],
   "note": "every history of valid calls; double destruction, wrong sizes, reads of dead elements etc. are faults of the model"
  },
  {
   "property": "C40",
   "status": "proved",
   "theorems": [
    "Nestl.VC.vector_swap",
    "Nestl.VC.vector_swap_self",
    "Nestl.VC.vector_move_construct",
    "Nestl.VC.vector_move_assign",
    "Nestl.VC.vector_self_move_assign"
   ],
   "note": "move assignment for equal allocators; other allocators: C44"
  },
  {
   "property": "C41",
   "status": "partial",
   "theorems": [
    "Nestl.VC.vector_push_back_self_partial",
    "Nestl.VC.vector_push_back_self_violated"
   ],
   "note": "false in the code for every full vector (use after free proved); holds with spare capacity"
  },
  {
   "property": "C42",
   "status": "partial",
   "theorems": [
    "Nestl.VC.vector_insert_self_partial",
    "Nestl.VC.vector_insert_self_full_violated",
    "Nestl.VC.vector_insert_self_at_violated",
    "Nestl.VC.vector_insert_self_after_violated",
    "Nestl.VC.vector_resize_self_violated"
   ],
   "note": "false in the code (use after free, read of a destroyed element, wrong element inserted; each proved for all such states); holds with spare capacity for elements before the position"
  },
  {
   "property": "C43",
   "status": "proved",
   "theorems": [
    "Nestl.VC.vector_access",
    "Nestl.VC.vector_equality"
   ],
   "note": ""
  },
  {
   "property": "C44",
   "status": "partial",
   "theorems": [
    "Nestl.VC.vector_own_allocator_partial",
    "Nestl.VC.vector_assign_allocator_violated",
    "Nestl.VC.vector_move_assign_wrong_allocator_violated"
   ],
   "note": "false in the code for assignment (allocator replaced by a default one) and move assignment (block given to the wrong allocator); all other calls keep allocators and every block belongs to its vector's allocator"
  },
  {
   "property": "C45",
   "status": "partial",
   "theorems": [
    "Nestl.VC.vector_stale_error_partial",
    "Nestl.VC.vector_stale_error_leak_violated",
    "Nestl.VC.vector_stale_error_element_violated",
    "Nestl.LC.list_stale_error_violated",
    "Nestl.Set.set_stale_error_violated",
    "Nestl.Set.set_stale_error_partial",
    "Nestl.SP.make_shared_stale_error_violated"
   ],
   "note": "false in the code for insertion into vectors, lists and sets and for make_shared (leaks proved); holds for the calls that construct nothing"
  },
  {
   "property": "C46",
   "status": "proved",
   "theorems": [
    "Nestl.Vec.uninitialised_copy_all_or_nothing",
    "Nestl.Vec.uninitialised_copy_stale_error_violated"
   ],
   "note": "for an error object without error on entry; with one the constructed objects can be lost (second theorem)"
  },
  {
   "property": "C47",
   "status": "proved",
   "theorems": [
    "Nestl.Construct.construct_all_or_nothing",
    "Nestl.Construct.construct_stale_error_violated"
   ],
   "note": "every category of types and failure point, for an error object without error on entry; otherwise false (second theorem)"
  },
  {
   "property": "C48",
   "status": "proved",
   "theorems": [
    "Nestl.Alg.copy_if_correct",
    "Nestl.Alg.copy_correct",
    "Nestl.Alg.equal_correct",
    "Nestl.Alg.lex_compare_correct"
   ],
   "note": "any iterators that walk disjoint ranges, any predicate, order and failure point"
  },
  {
   "property": "C49",
   "status": "proved",
   "theorems": [
    "Nestl.SP.use_count_correct",
    "Nestl.SP.use_count_empty",
    "Nestl.SP.handle_cases_all"
   ],
   "note": "every history of returning calls (all 18 calls with any arguments and error objects, any number of handles, also inside objects), including the defective calls of C52-C57"
  },
  {
   "property": "C50",
   "status": "partial",
   "theorems": [
    "Nestl.SP.alive_iff_owned_partial",
    "Nestl.SP.destroyed_when_last_owner_goes_partial",
    "Nestl.SP.destroys_exactly_doomed_partial",
    "Nestl.SP.alive_owned_partial",
    "Nestl.SP.destroyed_iff_unowned_partial"
   ],
   "note": "every history of valid calls, every ownership graph, in full; every history of any returning calls: an object that was alive is alive after the call iff it still has an owner. Missing: valid calls exclude the defective ones of C52-C55, for which destruction happens twice or in freed memory"
  },
  {
   "property": "C51",
   "status": "partial",
   "theorems": [
    "Nestl.SP.block_iff_referenced_partial",
    "Nestl.SP.block_freed_with_last_handle_partial",
    "Nestl.SP.acyclic_leaves_nothing_partial"
   ],
   "note": "every history of valid calls; missing: the defective calls of C52-C55, for which it is false"
  },
  {
   "property": "C52",
   "status": "partial",
   "theorems": [
    "Nestl.SP.expired_correct_partial",
    "Nestl.SP.expired_empty_partial",
    "Nestl.SP.weak_use_count_partial",
    "Nestl.SP.lock_partial",
    "Nestl.SP.lock_expired_violated"
   ],
   "note": "false in the code: lock() on an expired weak_ptr returns a non-empty shared_ptr to the destroyed object (proved for every such state); holds while the object is alive"
  },
  {
   "property": "C53",
   "status": "partial",
   "theorems": [
    "Nestl.SP.weak_move_assign_partial",
    "Nestl.SP.weak_move_assign_violated",
    "Nestl.SP.weak_move_assign_faults"
   ],
   "note": "false in the code: the source keeps its reference without being counted (proved, with a double free of the control block as consequence); holds for empty sources and self-assignment"
  },
  {
   "property": "C54",
   "status": "partial",
   "theorems": [
    "Nestl.SP.weak_self_assign_partial",
    "Nestl.SP.weak_self_assign_violated"
   ],
   "note": "false in the code for the only handle of a control block (use after free proved); holds otherwise"
  },
  {
   "property": "C55",
   "status": "partial",
   "theorems": [
    "Nestl.SP.self_weak_partial",
    "Nestl.SP.self_weak_violated",
    "Nestl.SP.no_weak_members_safe"
   ],
   "note": "false in the code when the weak_ptr member is the only weak reference (use after free proved); holds if another weak_ptr variable refers to the object, and for all graphs without weak_ptr members"
  },
  {
   "property": "C56",
   "status": "partial",
   "theorems": [
    "Nestl.SP.advance_copy_partial",
    "Nestl.SP.advance_move_violated"
   ],
   "note": "false in the code for the move form with a sole owner (read of a destroyed member proved); the copy form holds"
  },
  {
   "property": "C57",
   "status": "partial",
   "theorems": [
    "Nestl.SP.make_shared_partial",
    "Nestl.SP.make_shared_ctor_failure_violated"
   ],
   "note": "empty result, error and no leaked memory at every failure point; but the destructor of the constructed control block is not run when the object's construction fails (proved)"
  },
  {
   "property": "C58",
   "status": "partial",
   "theorems": [
    "Nestl.SP.self_assign_noop",
    "Nestl.SP.self_move_partial"
   ],
   "note": "self-assignment: every state; self-move: the states in which dropping is valid (C55)"
  },
  {
   "property": "C59",
   "status": "partial",
   "theorems": [
    "Nestl.HxVec.vector_push_back_throws",
    "Nestl.HxVec.vector_copy_construct_throws",
    "Nestl.HxVec.vector_copy_assign_throws",
    "Nestl.HxList.list_push_back_throws",
    "Nestl.HxList.list_copy_construct_throws",
    "Nestl.HxList.list_copy_assign_throws_partial",
    "Nestl.HxList.list_copy_assign_wrong_allocator",
    "Nestl.HxList.list_copy_assign_mixed"
   ],
   "note": "vector push_back of an own element at full capacity is excluded (undefined behaviour, see C41); list copy assignment proved for destinations with the default allocator, for others it is false (last two theorems)"
  },
  {
   "property": "C60",
   "status": "proved",
   "theorems": [
    "Nestl.Set.set_no_spurious_failure"
   ],
   "note": ""
  },
  {
   "property": "C61",
   "status": "partial",
   "theorems": [
    "Nestl.LC.list_self_copy_violated",
    "Nestl.LC.list_self_copy_partial"
   ],
   "note": "true for the empty list; false in the code for every non-empty list: undefined behaviour proved"
  },
  {
   "property": "C62",
   "status": "proved",
   "theorems": [
    "Nestl.LC.list_merge",
    "Nestl.LC.list_sort"
   ],
   "note": ""
  },
  {
   "property": "C63",
   "status": "partial",
   "theorems": [
    "Nestl.VC.vector_stability_partial",
    "Nestl.VC.vector_stability_violated"
   ],
   "note": "false in the code for growing by resize_nothrow within the capacity (always reallocates); holds for the other calls"
  },
  {
   "property": "C64",
   "status": "partial",
   "theorems": [
    "Nestl.SP.make_shared_allocator_violated",
    "Nestl.SP.make_shared_allocator_partial"
   ],
   "note": "true when the argument equals a default constructed allocator; false in the code for all others: the argument is ignored"
  },
  {
   "property": "C65",
   "status": "proved",
   "theorems": [
    "Nestl.Set.set_insert_hint_comparisons"
   ],
   "note": ""
  },
  {
   "property": "C66",
   "status": "proved",
   "theorems": [
    "Nestl.Set.set_emplace_absent",
    "Nestl.Set.set_emplace_present"
   ],
   "note": ""
  },
  {
   "property": "C67",
   "status": "proved",
   "theorems": [
    "Nestl.Set.set_insert_range"
   ],
   "note": ""
  },
  {
   "property": "C68",
   "status": "proved",
   "theorems": [
    "Nestl.Multi.multiset_history_refinement",
    "Nestl.Multi.multiset_insert"
   ],
   "note": "m_insert_equal and the range form do not compile (missing error argument) and are not modelled"
  },
  {
   "property": "C69",
   "status": "proved",
   "theorems": [
    "Nestl.Multi.multiset_insert",
    "Nestl.Multi.multiset_insert_comparisons"
   ],
   "note": ""
  },
  {
   "property": "C70",
   "status": "proved",
   "theorems": [
    "Nestl.Multi.multiset_find",
    "Nestl.Multi.multiset_bounds",
    "Nestl.Multi.multiset_equal_range"
   ],
   "note": ""
  },
  {
   "property": "C71",
   "status": "proved",
   "theorems": [
    "Nestl.Multi.multiset_memory_safe",
    "Nestl.Multi.multiset_no_leak"
   ],
   "note": "for any comparator; hinted insertion requires an asymmetric one (necessary by C84)"
  },
  {
   "property": "C72",
   "status": "proved",
   "theorems": [
    "Nestl.Full.tree_swap"
   ],
   "note": "swap names an undefined allocator helper (_S_on_swap) and is modelled by intent; exchange of unequal allocators that do not propagate is excluded, as in the C++ standard"
  },
  {
   "property": "C73",
   "status": "proved",
   "theorems": [
    "Nestl.Full.tree_move_assign",
    "Nestl.Full.tree_self_move_assign_empties"
   ],
   "note": "undefined allocator helpers modelled by intent; comparators have no state"
  },
  {
   "property": "C74",
   "status": "proved",
   "theorems": [
    "Nestl.Full.tree_equality",
    "Nestl.Full.tree_less"
   ],
   "note": ""
  },
  {
   "property": "C75",
   "status": "proved",
   "theorems": [
    "Nestl.Full.tree_self_check_accepts",
    "Nestl.Full.tree_self_check_rejects",
    "Nestl.Full.tree_self_check_exact",
    "Nestl.Full.tree_self_check_header_empty",
    "Nestl.Full.tree_self_check_header",
    "Nestl.Full.tree_self_check_incomplete",
    "Nestl.Full.tree_self_check_ignores_size"
   ],
   "note": "rb_tree_black_count is declared only and modelled by intent"
  },
  {
   "property": "C76",
   "status": "proved",
   "theorems": [
    "Nestl.Full.tree_history_refinement",
    "Nestl.Full.tree_memory_safe",
    "Nestl.Full.tree_no_leak",
    "Nestl.Full.tree_erase_keys"
   ],
   "note": ""
  },
  {
   "property": "C77",
   "status": "proved",
   "theorems": [
    "Nestl.VC.vector_insert_range",
    "Nestl.VC.vector_clear"
   ],
   "note": "both functions are ill-formed in the source if instantiated and are modelled by intent; insertion in the middle is stated for constructors that do not fail (see C33)"
  },
  {
   "property": "C78",
   "status": "proved",
   "theorems": [
    "Nestl.LC.list_erase_range"
   ],
   "note": "ill-formed in the source if instantiated, modelled by intent"
  },
  {
   "property": "C79",
   "status": "partial",
   "theorems": [
    "Nestl.LC.list_move_assign_partial",
    "Nestl.LC.list_self_move_assign_empties",
    "Nestl.LC.list_move_assign_wrong_allocator"
   ],
   "note": "proved for equal allocators; false for different allocators (the allocator is not assigned; violation proved); ill-formed in the source if instantiated, modelled by intent"
  },
  {
   "property": "C80",
   "status": "proved",
   "theorems": [
    "Nestl.NL.nested_list_refinement",
    "Nestl.NL.nested_list_calls_safe"
   ],
   "note": ""
  },
  {
   "property": "C81",
   "status": "proved",
   "theorems": [
    "Nestl.NL.nested_list_insert_copy_atomic",
    "Nestl.NL.nested_list_insert_move_atomic"
   ],
   "note": ""
  },
  {
   "property": "C82",
   "status": "proved",
   "theorems": [
    "Nestl.NL.nested_list_no_orphan",
    "Nestl.NL.nested_list_no_leak",
    "Nestl.NL.nested_list_remove"
   ],
   "note": ""
  },
  {
   "property": "C83",
   "status": "partial",
   "theorems": [
    "Nestl.NL.nested_list_copy_deep_partial"
   ],
   "note": "the target must be empty or use the default allocator (C29) and differ from the source (C61)"
  },
  {
   "property": "C84",
   "status": "proved",
   "theorems": [
    "Nestl.Full.unique_insert_any",
    "Nestl.Full.unique_insert_order",
    "Nestl.Full.range_insert_any",
    "Nestl.Full.hinted_insert_needs_asymmetry"
   ],
   "note": "the last theorem shows that asymmetry cannot be dropped"
  },
  {
   "property": "C85",
   "status": "proved",
   "theorems": [
    "Nestl.Full.tree_report",
    "Nestl.Full.tree_error_iff",
    "Nestl.Full.tree_no_error",
    "Nestl.LC.list_report",
    "Nestl.LC.list_error_iff",
    "Nestl.VC.vector_report",
    "Nestl.VC.vector_ctor_error_iff",
    "Nestl.VC.vector_error_cause",
    "Nestl.VC.vector_error_iff"
   ],
   "note": "allocators and comparators are copied without failing except for the comparator of a copied tree; for vectors the size of a request is a further reason to refuse memory: vector_report leaves open which size, vector_error_cause names the sizes a call can ask for"
  },
  {
   "property": "C86",
   "status": "proved",
   "theorems": [
    "Nestl.Full.recursion_logarithmic",
    "Nestl.Full.recursion_needs_logarithm",
    "Nestl.Full.no_fixed_stack"
   ],
   "note": "activations of m_erase and m_copy are counted; the other functions of the tree are not recursive; the size of a stack frame is not modelled"
  },
  {
   "property": "C87",
   "status": "proved",
   "theorems": [
    "Nestl.SP.release_depth",
    "Nestl.SP.release_needs_depth",
    "Nestl.SP.release_depth_unbounded"
   ],
   "note": "activations of release are counted; between two of them lie one activation each of destroy_value, of the object's destructor and of ~shared_ptr; the size of a stack frame is not modelled"
  },
  {
   "property": "C88",
   "status": "partial",
   "theorems": [
    "Nestl.Th.threads_locked_partial",
    "Nestl.Th.threads_single_partial",
    "Nestl.Th.race_copy",
    "Nestl.Th.race_leak",
    "Nestl.Th.race_counters",
    "Nestl.Th.race_counters_weak",
    "Nestl.Th.race_lock"
   ],
   "note": "false for the code without synchronisation (race theorems); proved with a lock around the functions of the control block and for a single counting thread; one object without members, sequentially consistent memory; the split functions are tied to the sequential model by addRef_alone, release_alone, weakAddRef_alone, weakRelease_alone"
  },
  {
   "property": "C89",
   "status": "proved",
   "theorems": [
    "Nestl.Full.tree_query",
    "Nestl.Full.tree_query_undisturbed"
   ],
   "note": "the comparator is a pure function of the two keys; a query is one sequence of reads, the interleaving of single reads with writes of other threads is covered by the independence of all cells that are not its own"
  },
  {
   "property": "C90",
   "status": "proved",
   "theorems": [
    "Nestl.LC.list_query",
    "Nestl.LC.list_query_undisturbed"
   ],
   "note": "== calls the comparison of the elements, a pure function"
  },
  {
   "property": "C91",
   "status": "proved",
   "theorems": [
    "Nestl.VC.vector_query",
    "Nestl.VC.vector_query_undisturbed"
   ],
   "note": "== calls the comparison of the elements, a pure function"
  },
  {
   "property": "C92",
   "status": "partial",
   "theorems": [
    "Nestl.Own.own_history_partial",
    "Nestl.Own.own_call_partial",
    "Nestl.Own.own_query",
    "Nestl.Own.own_no_leak",
    "Nestl.Own.refused_move_assign_breaks_order"
   ],
   "note": "violated by the code if a move assignment is refused because the allocators differ: the comparator is assigned nevertheless, so the elements are in the wrong order and find() misses elements (proved for all such states); histories without such an assignment between trees with different comparators are proved"
  },
  {
   "property": "C93",
   "status": "proved",
   "theorems": [
    "Nestl.LC.list_reference_argument",
    "Nestl.LC.list_reference_history",
    "Nestl.Full.tree_reference_argument",
    "Nestl.Full.tree_reference_history",
    "Nestl.Full.set_erase_own_element"
   ],
   "note": "for vector the corresponding property is violated, see C41 and C42"
  },
  {
   "property": "C94",
   "status": "proved",
   "theorems": [
    "Nestl.Own.any_order_call",
    "Nestl.Own.any_order_query",
    "Nestl.Own.any_order_no_leak",
    "Nestl.Own.any_order_contents"
   ],
   "note": "a comparator may change between calls, not within one call (the model passes one function to a call)"
  },
  {
   "property": "C95",
   "status": "proved",
   "theorems": [
    "Nestl.Full.tree_local",
    "Nestl.Full.tree_exchange",
    "Nestl.LC.list_local",
    "Nestl.LC.list_exchange",
    "Nestl.VC.vector_local",
    "Nestl.VC.vector_exchange"
   ],
   "note": "the allocator must not offer memory that is in use; calls that obtain memory do not commute in the model because the allocator numbers its answers"
  },
  {
   "property": "C96",
   "status": "proved",
   "theorems": [
    "Nestl.VO.vectorOf_calls_safe",
    "Nestl.VO.vectorOf_shows",
    "Nestl.VO.vectorOf_calls_refine",
    "Nestl.VO.vectorOf_calls_outside",
    "Nestl.VO.vectorOf_elements",
    "Nestl.VO.vectorOf_all_destroyed",
    "Nestl.VO.vectorOf_client",
    "Nestl.VO.nested_calls",
    "Nestl.VO.nested_all_destroyed",
    "Nestl.VO.nested_inner_calls",
    "Nestl.VO.vectorOf_lists_inner_calls",
    "Nestl.VO.vectorOf_shared_alive",
    "Nestl.VO.vectorOf_shared_objects",
    "Nestl.VO.nested_growth_copies_violated",
    "Nestl.VO.vectorOf_shared_between"
   ],
   "note": "insertion in the middle is not among the calls (C33: it is not safe when a copy can fail); copying of a vector by a container is modelled by intent (vector.hpp:211-221 names the hook `construct` instead of `init`); shared_ptr: managed objects without weak_ptr members (C55); growth copies elements that could be moved (nested_growth_copies_violated)"
  },
  {
   "property": "C97",
   "status": "proved",
   "theorems": [
    "Nestl.LO.listOf_calls_safe",
    "Nestl.LO.listOf_shows",
    "Nestl.LO.listOf_calls_refine",
    "Nestl.LO.listOf_calls_outside",
    "Nestl.LO.listOf_elements",
    "Nestl.LO.listOf_all_destroyed",
    "Nestl.LO.listOf_client",
    "Nestl.LO.listOf_relinks",
    "Nestl.LO.listOf_equal",
    "Nestl.LO.nest_list_calls",
    "Nestl.LO.nest_vector_calls",
    "Nestl.LO.nest_list_list_inner",
    "Nestl.LO.nest_vector_list_inner",
    "Nestl.LO.nest_list_vector_inner",
    "Nestl.LO.nest_all_destroyed",
    "Nestl.LO.listOf_shared_alive",
    "Nestl.LO.listOf_shared_objects",
    "Nestl.LO.listOf_shared_between"
   ],
   "note": "preconditions of the list calls are those of C20 ff. (copying a list into itself and swapping lists with different allocators are not valid calls); listOf_shared_objects is about calls without a comparator, as a comparator may change managed objects; shared_ptr: managed objects without weak_ptr members (C55)"
  },
  {
   "property": "C98",
   "status": "proved",
   "theorems": [
    "Nestl.TO.treeOf_calls_safe",
    "Nestl.TO.treeOf_shows",
    "Nestl.TO.treeOf_calls_refine",
    "Nestl.TO.treeOf_calls_outside",
    "Nestl.TO.treeOf_elements",
    "Nestl.TO.treeOf_all_destroyed",
    "Nestl.TO.treeOf_client",
    "Nestl.TO.treeOf_relinks",
    "Nestl.TO.treeOf_lower_bound",
    "Nestl.TO.treeOf_upper_bound",
    "Nestl.TO.treeOf_equal_range",
    "Nestl.TO.treeOf_count",
    "Nestl.TO.treeOf_size",
    "Nestl.TO.treeOf_equal",
    "Nestl.TO.treeOf_less",
    "Nestl.TO.treeOf_ordered",
    "Nestl.TO.treeOf_unique"
   ],
   "note": "preconditions of the calls are those of C81 ff. (swap with different allocators that do not propagate is not a valid call); keys of erase(first, last) on an array of keys are not elements of trees; functions that are ill-formed if instantiated are modelled by intent, as for trees of values"
  },
  {
   "property": "C99",
   "status": "proved",
   "theorems": [
    "Nestl.TO.nest_set_calls",
    "Nestl.TO.nest_list_calls",
    "Nestl.TO.nest_vector_calls",
    "Nestl.TO.nest_all_destroyed",
    "Nestl.TO.nest_set_set_inner",
    "Nestl.TO.nest_list_set_inner",
    "Nestl.TO.nest_vector_set_inner",
    "Nestl.TO.nest_set_list_inner",
    "Nestl.TO.nest_set_vector_inner",
    "Nestl.TO.lex_swo",
    "Nestl.TO.treeOf_less_compares",
    "Nestl.TO.treeOf_equal_compares",
    "Nestl.TO.treeOf_shared_alive",
    "Nestl.TO.treeOf_shared_objects",
    "Nestl.TO.treeOf_shared_between"
   ],
   "note": "nestl has no two_phase_initializator for set, so copying sets as elements is modelled as the specialisation a client has to write; == and < are those of rb_tree (set itself has none); treeOf_shared_objects is about comparators that do not change managed objects; shared_ptr: managed objects without weak_ptr members (C55)"
  }
 ]
}