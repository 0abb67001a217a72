{"id": "C01", "title": "Set iteration is the sorted set of inserted-and-not-erased keys", "statement": "After any sequence of insert_nothrow / erase(key) / erase(iterator) / clear calls on a nestl::set, walking from begin() with ++ until end() visits exactly the keys of the mathematical set obtained by the same calls (failed inserts add nothing), in strictly increasing order, each once.", "quantifier": "every finite operation sequence, every key type with a strict weak order, every pattern of allocation and copy failures and of addresses returned by the allocator", "why_tests_cant": "the tree shape (and so the rotation/relinking code path) depends on the whole history; tests cover a handful of histories", "anchors": ["nestl/implementation/detail/red_black_tree.hpp: rb_tree_insert_and_rebalance, rb_tree_rebalance_for_erase, rb_tree_increment", "nestl/implementation/set.hpp: insert_nothrow, erase, begin, end"]}
{"id": "C02", "title": "set::insert_nothrow result", "statement": "insert_nothrow(err,k) on success returns an iterator to an element equivalent to k; the flag is true exactly when no equivalent element was present before; an insertion of a present key changes nothing, allocates nothing and cannot fail.", "quantifier": "every reachable set state, every key, every failure pattern", "why_tests_cant": "needs all tree shapes and all search paths", "anchors": ["nestl/implementation/detail/red_black_tree.hpp: m_get_insert_unique_pos, m_insert_unique, m_insert_"]}
{"id": "C03", "title": "set::find", "statement": "find(k) returns an iterator to the element equivalent to k if there is one and end() otherwise, and modifies nothing.", "quantifier": "every reachable set state and every key", "why_tests_cant": "all shapes and all keys, including absent keys in every gap", "anchors": ["nestl/implementation/detail/red_black_tree.hpp: find, m_lower_bound"]}
{"id": "C04", "title": "set::erase(key)", "statement": "erase(k) returns 1 and removes exactly the element equivalent to k if present; returns 0 and changes nothing otherwise.", "quantifier": "every reachable set state and every key", "why_tests_cant": "erase has ~20 rebalancing paths depending on global shape", "anchors": ["nestl/implementation/detail/red_black_tree.hpp: erase(const Key&), equal_range, m_erase_aux, rb_tree_rebalance_for_erase"]}
{"id": "C05", "title": "set::erase(iterator)", "statement": "erase(it) removes exactly the element it denotes and returns an iterator to the next larger element (end() if it was the largest).", "quantifier": "every reachable set state and every dereferenceable iterator", "why_tests_cant": "as C04", "anchors": ["nestl/implementation/detail/red_black_tree.hpp: erase(const_iterator), rb_tree_increment, rb_tree_rebalance_for_erase"]}
{"id": "C06", "title": "set iterators are stable", "statement": "An iterator to an element keeps denoting the same element (same node, same key) across every insert, every erase of another element, and a move of the whole set.", "quantifier": "every reachable state, every operation, every element not erased", "why_tests_cant": "identity of nodes under relinking for all shapes", "anchors": ["nestl/implementation/detail/red_black_tree.hpp: rb_tree_rebalance_for_erase, m_move_data"]}
{"id": "C07", "title": "set::size and empty agree with the contents", "statement": "size() equals the number of elements visited by iteration and empty() holds iff begin()==end().", "quantifier": "every reachable state", "why_tests_cant": "counter is maintained separately from the tree", "anchors": ["nestl/implementation/detail/red_black_tree.hpp: size, empty, m_node_count"]}
{"id": "C08", "title": "set bidirectional iteration", "statement": "-- from end() visits the elements in exactly reverse order; -- undoes ++ and ++ undoes -- at every position where both are defined.", "quantifier": "every reachable state and every position", "why_tests_cant": "climbing loops depend on shape and on the header trick", "anchors": ["nestl/implementation/detail/red_black_tree.hpp: rb_tree_increment, rb_tree_decrement"]}
{"id": "C09", "title": "set is balanced: logarithmic lookups", "statement": "The height of the tree is at most 2*log2(n+1), hence find(k) makes at most 2*log2(n+1)+1 calls to the comparator.", "quantifier": "every reachable state, every key", "why_tests_cant": "worst case over all histories", "anchors": ["nestl/implementation/detail/red_black_tree.hpp: rb_tree_insert_and_rebalance, rb_tree_rebalance_for_erase, m_lower_bound"]}
{"id": "C10", "title": "set insert failure is atomic", "statement": "If allocation or element construction fails during insert_nothrow then err is set, the set (contents, nodes, iterators, size) is exactly as before, and no memory is leaked.", "quantifier": "every reachable state, every failure point", "why_tests_cant": "requires a failure injected at every point of every history", "anchors": ["nestl/implementation/detail/red_black_tree.hpp: m_create_node, m_insert_", "nestl/detail/destroy.hpp: deallocation_scoped_guard"]}
{"id": "C11", "title": "set clear/destructor release everything once", "statement": "clear() and the destructor destroy every element exactly once, return every node exactly once to the allocator it came from, and leave nothing allocated; after clear() the set is empty and usable.", "quantifier": "every reachable state", "why_tests_cant": "all shapes; recursion right / loop left", "anchors": ["nestl/implementation/detail/red_black_tree.hpp: m_erase, clear, ~rb_tree, m_destroy_node"]}
{"id": "C12", "title": "set move construction", "statement": "Moving a set transfers all elements (same nodes, same order) without allocation, copying or failing; the source becomes empty and remains fully usable.", "quantifier": "every reachable state of the source", "why_tests_cant": "header relinking for empty/non-empty trees of all shapes, later use of both", "anchors": ["nestl/implementation/detail/red_black_tree.hpp: rb_tree(rb_tree&&), m_move_data"]}
{"id": "C13", "title": "set copy_nothrow", "statement": "copy_nothrow(err, other) makes the destination's contents equal to other's, leaves other unchanged; on failure the destination is empty and nothing is leaked; self-copy changes nothing.", "quantifier": "every pair of reachable states, every failure point", "why_tests_cant": "failure at every node of every shape, erase_guard nested per recursion level", "anchors": ["nestl/implementation/detail/red_black_tree.hpp: copy_nothrow, m_copy, m_clone_node, erase_guard"]}
{"id": "C14", "title": "set memory safety does not depend on the comparator", "statement": "For an arbitrary deterministic comparator (not necessarily a strict weak order) no set operation ever dereferences a null/dangling pointer, double-frees, leaks or diverges.", "quantifier": "every operation sequence, every comparator function", "why_tests_cant": "space of bad comparators is unbounded", "anchors": ["nestl/implementation/detail/red_black_tree.hpp: m_get_insert_unique_pos, m_insert_, rb_tree_insert_and_rebalance"]}
{"id": "C15", "title": "rb_tree bounds queries", "statement": "lower_bound(k) / upper_bound(k) / equal_range(k) / count(k) denote the first element not less than k, the first element greater than k, that pair, and the number of equivalent elements.", "quantifier": "every reachable tree, every key", "why_tests_cant": "all shapes and gaps", "anchors": ["nestl/implementation/detail/red_black_tree.hpp: m_lower_bound, m_upper_bound, equal_range, count"]}
{"id": "C16", "title": "Hinted insertion equals plain insertion", "statement": "m_insert_unique_at(hint, v) yields the same set contents as m_insert_unique(v) for every hint iterator, including a wrong one.", "quantifier": "every reachable tree, every hint position, every key", "why_tests_cant": "all pairs of hint and key position", "anchors": ["nestl/implementation/detail/red_black_tree.hpp: m_get_insert_hint_unique_pos, m_insert_unique_at"]}
{"id": "C17", "title": "List behaves as a sequence", "statement": "After any sequence of push_back/push_front/emplace/insert/erase/pop_front/pop_back/clear/assign, iterating a nestl::list from begin() to end() yields exactly the sequence the same operations produce on a mathematical list, where failed insertions change nothing.", "quantifier": "every operation sequence, all positions, all failure patterns", "why_tests_cant": "histories are unbounded", "anchors": ["nestl/implementation/list.hpp: emplace_nothrow, erase, inject, remove"]}
{"id": "C18", "title": "List backward iteration", "statement": "Iterating with -- from end() to begin() yields the reverse of the forward sequence; size() is its length; empty() iff size()==0; front()/back() are its ends.", "quantifier": "every reachable state", "why_tests_cant": "prev links are maintained separately from next links", "anchors": ["nestl/implementation/list.hpp: list_iterator::operator--, size, empty, front, back"]}
{"id": "C19", "title": "List iterator stability", "statement": "Inserting, erasing other elements, splicing, merging, sorting, swapping and moving never invalidate or re-target an iterator to a surviving element.", "quantifier": "every reachable state, every operation", "why_tests_cant": "identity of nodes", "anchors": ["nestl/implementation/list.hpp: transfer, swap, sort"]}
{"id": "C20", "title": "List insertion failure is atomic", "statement": "If allocation or construction fails in insert/emplace/push_*, err is set, the list is unchanged and nothing is leaked.", "quantifier": "every reachable state and failure point", "why_tests_cant": "failure at every point", "anchors": ["nestl/implementation/list.hpp: create_node, emplace_nothrow"]}
{"id": "C21", "title": "List range insertion order", "statement": "insert_nothrow(err,pos,first,last) inserts the range before pos in the order of the range.", "quantifier": "every list, every position, every range", "why_tests_cant": "any range of length >= 2", "anchors": ["nestl/implementation/list.hpp: insert_nothrow(err,pos,first,last)"]}
{"id": "C22", "title": "List splice", "statement": "The three splice overloads move exactly the designated elements, in order, to just before pos, remove them from the source, allocate nothing and cannot fail.", "quantifier": "every pair of lists, every valid position and range, including self-splice of a sub-range not containing pos", "why_tests_cant": "all positions", "anchors": ["nestl/implementation/list.hpp: splice, transfer"]}
{"id": "C23", "title": "List splice of a range ending at pos", "statement": "splice(pos, l, first, last) with pos == last is a no-op (as for std::list).", "quantifier": "every list and range", "why_tests_cant": "boundary", "anchors": ["nestl/implementation/list.hpp: list_node_base::transfer, splice"]}
{"id": "C24", "title": "List merge", "statement": "Merging two sorted lists yields the stable sorted merge (equivalent elements of *this before those of other), leaves other empty, and reuses the nodes; for unsorted input or an arbitrary comparator it still keeps exactly the same elements.", "quantifier": "all pairs of lists, all comparators", "why_tests_cant": "all interleavings", "anchors": ["nestl/implementation/list.hpp: merge(list&&, Compare)"]}
{"id": "C25", "title": "List sort", "statement": "sort(comp) leaves a sorted permutation of the elements, keeps equivalent elements in their original order (stable), reuses the nodes, never allocates, fails or goes out of its 64 bins for fewer than 2^64 elements; with an arbitrary comparator it still yields a permutation.", "quantifier": "all lists, all strict weak orders (and arbitrary comparators for the permutation part)", "why_tests_cant": "all permutations of all lengths", "anchors": ["nestl/implementation/list.hpp: sort(Compare)"]}
{"id": "C26", "title": "List swap and move construction", "statement": "swap exchanges the contents for all four empty/non-empty combinations and self-swap; move construction transfers everything and leaves the source empty and usable.", "quantifier": "all pairs of lists", "why_tests_cant": "header relinking", "anchors": ["nestl/implementation/list.hpp: list_node_base::swap, list(list&&)"]}
{"id": "C27", "title": "List clear/destructor release everything once", "statement": "clear() and ~list destroy every element exactly once and return every node exactly once; after clear() the list is empty and usable.", "quantifier": "every reachable state", "why_tests_cant": "all lengths", "anchors": ["nestl/implementation/list.hpp: destroy_list_content, clear"]}
{"id": "C28", "title": "List assign / copy", "statement": "assign_nothrow(n,v), assign_nothrow(first,last) and copy_nothrow(other) yield the requested sequence; on failure err is set and the list holds a prefix of it; old elements are released; copying from itself preserves the contents.", "quantifier": "every state, every argument, every failure point", "why_tests_cant": "failure points", "anchors": ["nestl/implementation/list.hpp: assign_nothrow, copy_nothrow"]}
{"id": "C29", "title": "List nodes go back to their own allocator", "statement": "Every node is deallocated through (a copy of) the allocator it was allocated from.", "quantifier": "every operation sequence over lists with possibly distinct stateful allocators", "why_tests_cant": "histories", "anchors": ["nestl/implementation/list.hpp: swap, assign_nothrow, swap_data"]}
{"id": "C30", "title": "List equality", "statement": "operator== holds iff the two lists have equal length and pairwise equal elements.", "quantifier": "all pairs of lists", "why_tests_cant": "all pairs", "anchors": ["nestl/implementation/list.hpp: operator=="]}
{"id": "C31", "title": "Vector append", "statement": "push_back_nothrow / emplace_back_nothrow of a value that does not alias the vector appends it on success; on failure (allocation or copy failing anywhere, including while relocating) err is set and the elements are exactly as before; nothing leaks.", "quantifier": "every reachable state, every value, every failure point", "why_tests_cant": "failure at every copy of every reallocation", "anchors": ["nestl/implementation/vector.hpp: insert_value, grow, do_reserve", "nestl/detail/uninitialised_copy.hpp"]}
{"id": "C32", "title": "Vector positional insert", "statement": "insert_nothrow(err,pos,v) on success inserts v before pos, keeps the order of the other elements, and returns an iterator to the new element.", "quantifier": "every state, position and value", "why_tests_cant": "all positions x capacities", "anchors": ["nestl/implementation/vector.hpp: insert_value"]}
{"id": "C33", "title": "Vector positional insert failure", "statement": "If a copy or construction fails during a positional insert, the vector is still valid: every element in [begin,end) is alive and will be destroyed exactly once.", "quantifier": "every state, position and failure point", "why_tests_cant": "failure at every step of the shift", "anchors": ["nestl/implementation/vector.hpp: insert_value"]}
{"id": "C34", "title": "Vector reserve / shrink_to_fit", "statement": "reserve_nothrow(n) on success gives capacity() >= n, shrink_to_fit_nothrow gives capacity()==size(); elements unchanged; on failure everything is unchanged and nothing leaks.", "quantifier": "every state, n, failure point", "why_tests_cant": "failure points", "anchors": ["nestl/implementation/vector.hpp: reserve_nothrow, do_reserve, shrink_to_fit_nothrow"]}
{"id": "C35", "title": "Vector reserve never under-allocates", "statement": "If reserve_nothrow(n) reports success then the storage really has room for n elements, for every size_t n.", "quantifier": "every n in [0,2^64), every sizeof(T)", "why_tests_cant": "values near 2^64/sizeof(T)", "anchors": ["nestl/implementation/vector.hpp: reserve_nothrow, max_size", "nestl/allocator.hpp: allocate"]}
{"id": "C36", "title": "Vector growth is geometric", "statement": "n appends to an empty vector perform O(n) element copies in total (fewer than 4n+c) and O(log n) allocations.", "quantifier": "every n", "why_tests_cant": "asymptotic", "anchors": ["nestl/implementation/vector.hpp: grow"]}
{"id": "C37", "title": "Vector resize", "statement": "resize_nothrow(n[,v]) keeps the first min(n,size) elements, destroys the rest or appends copies of v; on failure a prefix of the appended part is kept and err is set; nothing leaks.", "quantifier": "every state, n, failure point", "why_tests_cant": "failure points", "anchors": ["nestl/implementation/vector.hpp: do_resize"]}
{"id": "C38", "title": "Vector assign / copy", "statement": "assign_nothrow and copy_nothrow yield the requested sequence; on failure err is set and the vector holds a prefix of it; self-copy preserves the contents; nothing leaks.", "quantifier": "every state, argument, failure point", "why_tests_cant": "failure points, aliasing", "anchors": ["nestl/implementation/vector.hpp: assign_nothrow, assign_iterator, copy_nothrow"]}
{"id": "C39", "title": "Vector storage discipline", "statement": "Every element is destroyed exactly once, every block is deallocated exactly once with the size it was allocated with, and no element is read, destroyed or overwritten in the wrong state; destroying all vectors frees everything.", "quantifier": "every operation sequence over any number of vectors, every failure pattern (positional insert restricted to non-failing copies)", "why_tests_cant": "histories x failure points", "anchors": ["nestl/implementation/vector.hpp: ~vector, do_reserve, insert_value"]}
{"id": "C40", "title": "Vector swap and moves", "statement": "swap exchanges contents; move construction / move assignment transfer the contents and leave the source empty; self-move-assignment leaves it empty; none can fail.", "quantifier": "all pairs of states", "why_tests_cant": "all pairs", "anchors": ["nestl/implementation/vector.hpp: swap, vector(vector&&), move_assign"]}
{"id": "C41", "title": "Vector append of its own element", "statement": "push_back_nothrow(err, v[i]) appends a copy of v[i].", "quantifier": "every state and index, in particular size()==capacity()", "why_tests_cant": "depends on capacity", "anchors": ["nestl/implementation/vector.hpp: insert_value, do_reserve"]}
{"id": "C42", "title": "Vector positional insert / resize with an aliased value", "statement": "insert_nothrow(err,pos,v[i]) inserts a copy of the old v[i]; resize_nothrow(err,n,v[i]) appends copies of v[i].", "quantifier": "every state, pos, i", "why_tests_cant": "depends on capacity and relative positions", "anchors": ["nestl/implementation/vector.hpp: insert_value, do_resize"]}
{"id": "C43", "title": "Vector equality and element access", "statement": "operator== holds iff sizes and elements agree; operator[], front, back, iteration and size() all describe the same sequence.", "quantifier": "all states", "why_tests_cant": "all states", "anchors": ["nestl/implementation/vector.hpp: operator==, operator[], front, back, size"]}
{"id": "C44", "title": "Vector allocators", "statement": "A vector's storage is always released through the allocator it was obtained from, and assign_nothrow leaves get_allocator() unchanged.", "quantifier": "every operation sequence over vectors with distinct stateful allocators", "why_tests_cant": "histories", "anchors": ["nestl/implementation/vector.hpp: swap, assign_nothrow, move_assign"]}
{"id": "C45", "title": "A stale error object is harmless", "statement": "Calling a *_nothrow operation with an err that already holds an error neither leaks nor corrupts anything.", "quantifier": "every container operation, every state", "why_tests_cant": "client-side reuse of err", "anchors": ["nestl/implementation/vector.hpp: do_reserve", "nestl/implementation/list.hpp: create_node", "nestl/implementation/detail/red_black_tree.hpp: m_create_node"]}
{"id": "C46", "title": "uninitialised_copy is all-or-nothing", "statement": "uninitialised_copy either constructs copies of the whole range, or reports an error and leaves no object constructed in the destination.", "quantifier": "every range and failure point", "why_tests_cant": "failure points", "anchors": ["nestl/detail/uninitialised_copy.hpp: uninitialised_copy", "nestl/detail/destroy.hpp: destruction_scoped_guard"]}
{"id": "C47", "title": "Two-phase construction is all-or-nothing", "statement": "class_operations::construct either leaves a fully initialised object, or sets err and leaves the storage without a live object (the default-constructed object is destroyed exactly once).", "quantifier": "every type category and failure point", "why_tests_cant": "failure points", "anchors": ["nestl/class_operations.hpp: construct"]}
{"id": "C48", "title": "Algorithms", "statement": "copy and copy_if write exactly the (filtered) source sequence and stop at the first failing assignment reporting err; equal and lexicographical_compare decide pointwise equality and the lexicographic order.", "quantifier": "all ranges, predicates, orders, failure points", "why_tests_cant": "all inputs", "anchors": ["nestl/algorithm.hpp: copy, copy_if, equal, lexicographical_compare"]}
{"id": "C49", "title": "shared_ptr counts its owners", "statement": "use_count() of every shared_ptr equals the number of live shared_ptr objects sharing its object; unique() iff it is 1; operator bool / get() non-null iff it owns an object.", "quantifier": "every sequence of make/copy/move/assign/reset/swap/destroy over any number of shared_ptr and weak_ptr objects, including ones stored inside managed objects", "why_tests_cant": "histories", "anchors": ["nestl/implementation/shared_ptr.hpp: shared_ptr, add_ref, release"]}
{"id": "C50", "title": "Managed object lives exactly as long as it has owners", "statement": "The object is destroyed exactly once, immediately when its last shared_ptr goes away, and never while a shared_ptr owns it.", "quantifier": "every operation sequence, every ownership graph", "why_tests_cant": "graphs and histories", "anchors": ["nestl/implementation/shared_ptr.hpp: release, destroy_value"]}
{"id": "C51", "title": "Control block is freed exactly once", "statement": "The control block is deallocated exactly once, when neither shared_ptr nor weak_ptr refers to it; destroying all handles of an acyclic graph leaves nothing allocated.", "quantifier": "every operation sequence", "why_tests_cant": "histories", "anchors": ["nestl/implementation/shared_ptr.hpp: release, weak_release, destroy_self"]}
{"id": "C52", "title": "weak_ptr::lock / expired", "statement": "expired() iff the object has been destroyed; lock() returns an owner of the object if it is alive and an empty shared_ptr otherwise.", "quantifier": "every reachable state", "why_tests_cant": "histories", "anchors": ["nestl/implementation/shared_ptr.hpp: weak_ptr::lock, expired"]}
{"id": "C53", "title": "weak_ptr move assignment", "statement": "w1 = std::move(w2) transfers the weak reference; destroying both handles afterwards releases it once.", "quantifier": "every reachable state", "why_tests_cant": "histories", "anchors": ["nestl/implementation/shared_ptr.hpp: weak_ptr::operator=(weak_ptr&&)"]}
{"id": "C54", "title": "weak_ptr self-assignment", "statement": "w = w leaves w and the counts unchanged.", "quantifier": "every reachable state, in particular an expired sole weak_ptr", "why_tests_cant": "rare state", "anchors": ["nestl/implementation/shared_ptr.hpp: weak_ptr::operator=(const weak_ptr&)"]}
{"id": "C55", "title": "Object holding a weak_ptr to itself", "statement": "An object that (transitively) owns a weak_ptr to its own control block is destroyed safely: control block freed exactly once.", "quantifier": "every ownership graph", "why_tests_cant": "re-entrancy of release", "anchors": ["nestl/implementation/shared_ptr.hpp: shared_count_base::release, weak_release"]}
{"id": "C56", "title": "Assigning from a member of the owned object", "statement": "head = head->next (copy) and head = std::move(head->next) advance a chain safely.", "quantifier": "every chain / graph", "why_tests_cant": "re-entrancy", "anchors": ["nestl/implementation/shared_ptr.hpp: operator=(const shared_ptr&), operator=(shared_ptr<Y>&&)"]}
{"id": "C57", "title": "make_shared failure", "statement": "If allocation or construction fails, make_shared_nothrow returns an empty pointer, sets err, and leaks nothing.", "quantifier": "every failure point", "why_tests_cant": "failure points", "anchors": ["nestl/implementation/shared_ptr.hpp: make_shared_a_nothrow"]}
{"id": "C58", "title": "shared_ptr self-assignment", "statement": "sp = sp is a no-op; sp = std::move(sp) is safe.", "quantifier": "every reachable state", "why_tests_cant": "rare", "anchors": ["nestl/implementation/shared_ptr.hpp: operator="]}
{"id": "C59", "title": "Exception layer mirrors the nothrow layer", "statement": "has_exceptions::vector/list push_back throws iff the nothrow operation reports an error, in which case the container is unchanged; copy construction/assignment either succeed or throw leaving the destination unchanged and leaking nothing.", "quantifier": "every state and failure point", "why_tests_cant": "failure points", "anchors": ["nestl/has_exceptions/vector.hpp: push_back, operator=", "nestl/has_exceptions/list.hpp: push_back, operator="]}
{"id": "C60", "title": "set: no spurious failures", "statement": "If the allocator always delivers and element construction never fails, no call on any set ever reports an error.", "quantifier": "every history of calls, every comparator, every never-failing environment", "why_tests_cant": "must hold for all histories and all addresses the allocator may return", "anchors": ["nestl/implementation/detail/red_black_tree.hpp: m_create_node, m_insert_, copy_nothrow"]}
{"id": "C61", "title": "List self copy", "statement": "l.copy_nothrow(err, l) leaves l unchanged (as assignment of a list to itself must).", "quantifier": "every list", "why_tests_cant": "all lists, undefined behaviour may go unnoticed", "anchors": ["nestl/implementation/list.hpp: copy_nothrow, assign_nothrow"]}
{"id": "C62", "title": "Number of comparisons of list merge and sort", "statement": "merge calls the comparator at most n1 + n2 - 1 times, sort at most 2 n log2 n times.", "quantifier": "all lists, all comparators (also inconsistent ones)", "why_tests_cant": "all lengths and orders", "anchors": ["nestl/implementation/list.hpp: merge(list&&, Compare), sort(Compare)"]}
{"id": "C63", "title": "Vector pointer stability", "statement": "Operations that fit into capacity() do not move the elements: data() is the same after push_back/insert with size() < capacity(), reserve_nothrow(n) with n <= capacity(), and resize_nothrow(n) with n <= capacity().", "quantifier": "every state, argument and failure point", "why_tests_cant": "all states and failure points; an unnecessary reallocation is invisible to tests of contents", "anchors": ["nestl/implementation/vector.hpp: reserve_nothrow, insert_value, do_resize, grow"]}
{"id": "C64", "title": "make_shared uses the allocator it is given", "statement": "make_shared_a_nothrow(err, alloc, args...) takes the memory of the control block from alloc and gives it back to alloc.", "quantifier": "every allocator argument, every reachable state", "why_tests_cant": "tests use stateless allocators, for which the difference is invisible", "anchors": ["nestl/implementation/shared_ptr.hpp: make_shared_a_nothrow"]}
{"id": "C65", "title": "Number of comparisons of hinted insertion", "statement": "m_insert_unique_at(hint, v) calls the comparator at most four times if the hint is next to the place of v (or equivalent to v), whatever the size of the tree, and at most 2 log2(n+1) + 5 times for any hint.", "quantifier": "every reachable tree, every hint, every key, every failure point", "why_tests_cant": "all sizes, shapes and hints", "anchors": ["nestl/implementation/detail/red_black_tree.hpp: m_get_insert_hint_unique_pos, m_insert_unique_at, m_insert_"]}
{"id": "C66", "title": "Emplacement", "statement": "m_emplace_unique and m_emplace_hint_unique of a new key leave the same state and return the same iterator as insertion (flag true exactly if the key was inserted); for a key that is present, or if the node cannot be created, the memory is as before, no node is leaked, and the iterator of the equivalent element, respectively end() with an error, is returned.", "quantifier": "every reachable tree, hint, key and failure point", "why_tests_cant": "all shapes, hints and failure points", "anchors": ["nestl/implementation/detail/red_black_tree.hpp: m_emplace_unique, m_emplace_hint_unique, m_insert_node, m_create_node, m_destroy_node"]}
{"id": "C67", "title": "Insertion of a range into a set", "statement": "m_insert_unique(first, last) inserts the values one after the other and stops at the first failure: the contents are the old keys and those of the values before the failure (of equivalent keys the first), an error is reported exactly if not everything was processed, old elements keep their nodes, other sets are unchanged.", "quantifier": "every reachable tree, every range, every failure point", "why_tests_cant": "unbounded ranges, all failure points", "anchors": ["nestl/implementation/detail/red_black_tree.hpp: m_insert_unique(err, first, last)"]}
{"id": "C68", "title": "Insertion next to equivalent elements", "statement": "A tree used with the operations that keep equivalent elements behaves as a sequence of keys that never decreases: m_emplace_equal puts the new element after all equivalent ones, m_insert_equal_lower before all of them; together with the set operations (insert, erase, clear, copy, move, destroy) every history yields exactly the sequence described by the history. If the node cannot be created an error is reported, end() is returned and nothing changes. Other elements keep their nodes.", "quantifier": "every history of calls over any number of trees, every strict weak order, every failure point", "why_tests_cant": "unbounded histories, tree shapes and failure points", "anchors": ["nestl/implementation/detail/red_black_tree.hpp: m_emplace_equal, m_insert_equal_lower, m_get_insert_equal_pos, m_insert_node, m_insert_lower_node, m_insert_equal_lower_node"]}
{"id": "C69", "title": "Hinted insertion next to equivalent elements", "statement": "m_emplace_hint_equal inserts as close as possible to the hint: directly before the hint if the order allows it, otherwise before all equivalent elements if the hint is too far to the left, after all equivalent elements if it is too far to the right. With a hint at a right place it calls the comparator at most three times; every insertion at most 2 log2(n+1)+3 times.", "quantifier": "every reachable tree, hint and key, every strict weak order", "why_tests_cant": "all shapes, hints and runs of equivalent elements", "anchors": ["nestl/implementation/detail/red_black_tree.hpp: m_emplace_hint_equal, m_get_insert_hint_equal_pos"]}
{"id": "C70", "title": "Searching and erasing with equivalent elements", "statement": "In a tree with equivalent elements find(k) returns the first equivalent element or end(); lower_bound/upper_bound return the first element not less than / greater than k; equal_range delimits exactly the equivalent elements, count is their number, erase(k) removes exactly them, returns their number and releases their nodes.", "quantifier": "every reachable tree, every key, every strict weak order", "why_tests_cant": "all shapes and runs of equivalent elements", "anchors": ["nestl/implementation/detail/red_black_tree.hpp: find, lower_bound, upper_bound, equal_range, count, erase(key)"]}
{"id": "C71", "title": "Safety of trees with equivalent elements", "statement": "Every valid call of a history that mixes set operations and insertions next to equivalent elements terminates without undefined behaviour and without leaking a node; every allocated block belongs to exactly one live tree. Hinted insertion needs an asymmetric comparator (see C84).", "quantifier": "every history, every environment; any comparator, for hinted insertion any asymmetric comparator", "why_tests_cant": "unbounded histories, failure points and comparators", "anchors": ["nestl/implementation/detail/red_black_tree.hpp: m_emplace_equal, m_insert_equal_lower, m_emplace_hint_equal, m_insert_node"]}
{"id": "C72", "title": "Exchange of two trees", "statement": "Exchanging two trees with equal allocators (or with an allocator that is exchanged too) never fails, allocates nothing and calls no comparator; each tree then holds exactly the elements of the other, in the same nodes, so iterators stay valid; other trees are untouched. Exchanging a tree with itself changes nothing.", "quantifier": "every reachable state, every two trees (including the same one and empty ones)", "why_tests_cant": "all pairs of shapes, empty and non-empty", "anchors": ["nestl/implementation/detail/red_black_tree.hpp: swap"]}
{"id": "C73", "title": "Move assignment of trees", "statement": "Move assignment from another tree succeeds exactly if the allocator propagates or both allocators are equal; then the destination holds the elements of the source in their nodes, the source is empty and the old nodes of the destination are released. Otherwise no element is changed (but see C92 for the comparator). Assigning a tree to itself empties it.", "quantifier": "every reachable state, every two trees and allocators", "why_tests_cant": "all pairs of shapes, allocators", "anchors": ["nestl/implementation/detail/red_black_tree.hpp: m_move_assign, m_move_data"]}
{"id": "C74", "title": "Comparison of trees", "statement": "operator== is true exactly if the sizes agree and elements at equal positions are equal; operator< is the lexicographic order of the element sequences; comparing changes nothing.", "quantifier": "every reachable state, every two trees, every element equality and order", "why_tests_cant": "all pairs of sequences", "anchors": ["nestl/implementation/detail/red_black_tree.hpp: operator==, operator<", "nestl/algorithm.hpp: equal, lexicographical_compare"]}
{"id": "C75", "title": "The self check", "statement": "The self check (__rb_verify) returns true for every tree that any history of calls, including failed ones, can produce, changes nothing and compares at most twice per element. With any data in the header it returns true only if the recorded first and last elements are right (the header itself for an empty tree); the recorded size is not checked beyond being zero or not. On any well linked tree it returns true exactly if no red node has a red child, every node is in order with its children, and all paths to nodes without children have equally many black nodes; it does not detect every tree that is not a red-black tree (nodes with one child are not checked).", "quantifier": "every history, every strict weak order; exactness for every well linked tree and comparator", "why_tests_cant": "all histories and tree shapes", "anchors": ["nestl/implementation/detail/red_black_tree.hpp: __rb_verify, rb_tree_black_count"]}
{"id": "C76", "title": "Histories of all tree operations", "statement": "After any history that mixes insertions of all kinds (plain, hinted, by emplacement, next to equivalent elements), erasures (also of arrays of keys), copies, moves, exchanges and move assignments, iterating yields exactly the sequence the history describes; every valid call terminates without undefined behaviour and no node is leaked or shared.", "quantifier": "every history, every environment, every strict weak order", "why_tests_cant": "unbounded histories and failure points", "anchors": ["nestl/implementation/detail/red_black_tree.hpp: swap, m_move_assign, erase(const key_type*, const key_type*), m_insert_node, m_erase_aux"]}
{"id": "C77", "title": "Vector range insertion and clear", "statement": "Inserting a range of values from outside the vector puts some first part of the range, in order, in front of the position and keeps all other elements in order; it is the whole range exactly if no error is reported. clear() destroys all elements and keeps capacity, block and allocator. Neither leaks or touches another vector.", "quantifier": "every reachable state, every range, every environment (positions in the middle: constructors that do not fail)", "why_tests_cant": "all lengths, capacities and failure points", "anchors": ["nestl/implementation/vector.hpp: insert_nothrow(range), clear"]}
{"id": "C78", "title": "List range erasure", "statement": "erase(first, last) destroys exactly the elements of the range and releases their memory; all other elements stay the same objects in the same order, the returned iterator is last, and nothing is allocated or constructed.", "quantifier": "every reachable state, every range of a list", "why_tests_cant": "all lengths and positions", "anchors": ["nestl/implementation/list.hpp: erase(const_iterator, const_iterator)"]}
{"id": "C79", "title": "List move assignment", "statement": "Move assignment gives the target exactly the elements of the source (the same objects), leaves the source empty and usable and releases the former elements of the target; every element is later returned to the allocator it came from.", "quantifier": "every reachable state, every pair of lists, equal or different allocators", "why_tests_cant": "all lengths, histories and allocators", "anchors": ["nestl/implementation/list.hpp: operator=(list&&), move_assign"]}
{"id": "C80", "title": "Lists of lists: refinement and safety", "statement": "A list whose elements are lists behaves like a mathematical list of mathematical lists: after any program over outer lists, elements and separate inner lists, with any failures, iteration at both levels yields the specified sequences, every element is a distinct live list object, and no valid call has undefined behaviour.", "quantifier": "every history of calls on outer and inner lists, every environment", "why_tests_cant": "interaction of two levels over all histories and failure points", "anchors": ["nestl/implementation/list.hpp: create_node, emplace_nothrow, erase, destroy_list_content, assign_nothrow, copy_nothrow, two_phase_initializator", "nestl/class_operations.hpp: construct"]}
{"id": "C81", "title": "Lists of lists: atomic insertion of an element", "statement": "Inserting a list into a list of lists either succeeds, adding an equal, independent list (or one that takes over the elements of an rvalue argument), or reports an error and leaves both levels exactly as they were, whichever allocation or construction at either level was refused; in particular an rvalue argument keeps its elements when the insertion fails.", "quantifier": "every reachable state, every position, every argument list, every failure point at both levels", "why_tests_cant": "every failure point inside the nested copy", "anchors": ["nestl/implementation/list.hpp: create_node, emplace_nothrow, erase, destroy_list_content, assign_nothrow, copy_nothrow, two_phase_initializator", "nestl/class_operations.hpp: construct"]}
{"id": "C82", "title": "Lists of lists: no orphaned and no leaked lists", "statement": "Every live inner list is an element of exactly one outer list or a separate object of the client; erasing, popping, clearing, move-assigning and destroying outer lists destroys exactly the removed inner lists and releases their elements; after all lists are destroyed both memories are empty.", "quantifier": "every history of calls, every environment", "why_tests_cant": "all histories including failed calls", "anchors": ["nestl/implementation/list.hpp: create_node, emplace_nothrow, erase, destroy_list_content, assign_nothrow, copy_nothrow, two_phase_initializator", "nestl/class_operations.hpp: construct"]}
{"id": "C83", "title": "Lists of lists: deep copy", "statement": "copy_nothrow of a list of lists makes a deep copy: new inner lists with new elements and equal values, in order; the source and all other lists are unchanged, the former elements of the target are destroyed; on failure a prefix has been copied and an error is reported.", "quantifier": "every reachable state, every pair of outer lists, every failure point", "why_tests_cant": "all sizes at both levels and all failure points", "anchors": ["nestl/implementation/list.hpp: create_node, emplace_nothrow, erase, destroy_list_content, assign_nothrow, copy_nothrow, two_phase_initializator", "nestl/class_operations.hpp: construct"]}
{"id": "C84", "title": "What hinted insertion needs from the comparator", "statement": "Insertion of a key that may be present, with any hint, by emplacement or both, and insertion of a range, are safe for every asymmetric comparator: the call ends without undefined behaviour, with an error and unchanged memory, or with an existing element not before the key and unchanged memory, or with exactly one new element while all old elements keep their nodes and order; comparisons are logarithmic. With a strict weak order the hint never changes the outcome: the key is inserted exactly if no equivalent element is present, at its place in the order. Asymmetry is necessary: for every comparator with both m<k and k<m there is an object on which hinted insertion silently loses and leaks a node.", "quantifier": "every reachable state, every hint, every key or range of keys, every environment, every asymmetric comparator (safety), every strict weak order (place), every non-asymmetric comparator (counterexample)", "why_tests_cant": "all comparators, hints and tree shapes are unbounded", "anchors": ["nestl/implementation/detail/red_black_tree.hpp: m_get_insert_hint_unique_pos, m_insert_unique_at, m_insert_unique(first, last), m_emplace_unique, m_emplace_hint_unique, m_insert_, m_insert_node"]}
{"id": "C85", "title": "Error reports are complete, sound and name their cause", "statement": "Every call on a tree, list or vector that starts with a fresh error object reports exactly what happened: success means that every allocation request and every element construction made by the call succeeded; a report of missing memory means that the last request of the call was refused while everything before succeeded; a report of a failed construction means that the last construction failed while everything else succeeded. In particular nothing more is requested or constructed after a refusal, no refusal is swallowed, no other reason is ever reported, and if the allocator does not reuse addresses a call succeeds exactly if nothing was refused.", "quantifier": "every call with every argument, every program state, every comparator, every pattern of refused allocations and failing constructors", "why_tests_cant": "all combinations of failure points, calls and states", "anchors": ["nestl/implementation/detail/red_black_tree.hpp: m_create_node, m_clone_node, m_copy, copy_nothrow, m_insert_*, m_emplace_*", "nestl/implementation/list.hpp: create_node, insert_nothrow, assign_nothrow, copy_nothrow", "nestl/implementation/vector.hpp: do_reserve, grow, insert_value, do_resize, assign_nothrow, copy_nothrow"]}
{"id": "C86", "title": "Recursion depth of the tree is logarithmic", "statement": "The tree destroys and copies its nodes by recursive functions, but nested only logarithmically: if no container has more than n elements, a call stack with room for 2 log2(n+1) + 2 activations of the recursive functions suffices for every call (destruction, clear, erase of a key, of a range or of an array of keys, copy with its cleanup after a failure, move assignment), and the call then does exactly what it does on an unlimited stack. The bound is sharp up to a constant factor: with 4^d or more elements, clear and destruction need more than d+1 activations; so no fixed stack suffices for all sizes.", "quantifier": "every history of calls, every number of elements, every stack size, every comparator, every pattern of refused allocations and failing constructors", "why_tests_cant": "a stack overflow shows up only for particular shapes and sizes of trees; the claim is about all of them", "anchors": ["nestl/implementation/detail/red_black_tree.hpp: m_erase, m_copy, clear, copy_nothrow, erase, m_erase_aux, m_move_assign, ~rb_tree"]}
{"id": "C87", "title": "Recursion depth of destroying shared objects", "statement": "Destroying a managed object destroys the shared_ptr members it owns, which may destroy further objects, recursively. With room for as many nested releases as there are managed objects, every call (destruction, assignment, move assignment, reset) does exactly what it does on an unlimited stack. This is sharp: a chain of n objects, each owned only by the one before it, needs n nested releases, so dropping its first owner overflows every smaller stack; chains of every length can be built with valid calls, so no fixed stack suffices for all programs.", "quantifier": "every history of valid calls, every structure of objects and members, every stack size, every pattern of refused allocations", "why_tests_cant": "an overflow shows up only for particular structures and sizes; the upper bound is about all structures and the lower bound about all stack sizes", "anchors": ["nestl/implementation/shared_ptr.hpp: shared_count_base::release, destroy_value, ~shared_ptr, operator=, reset"]}
{"id": "C88", "title": "Copies of a shared_ptr in several threads", "statement": "Threads that each use only their own shared_ptr and weak_ptr variables to a common object need no further synchronisation (as with std::shared_ptr): in every interleaving the object is alive while it has an owner, it is destroyed exactly once when the last owner is gone, and the control block is deallocated exactly once when the last smart pointer is gone. False for the code: an increment or decrement can be lost, so an owned object is destroyed and used, or is never destroyed; also with atomic counters the object can be destroyed twice and the block be used after its deallocation; and even with a lock around every function of the control block, lock() after !expired() can return a destroyed object. True if a lock is held during the functions of the control block and only owners call lock(), or if only one thread creates, copies and destroys the smart pointers.", "quantifier": "every number of threads, every program of each thread, every interleaving of their memory accesses", "why_tests_cant": "races depend on the schedule; a test sees few interleavings", "anchors": ["nestl/implementation/shared_ptr.hpp: shared_count_base::add_ref, release, weak_add_ref, weak_release, use_count, weak_ptr::expired, weak_ptr::lock"]}
{"id": "C89", "title": "Queries of a tree write nothing and read only their own object", "statement": "Every query of a set, or of the tree used with equivalent keys (begin, end, size, empty, find, lower_bound, upper_bound, equal_range, count, dereferencing and stepping an iterator, iterating in either direction, == and <) terminates without undefined behaviour and gives the right answer after at most 4 log2(n+1)+1 comparator calls. It writes no memory cell, and it reads only the cells of the objects it is about: in every state in which these cells are the same it does the same. Hence any number of threads may query an object concurrently, and calls on other objects (also while the query runs) do not change its answer.", "quantifier": "every state reachable by any history of calls, every query, every state of the rest of the memory, every call on other objects", "why_tests_cant": "a stray write or read of a foreign cell shows up only in a particular state of other objects or under a particular schedule", "anchors": ["nestl/implementation/detail/red_black_tree.hpp: begin, end, size, empty, find, lower_bound, upper_bound, equal_range, count, operator==, operator<, iterators", "nestl/implementation/set.hpp"]}
{"id": "C90", "title": "Queries of a list write nothing and read only their own object", "statement": "Every query of a list (begin, end, size, empty, front, back, get_allocator, dereferencing, stepping and comparing iterators, iterating in either direction, ==) terminates without undefined behaviour and gives the right answer. It writes no memory cell, and it reads only the cells of the objects it is about: in every state in which these cells are the same it does the same. Hence any number of threads may query an object concurrently, and calls on other objects do not change its answer.", "quantifier": "every state reachable by any history of calls, every query, every state of the rest of the memory, every call on other objects", "why_tests_cant": "a stray write or read of a foreign cell shows up only in a particular state of other objects or under a particular schedule", "anchors": ["nestl/implementation/list.hpp: begin, end, size, empty, front, back, get_allocator, operator==, iterators"]}
{"id": "C91", "title": "Queries of a vector write nothing and read only their own object", "statement": "Every query of a vector (size, capacity, empty, get_allocator, data, operator[], front, back, iterating, ==) terminates without undefined behaviour and gives the right answer. It writes no memory cell, and it reads only the cells of the objects it is about: in every state in which these cells are the same it does the same. Hence any number of threads may query an object concurrently, and calls on other objects do not change its answer.", "quantifier": "every state reachable by any history of calls, every query, every state of the rest of the memory, every call on other objects", "why_tests_cant": "a stray write or read of a foreign cell shows up only in a particular state of other objects or under a particular schedule", "anchors": ["nestl/implementation/vector.hpp: size, capacity, empty, get_allocator, data, begin, end, operator[], front, back, operator=="]}
{"id": "C92", "title": "Every tree keeps to its own comparator", "statement": "Trees may be constructed with different comparators. Copying, moving, exchanging and move-assigning trees carries the comparator along with the elements; every call and every query on a tree uses the comparator the tree has at that moment; after any history every tree holds the keys that the history says, ordered by its current comparator; no call touches the elements or the comparator of other trees.", "quantifier": "every history of calls on any number of trees with any strict weak orders as comparators, every pattern of failing allocations and constructors, every query", "why_tests_cant": "tests use one stateless comparator; the property ranges over histories that mix objects with different orders", "anchors": ["nestl/implementation/detail/red_black_tree.hpp: rb_tree(comp, alloc), rb_tree(rb_tree&&), copy_nothrow, swap, m_move_assign, key_comp", "nestl/implementation/set.hpp: set(comp, alloc), copy_nothrow"]}
{"id": "C93", "title": "Lists and sets accept references to their own elements", "statement": "The value or key argument of insert, emplace, push_back, push_front, assign(n, value), erase(key) and find may be a reference to an element of any container, also of the one that is modified. The call does exactly what it would do with a copy of that element made before the call: l.push_back_nothrow(err, l.front()), l.assign_nothrow(err, n, *it), s.erase(*it) and inserting an element of a multiset again read the element only while it exists.", "quantifier": "every reachable state, every element of every live container, every number of copies, every pattern of failing allocations and constructors, every history that mixes such calls with others", "why_tests_cant": "the argument must stay readable at every step of every call, in particular after the container has been changed or has released elements; a test sees a stale read only if the memory happens to be reused", "anchors": ["nestl/implementation/list.hpp: insert_nothrow, emplace_nothrow, push_back_nothrow, push_front_nothrow, assign_nothrow, create_node", "nestl/implementation/set.hpp: insert_nothrow, erase, find", "nestl/implementation/detail/red_black_tree.hpp: m_insert_unique, m_insert_unique_at, m_emplace_unique, m_emplace_hint_unique, m_emplace_equal, m_insert_equal_lower, m_emplace_hint_equal, erase(const key_type&)"]}
{"id": "C94", "title": "A broken order costs no memory safety", "statement": "If the elements of a tree are not in the order of its comparator (after a refused move assignment, because a comparator with a state answers differently from one call to the next, or because elements were changed behind the back of the tree), all functions still terminate without undefined behaviour, leak nothing and share no node; a call adds at most one element, removes elements only if it is a removing call, keeps all other elements at their addresses and in their relative order, reports failed allocations as usual, and does not touch other objects; lookups still take a logarithmic number of comparisons and only return end() or an element of the object. (Hinted insertions need a comparator that never says both a < b and b < a.)", "quantifier": "every history of calls on any number of objects, every comparator function for every single call, every pattern of failing allocations and constructors", "why_tests_cant": "the comparator may give any answers; the shapes and paths that it can drive the code into cannot be enumerated", "anchors": ["nestl/implementation/detail/red_black_tree.hpp: m_insert_unique, m_get_insert_unique_pos, m_emplace_equal, m_emplace_hint_equal, equal_range, lower_bound, upper_bound, find, erase, m_move_assign", "nestl/implementation/set.hpp: insert_nothrow, erase, find"]}
{"id": "C95", "title": "Calls depend only on the objects they are about, and calls on different objects commute", "statement": "What a call does is determined by the objects it is given: in every other state of the program in which these objects are the same, whatever other objects exist, the call ends in the same way, gives the same result, reports the same error, leaves the same content in its objects and changes no other memory. Two calls on different objects that neither obtain memory nor create objects (erase, clear, swap, merge, splice, pop, lookups, destruction) can be made in either order: both give the same results, and the same memory is left.", "quantifier": "every reachable state, every valid call, every other state that agrees on the objects of the call, every pair of calls on disjoint objects", "why_tests_cant": "the rest of the program state is unbounded; tests run a call in a few states and cannot show that nothing else has an influence", "anchors": ["nestl/implementation/detail/red_black_tree.hpp: all functions", "nestl/implementation/set.hpp: all functions", "nestl/implementation/list.hpp: all functions", "nestl/implementation/vector.hpp: all functions"]}
{"id": "C96", "title": "Vectors can hold any class of objects, and containers nest to any depth", "statement": "A vector whose elements are objects of a class of their own (which own memory, whose copying may fail, which are moved and destroyed) treats them properly: in every call each element is constructed once in storage of its own, is used only during its lifetime and is destroyed exactly once, whichever copy fails; the values of the elements follow the specification of vectors of values; objects of the client are not changed, except that an object that was moved into a vector is empty; nothing is left behind when the vectors are gone. This holds for every element class that keeps its own promises, for vectors of lists, vectors of shared_ptr (managed objects are destroyed exactly with their last owner), and for vectors of vectors nested to any depth; between calls the client can use the inner containers in place.", "quantifier": "every element class that meets the contract, every depth of nesting, every reachable state, every valid call, every failure of an allocation or of a copy at any level", "why_tests_cant": "the element class and the depth of nesting are parameters; the failing copy can be any one at any level", "anchors": ["nestl/implementation/vector.hpp: insert_value, grow, do_reserve, do_resize, assign_iterator, copy_nothrow, two_phase_initializator", "nestl/class_operations.hpp: construct", "nestl/detail/uninitialised_copy.hpp", "nestl/detail/destroy.hpp", "nestl/implementation/list.hpp: two_phase_initializator", "nestl/shared_ptr.hpp"]}
{"id": "C97", "title": "Lists can hold any class of objects, and lists and vectors nest in any mixture", "statement": "A list whose elements are objects of a class of their own treats them properly in every call (insertion, copying, assignment, erasure, merging, splicing, sorting, comparing, destruction): each element is constructed once in its node, used only during its lifetime and destroyed exactly once, whichever allocation or copy fails; the values of the elements follow the specification of lists of values, with comparators that are given the objects; objects of the client are not changed, except that an object moved into a list is empty; nothing is left behind when the lists are gone. Move construction, swap, merge and splice neither copy nor move an element: every element stays the object it was, in the node it was in. This holds for every element class that keeps its own promises, for lists of shared_ptr, and for lists and vectors nested in each other in any mixture to any depth; between calls the client can use the inner containers in place.", "quantifier": "every element class that meets the contract, every nesting of lists and vectors, every reachable state, every valid call, every failure of an allocation or of a copy at any level", "why_tests_cant": "the element class and the nesting are parameters; the failing copy can be any one at any level", "anchors": ["nestl/implementation/list.hpp: create_node, emplace_nothrow, insert_nothrow, erase, assign_nothrow, copy_nothrow, merge, splice, sort, operator==, two_phase_initializator", "nestl/class_operations.hpp: construct", "nestl/detail/destroy.hpp", "nestl/implementation/vector.hpp", "nestl/shared_ptr.hpp"]}
{"id": "C98", "title": "Sets and trees can hold any class of objects", "statement": "A set or tree whose elements are objects of a class of their own treats them properly in every call (insertion of one of equivalent elements or of several, with and without hint, emplacement, erasure by key, by keys, by position, by range, find, copying, moving, swapping, destruction): each element is constructed once in its node, used only during its lifetime and destroyed exactly once, whichever allocation or copy fails; the values of the elements follow the specification of trees of values, with a comparator that is given the objects; objects of the client are not changed, except that an object moved into a tree is empty - but not if the insertion found that an equivalent element is there; nothing is left behind when the trees are gone. As long as one strict weak order is used the elements are in that order, and without equivalent elements if only calls of sets are made. Searches (find, lower_bound, upper_bound, equal_range, count, size) and comparisons (==, <) change nothing and give the answers for the values. Move construction and swap neither copy nor move an element.", "quantifier": "every element class that meets the contract, every comparator that computes a function of the values, every reachable state, every valid call, every failure of an allocation or of a copy", "why_tests_cant": "the element class and the comparator are parameters; the failing copy can be any one", "anchors": ["nestl/implementation/detail/red_black_tree.hpp: m_create_node, m_destroy_node, m_insert_unique, m_emplace_unique, m_emplace_equal, m_insert_equal_lower, m_emplace_hint_unique, m_emplace_hint_equal, erase, m_copy, copy_nothrow, swap, m_move_assign, find, lower_bound, upper_bound, equal_range, count, operator==, operator<", "nestl/implementation/set.hpp", "nestl/class_operations.hpp: construct", "nestl/detail/destroy.hpp"]}
{"id": "C99", "title": "Sets, lists and vectors nest in any mixture, and trees of trees can be ordered by their own comparison", "statement": "Sets (and trees) are elements of sets, lists and vectors, and lists and vectors are elements of sets, in any mixture and to any depth: every call on the outermost container is safe on every level, has its specified effect on the sequences of sequences of ... of values, and leaves the objects of the client alone; between the calls the client can use the inner containers in place; when the containers of all levels have been destroyed no memory of any level is left. The comparisons == and < of trees can be used as comparators of containers of trees: < computes the lexicographic order, which is a strict weak order if the comparison of the elements is one. In trees of shared_ptr the managed objects of the elements are alive, and a call destroys exactly those managed objects whose last owner it destroys.", "quantifier": "every element class that meets the contract, every nesting of sets, lists and vectors, every reachable state, every valid call, every failure of an allocation or of a copy at any level", "why_tests_cant": "the element class, the comparator and the nesting are parameters", "anchors": ["nestl/implementation/set.hpp", "nestl/implementation/detail/red_black_tree.hpp: operator==, operator<, m_insert_unique, m_copy, destructor, move constructor", "nestl/algorithm.hpp: lexicographical_compare, equal", "nestl/implementation/list.hpp", "nestl/implementation/vector.hpp", "nestl/shared_ptr.hpp", "nestl/class_operations.hpp: construct"]}
{"id": "C100", "title": "References and iterators into lists and trees of objects stay valid", "statement": "Lists and trees keep their elements where they are, whatever the element class: an insertion, successful or not, leaves every element of every container in place, as the same object at the same position; the calls that erase, move, exchange, splice, merge, sort or move-assign create no element and move none, and sort keeps all of them; a position that belongs to a container before and after a call denotes the same object before and after it. (Copying a tree onto another one is excluded: it clears the target first and may use the freed nodes again.)", "quantifier": "every element class that meets the contract, every reachable state, every valid call, every failure of an allocation or of a copy, every comparator", "why_tests_cant": "the element class, the comparator, the history and the failures are arbitrary, and a dangling reference usually still shows the old value", "anchors": ["nestl/implementation/list.hpp: emplace_nothrow, insert_nothrow, erase, sort, merge, splice, assign_nothrow, copy_nothrow", "nestl/implementation/detail/red_black_tree.hpp: m_insert_, m_emplace_unique, m_emplace_hint_unique, rb_tree_insert_and_rebalance, m_erase_aux, m_move_assign, swap"]}
{"id": "C101", "title": "Errors of calls on lists and trees of objects have a cause", "statement": "If a call on a list or a tree of objects reports an error, then the allocator refused a request made by this call and the error says so, or an element could not be copied and the error is the one the element reported, or (trees) the comparator could not be copied and the error says so. If copies do not fail and the allocator does not hand out memory twice, then a call fails exactly if the allocator refuses a request made by the call: there are neither spurious nor swallowed errors.", "quantifier": "every element class, every call, every state, every allocator", "why_tests_cant": "the class, the history and the pattern of failures are arbitrary", "anchors": ["nestl/implementation/list.hpp: create_node, emplace_nothrow, assign_nothrow, copy_nothrow", "nestl/implementation/detail/red_black_tree.hpp: m_create_node, m_copy, copy_nothrow, m_emplace_unique", "nestl/class_operations.hpp: construct", "nestl/detail/destroy.hpp: deallocation_scoped_guard"]}
{"id": "C102", "title": "References to the elements of vectors of objects", "statement": "Whatever the element class: a call keeps the elements of every vector it does not change as the same objects (the source of a copy in particular); push_back keeps all elements in place as long as the size is below the capacity, whether it succeeds or fails; push_back, reserve and shrink_to_fit invalidate references only if they change data(); a reserve or shrink_to_fit that fails, and a reserve within the capacity, leave all elements in place; resize to a smaller size keeps the first elements in place and cannot fail; swap, the move constructor and move assignment hand the objects over without copying them. What does not hold: a push_back on a full vector that reports an error may have moved the elements to a larger block before.", "quantifier": "every element class that meets the contract, every reachable state, every valid call, every failure of an allocation or of a copy", "why_tests_cant": "the element class, the history and the failures are arbitrary, and a dangling reference usually still shows the old value", "anchors": ["nestl/implementation/vector.hpp: push_back_nothrow, emplace_back_nothrow, reserve_nothrow, shrink_to_fit_nothrow, resize_nothrow, assign_nothrow, copy_nothrow, swap, move_assign, do_reserve, grow"]}
{"id": "C103", "title": "Requests and errors of calls on vectors of objects", "statement": "A call on a vector of objects makes at most one request for memory, and makes it exactly if it needs memory: push_back on a full vector (for 3(n+1)/2 elements), reserve above the capacity, shrink_to_fit below the capacity, resize to a larger size (always, even if the capacity suffices), assign and copy (always, for at least one element). If a call reports an error, then the request was too large or the allocator did not serve it and the error says so, or an element could not be copied and the error is the one the element reported. If copies do not fail and the allocator does not hand out memory twice, a call fails exactly if its request is too large or refused.", "quantifier": "every element class that meets the contract, every reachable state, every valid call, every allocator", "why_tests_cant": "the class, the history and the pattern of failures are arbitrary", "anchors": ["nestl/implementation/vector.hpp: grow, do_reserve, push_back_nothrow, reserve_nothrow, shrink_to_fit_nothrow, resize_nothrow, assign_nothrow, copy_nothrow", "nestl/class_operations.hpp: construct"]}
{"id": "C104", "title": "Insertion into vectors of objects at any position", "statement": "Whatever the element class: insert_nothrow(err, pos, x) and insert_nothrow(err, pos, std::move(x)) return without undefined behaviour for every position, whatever fails. If it succeeds, the new value is in front of the element at pos and all other elements keep their order and values; if it fails at the end of the vector, or at any position when the copies of elements cannot fail, no sequence changes. In every case, including the failures that break the vector, the other vectors keep their elements as the same objects with the same values and the objects of the client keep their values (a moved object is empty only on success). With room for another element, the elements in front of the position stay the same objects. It asks for memory exactly if the vector is full, and an error has a cause. What does not hold: if the copy of an element fails while the elements are shifted, an element is lost and destroying the vector is undefined behaviour.", "quantifier": "every element class that meets the contract, every reachable state, every position and argument, every failure of an allocation or of a copy", "why_tests_cant": "the element class, the history, the position and the point of failure are arbitrary", "anchors": ["nestl/implementation/vector.hpp: insert_nothrow, insert_value, grow"]}
{"id": "C105", "title": "Insertion of ranges into vectors of objects", "statement": "Whatever the element class: insert_nothrow(err, pos, first, last), for a range of objects of the client and of elements of other vectors, returns without undefined behaviour whatever fails. If it succeeds, the values of the range are at the position in their order; at the end of the vector, or at any position when the copies of elements cannot fail, a failure leaves exactly the values inserted before it. In every case the other vectors keep their elements as the same objects with the same values, and the objects of the client keep their values. What does not hold: a copy that fails while elements are shifted breaks the vector.", "quantifier": "every element class that meets the contract, every reachable state, every position, every length of the range, every failure of an allocation or of a copy", "why_tests_cant": "the element class, the history, the range and the point of failure are arbitrary", "anchors": ["nestl/implementation/vector.hpp: insert_nothrow, insert_range, insert_value"]}
{"id": "C106", "title": "Throwing vectors and lists of objects give the strong guarantee", "statement": "Whatever the element class: push_back of has_exceptions::vector and has_exceptions::list throws exactly the error that push_back_nothrow reports, and then all sequences and all objects of the client (also one that was to be moved) are as before; otherwise the value was appended. Their copy constructors throw exactly the error that copy_nothrow into a new container reports; then every container consists of the same objects with the same values as before and no object is left behind; otherwise there is one more container, with the values of the source. Their copy assignments, also to themselves, leave every container with the same objects and values if they throw; otherwise the target has the values of the source and all other containers consist of the same objects as before. What does not hold: assignment to a list whose allocator is not default constructed.", "quantifier": "every element class that meets the contract, every reachable state, every source, target and argument, every failure of an allocation or of a copy", "why_tests_cant": "the element class, the history and the point of failure are arbitrary", "anchors": ["nestl/has_exceptions/vector.hpp: vector(const vector&), operator=, push_back", "nestl/has_exceptions/list.hpp: list(const list&), operator=, push_back"]}
{"id": "C107", "title": "Error objects tell which error was reported last", "statement": "Whatever a program does with error objects (creating, copying, reporting to and testing them): with exception_ptr_error and with errc_based_error all tests give the same answers, so the program takes the same path in both configurations. At the end an error object is set if and only if an error was reported to it, or to the object it was copied from, since it was created; it tells the last such error: value() of errc_based_error is ENOMEM or ERANGE, and throw_exception of an exception_ptr_error throws exactly the exception that was reported (the very one thrown by the constructor of an element; for a length error or a failed allocation the one that std::make_exception_ptr yields, which is a substitute if there is no memory for it), and throwing changes no error object. Reporting never resets an error object. throw_exception of an error object that is not set is undefined behaviour.", "quantifier": "every program and every sequence of operations over any number of error objects, every exception, every pattern of memory exhaustion in std::make_exception_ptr, every choice of distinct positive error codes", "why_tests_cant": "programs are arbitrary, and running out of memory inside std::make_exception_ptr cannot be provoked portably", "anchors": ["nestl/has_exceptions/exception_ptr_error.hpp: exception_ptr_error, from_exception_ptr, from_exception, build_length_error, build_bad_alloc, throw_exception", "nestl/no_exceptions/errc_based_error.hpp: errc_based_error, build_length_error, build_bad_alloc", "nestl/default_operation_error.hpp: default_operation_error"]}
{"id": "C108", "title": "Containers of weak_ptr observe objects without owning them", "statement": "Every valid call on vectors (including insertion), lists and sets of weak_ptr, and on containers nested in any way whose innermost elements are weak_ptr, terminates without undefined behaviour and leaves all managed objects, all shared_ptr, all data members of managed objects and every use_count() as they were: such containers keep no object alive and destroy none. The element weak_ptrs tell the truth at any time: use_count() is the number of owners of the object, expired() is true exactly if it has been destroyed, and the control block is not released while an element refers to it. In between the client may use shared_ptr and weak_ptr in any valid way, also on elements, as long as it destroys no element.", "quantifier": "every history of valid calls on containers of weak_ptr (any nesting) and on smart pointers, every allocation failure, every graph of managed objects (including cycles and objects with weak_ptr members)", "why_tests_cant": "histories, nestings and object graphs are arbitrary", "anchors": ["nestl/implementation/shared_ptr.hpp: weak_ptr::weak_ptr, weak_ptr::~weak_ptr, use_count, expired", "nestl/implementation/vector.hpp: vector", "nestl/implementation/list.hpp: list", "nestl/implementation/set.hpp: set", "nestl/class_operations.hpp: class_operations::construct"]}
{"id": "C109", "title": "Equality of nested containers is deep and changes nothing", "statement": "operator== of vectors of objects of any class is true exactly if the vectors are equally long and corresponding elements are equal, and it changes nothing. operator== of vectors, lists and sets nested in any way and to any depth terminates without undefined behaviour, is true exactly if the nested sequences of values are equal (given that operator== of the innermost class compares values), and changes nothing on any level. A copy of a container of any nesting compares equal to its source.", "quantifier": "every element class that meets the contract, every comparison of elements that changes nothing, every nesting of vectors, lists and sets, every reachable state and all pairs of containers, also a container and itself", "why_tests_cant": "nesting depth, element class, sizes and values are unbounded", "anchors": ["nestl/implementation/vector.hpp: operator==", "nestl/implementation/list.hpp: operator==", "nestl/implementation/set.hpp: set", "nestl/implementation/detail/red_black_tree.hpp: operator==", "nestl/class_operations.hpp: class_operations::construct"]}
{"id": "C110", "title": "The six comparison operators of trees agree with each other", "statement": "For red-black trees of objects of any class: operator!= is the negation of operator==, operator> is operator< with the operands exchanged, operator<= and operator>= are the negations of operator> and operator<; none of them changes anything. If operator< of the elements is a strict weak order and operator== of the elements holds exactly if neither is less, then for all trees x and y exactly one of x < y, x == y and x > y holds, x <= y iff x < y or x == y, and x >= y iff x > y or x == y.", "quantifier": "every element class that meets the contract, every strict weak order on its values, every reachable state, all pairs of trees, also a tree and itself", "why_tests_cant": "sizes, values, element class and order are arbitrary", "anchors": ["nestl/implementation/detail/red_black_tree.hpp: operator==, operator<, operator!=, operator>, operator<=, operator>=", "nestl/algorithm.hpp: lexicographical_compare, equal"]}
{"id": "C111", "title": "Move assignment of sets", "statement": "After a move assignment between two sets the target holds the keys that the source held, in the order of the comparator of the source, which the target now uses; the source is empty, the former elements of the target are released, and all other objects keep their elements. If the allocators are equal or propagate, the elements keep their addresses. No element is lost, even if an allocation fails.", "quantifier": "every reachable state, every two sets, equal and different allocators and comparators, every pattern of failing allocations and constructors", "why_tests_cant": "all pairs of shapes, allocators, comparators and failure points; tests use one allocator and one comparator", "anchors": ["nestl/implementation/set.hpp: operator=(set&&)", "nestl/implementation/detail/red_black_tree.hpp: m_move_assign, m_move_data, m_insert_unique(err, first, last), clear"]}
{"id": "C112", "title": "Number of allocation requests and element constructions", "statement": "A call on a list or tree requests one node and constructs one element for each element it has to create, and nothing else: insertion one, assignment and copying one per element of the source, insertion of a key that is present none, while emplacement always makes its element first. Erasing, clearing, moving, exchanging, splicing, searching and destroying request nothing and cannot fail. A tree copy additionally copies the comparator.", "quantifier": "every reachable state, every call, every pattern of refused allocations and failing constructors", "why_tests_cant": "the count must be exact for every shape, history and failure point; tests count nothing", "anchors": ["nestl/implementation/list.hpp: push_back_nothrow, insert_nothrow, assign_nothrow, copy_nothrow, create_node", "nestl/implementation/detail/red_black_tree.hpp: m_create_node, m_insert_unique, m_insert_unique_at, m_emplace_unique, m_emplace_hint_unique, m_emplace_equal, m_insert_equal_lower, m_copy, copy_nothrow"]}
{"id": "C113", "title": "Number of nodes requested by lists and trees of objects", "statement": "A list or tree whose elements are objects with their own constructors requests exactly one node for each element a call has to create, however many requests the elements make themselves: inserting a copy or a moved object one, assigning and copying one per element of the source, inserting a key that is present none, emplacing always one. A call that fails, because a node is refused or because the constructor of an element reports an error, has requested at most as many. Erasing, clearing, moving, exchanging, splicing, merging, sorting, searching and destroying request no node and cannot fail.", "quantifier": "every element class that fulfils the requirements, every reachable state, every call, every pattern of refused nodes and of constructors that report errors", "why_tests_cant": "the count must be exact for every element class, history and failure point", "anchors": ["nestl/implementation/list.hpp: push_back_nothrow, insert_nothrow, assign_nothrow, copy_nothrow, create_node", "nestl/implementation/detail/red_black_tree.hpp: m_create_node, m_insert_unique, m_emplace_unique, m_emplace_equal, m_insert_equal_lower, m_copy, copy_nothrow"]}
{"id": "C114", "title": "Number of comparisons of objects", "statement": "On a tree of n objects of any class, find calls the comparator at most 2 log2(n+1) + 1 times, insertion at most 2 log2(n+1) + 2 (one of equivalent elements), + 3 (equal keys), + 5 (emplacement or hint) times, and erase(key) at most 4 log2(n+1) times, whatever the comparator answers. On lists of objects merge calls it at most n1 + n2 - 1 times and sort at most 2 n log2 n times.", "quantifier": "every element class, every reachable state, every comparator that only looks at the objects and computes a function of their values, every argument", "why_tests_cant": "a bound for all sizes and shapes; tests count no comparisons", "anchors": ["nestl/implementation/detail/red_black_tree.hpp: find, m_get_insert_unique_pos, m_get_insert_equal_pos, m_get_insert_hint_unique_pos, m_get_insert_hint_equal_pos, equal_range, erase", "nestl/implementation/list.hpp: merge, sort"]}
{"id": "C115", "title": "Number of requests and constructions of vector calls", "statement": "Every vector call other than inserting a range or assigning from input iterators makes at most one request for memory, and its price is fixed by the size n and the capacity before it: push_back 0 requests and 1 construction with spare capacity, 1 and n+1 when full; insertion before element p makes n-p further constructions; reserve and shrink_to_fit 1 and n if they reallocate, otherwise nothing; resize to a larger size m 1 and m; assignment and copy of m elements 1 and m; construction, clear, move, swap and destruction nothing. A call that fails makes the same number of requests and not more constructions. Inserting a range of k values before element p makes at most 2 log2(n+k+1) requests and k(n-p+1) + 3(n+k) constructions (no request and exactly k(n-p+1) constructions if the capacity suffices), assigning k values from input iterators at most 2 log2(k+1) requests and 4k constructions.", "quantifier": "every reachable state, every valid call, every failure point, every allocator", "why_tests_cant": "a count for all sizes and capacities, also of calls that fail", "anchors": ["nestl/implementation/vector.hpp: push_back_nothrow, insert_nothrow, reserve_nothrow, shrink_to_fit_nothrow, resize_nothrow, assign_nothrow, copy_nothrow, insert_value, insert_range, do_resize, grow, do_reserve", "nestl/detail/uninitialised_copy.hpp"]}
{"id": "C116", "title": "Calls that need no order call no comparator", "statement": "Calls on trees that look for no key (construction, erase of an iterator or a range of iterators, clear, copy_nothrow, move construction, swap, move assignment, destruction) and calls on lists other than merge and sort never call the comparator, whether they succeed or fail. Erasing an array of m keys from a tree of n elements calls it at most m * 4 log2(n+1) times. The same holds for trees and lists of objects of any class.", "quantifier": "every state, every such call, every comparator, every failure point", "why_tests_cant": "absence of an effect for all states, and a bound for all sizes", "anchors": ["nestl/implementation/detail/red_black_tree.hpp: erase, clear, copy_nothrow, swap, m_move_assign", "nestl/implementation/list.hpp"]}
{"id": "C117", "title": "Move construction of a tree with a given allocator", "statement": "Constructing a tree from an expiring tree and an allocator always ends with an object that uses the given allocator and holds the elements of the source in the same order. If the allocator equals that of the source the nodes themselves are handed over, the source is empty, and nothing is requested, constructed or compared; otherwise the elements are in new nodes and the source keeps its own. All other objects are unchanged. A failing request must not make the constructor crash.", "quantifier": "every reachable state, every source and allocator, every failure point", "why_tests_cant": "every shape and every failing node of the copy; the failure path has no error to report", "anchors": ["nestl/implementation/detail/red_black_tree.hpp: rb_tree(rb_tree&&, node_allocator&&), m_move_data, m_copy, s_minimum"]}
{"id": "C118", "title": "Programs that use sets, with move assignment", "statement": "In a program that calls the public interface of set in any order, with any strict weak order in every object (construction, copying, move construction, move assignment, insertion, erasure, lookup, clear, destruction), every call ends without undefined behaviour; every set holds exactly the keys that the calls so far say, each once, in strict order of the comparator it has now; sets that a call is not about are unchanged; queries answer right; no block is leaked. The only call that can lose elements without a report is move assignment between sets with different allocators that do not propagate, and it loses none if the allocator delivers.", "quantifier": "every sequence of valid calls, every allocator and constructor behaviour, every assignment of strict weak orders to the objects, every query", "why_tests_cant": "unbounded histories, arbitrary comparators and failure points", "anchors": ["nestl/implementation/set.hpp: set", "nestl/implementation/detail/red_black_tree.hpp: m_move_assign, m_insert_unique, copy_nothrow"]}
{"id": "C119", "title": "Inserting ranges into, and move-assigning, sets of objects", "statement": "Inserting a range of objects (of the client, or elements of another set) into a set of objects of any class ends without undefined behaviour; the objects are copied in one after another, up to the first one that cannot be inserted for want of memory or because its copy fails, and an error with that cause is reported exactly in that case; an object is skipped iff an equivalent one is there; the set stays strictly ordered; the elements that were there stay the same objects at the same positions, and no other set, no object of the client and no object of the range changes. Move assignment: if the allocator propagates or the allocators are equal the target has the objects of the source at the same positions, otherwise copies of them in the same order; the source is empty, the old elements of the target are gone, everything else is untouched, and no element is lost without a report.", "quantifier": "every reachable state of sets of objects of every class, every range, every comparator that is a strict weak order on the values, every failure of the allocator or of copies", "why_tests_cant": "all element classes, unbounded ranges, every failure point", "anchors": ["nestl/implementation/detail/red_black_tree.hpp: m_insert_unique(err, first, last), m_move_assign", "nestl/implementation/set.hpp: operator=(set&&)"]}
{"id": "C120", "title": "Inserting values and ranges next to equivalent elements", "statement": "The tree interface for multisets that inserts values (rather than emplacing them), taken with the error argument it lacks: inserting a value adds exactly one element, behind all elements that are not greater, or with a hint as close to the hint as the order allows; if the node cannot be created an error is reported, end() is returned and nothing changes. Inserting a range inserts its values one after another, each behind the elements that are not greater, up to the first that cannot be inserted; an error is reported exactly if not all were inserted. The old elements keep their nodes and their order, other objects do not change, no call has undefined behaviour and nothing is leaked. After any history of calls the contents are the sequence that the history describes.", "quantifier": "every history of calls on any number of objects, every comparator that is a strict weak order (safety: every comparator, with a hint every asymmetric one), every range, every hint, every failure of the allocator or of constructors", "why_tests_cant": "unbounded histories and ranges, every failure point; the functions do not compile as they stand, so no test can run them", "anchors": ["nestl/implementation/detail/red_black_tree.hpp: m_insert_equal(v), m_insert_equal_at, m_insert_equal(first, last)"]}
{"id": "C121", "title": "Iteration takes constant time per element", "statement": "Moving an iterator of a set or tree of n elements by one position follows at most 2 log2(n+1) + 1 links forward and at most 2 log2(n+1) backward. Moving it by m positions in one direction, from any position, follows 2 m links, give or take 4 log2(n+1), whatever the shape of the tree; so m moves cost O(m + log n), not O(m log n). A pass over all elements, from begin() to end() or back, follows at most 2 n links. Iteration changes nothing and has no undefined behaviour.", "quantifier": "every set and tree that any history of calls can produce, every position and every number of moves that stays in range, both directions", "why_tests_cant": "unbounded sizes and every tree shape that histories of insertions and erasures can produce; an asymptotic bound cannot be tested", "anchors": ["nestl/implementation/detail/red_black_tree.hpp: rb_tree_increment, rb_tree_decrement, rb_tree_iterator, rb_tree_const_iterator"]}
{"id": "C122", "title": "Rebalancing makes a constant number of rotations", "statement": "Inserting an element into a set or tree of n elements makes at most two rotations, wherever the element belongs and whichever way it is inserted, and at most log2(n+1) passes of the rebalancing loop. Erasing an element through an iterator makes at most three rotations and at most 2 log2(n) passes.", "quantifier": "every set and tree that any history of calls can produce, every value inserted and every element erased, every comparator", "why_tests_cant": "unbounded sizes and every tree shape that histories can produce; the deepest rebalancing needs shapes that tests do not hit", "anchors": ["nestl/implementation/detail/red_black_tree.hpp: rb_tree_insert_and_rebalance, rb_tree_rebalance_for_erase, rb_tree_rotate_left, rb_tree_rotate_right"]}
{"id": "C123", "title": "Rebalancing is constant on average", "statement": "However insertions (of any kind, with or without a hint) and erasures (of elements, ranges and keys) of a set or tree are mixed, the passes their rebalancing loops make add up to at most seven per insertion and twelve per erased element, plus two for every element the set started with. A set that starts empty therefore never pays more than a constant amount of rebalancing per operation on average.", "quantifier": "every set that any history of calls can produce, every further history of insertions and erasures of it of any length, with anything in between that leaves the set alone; every comparator", "why_tests_cant": "a statement about sums over histories of every length; a single operation can make logarithmically many passes, so no bound per call shows it", "anchors": ["nestl/implementation/detail/red_black_tree.hpp: rb_tree_insert_and_rebalance, rb_tree_rebalance_for_erase"]}
{"id": "C124", "title": "The self check of trees of objects", "statement": "For trees whose elements are objects of any class, with a comparator that is a program on objects, the self check accepts every tree that any history of calls produced, including failed ones, if its elements are in the order of the comparator. It rejects every tree of at least two elements if the comparator orders the elements the other way round. It never changes a tree or an element.", "quantifier": "every class of elements, every tree that any history of calls can produce, every comparator of objects", "why_tests_cant": "all tree shapes and all element classes, nested containers included", "anchors": ["nestl/implementation/detail/red_black_tree.hpp: __rb_verify"]}
{"id": "C125", "title": "Costs of iterating over, inserting into and erasing from trees of objects", "statement": "In a set or tree of n objects of any class, one step of an iterator follows at most 2 log2(n+1) + 1 links, m successive steps follow 2 m links up to 4 log2(n+1), and a pass over all elements follows at most 2 n. Inserting an object, copied or moved, makes at most two rotations and log2(n+1) passes of the rebalancing loop, also if the construction fails. Erasing an element makes at most three rotations and 2 log2(n) passes.", "quantifier": "every class of elements, every tree that any history of calls can produce, every position, every element, comparator and failure", "why_tests_cant": "bounds for all tree shapes and all element classes, nested containers included", "anchors": ["nestl/implementation/detail/red_black_tree.hpp: rb_tree_increment, rb_tree_decrement, rb_tree_insert_and_rebalance, rb_tree_rebalance_for_erase, m_insert_unique, erase", "nestl/implementation/set.hpp: insert_nothrow, erase"]}
{"id": "C126", "title": "Every way of inserting rebalances in constant rotations", "statement": "All insertions of a tree (unique keys or equivalent ones, before or after the equivalent elements, copied or emplaced, without a hint or with any iterator of the tree as the hint) make at most two rotations and at most log2(n+1) passes of the rebalancing loop in a tree of n elements, also when they fail for lack of memory or find the key present.", "quantifier": "every tree that any history of calls can produce, all nine ways of inserting, every value, every hint that is an iterator of the tree (with a comparator that is asymmetric on the value), every failure", "why_tests_cant": "the hinted and lower-end insertions choose their place by different searches, and the worst shapes are unbounded", "anchors": ["nestl/implementation/detail/red_black_tree.hpp: m_insert_unique, m_insert_equal, m_insert_equal_lower, m_insert_unique_at, m_insert_equal_at, m_emplace_unique, m_emplace_equal, m_emplace_hint_unique, m_emplace_hint_equal"]}
{"id": "C127", "title": "Cost of inserting a range into a tree", "statement": "Inserting a range of m values into a tree of n elements, dropping or keeping equivalent keys, makes at most m (2 log2(n+m+1) + 5) comparisons, 2 m rotations and 7 m + 2 n passes of the rebalancing loop in any order of the values. If the range is sorted and belongs after the elements of the tree, in particular if a tree is filled from a sorted range, 2 m comparisons suffice, so the whole call takes linear time; the values are then appended in order, all of them unless an error is reported.", "quantifier": "every tree that any history of calls can produce, every range, every asymmetric comparator, every point at which memory or a constructor fails", "why_tests_cant": "sums over ranges of every length inserted into every tree shape", "anchors": ["nestl/implementation/detail/red_black_tree.hpp: m_insert_unique(err, first, last), m_insert_equal(first, last), m_insert_unique_at, m_insert_equal_at, m_get_insert_hint_unique_pos, m_get_insert_hint_equal_pos"]}
{"id": "C128", "title": "Cost of erasing ranges and keys", "statement": "Erasing a range of m elements of a set or tree of n elements, or a key with m equivalent elements, makes at most 3 m rotations and 12 m + 2 n passes of the rebalancing loop; the elements outside the range stay.", "quantifier": "every tree that any history of calls can produce, every range of its elements, every key and comparator", "why_tests_cant": "sums over ranges of every length in every tree shape", "anchors": ["nestl/implementation/detail/red_black_tree.hpp: erase(first, last), erase(const Key&), m_erase_aux", "nestl/implementation/set.hpp: erase"]}
{"id": "C129", "title": "The recursion of trees of objects is logarithmic", "statement": "If no tree of objects has more than n elements, every call (copying, assigning, clearing, erasing ranges and keys, destroying) needs at most 2 log2 (n + 1) + 2 nested activations of the recursive functions of the tree, also when an allocation or the constructor of an element fails half way; with that much room a call has exactly the result it has with an unlimited stack. A tree of 4^d or more elements cannot be cleared or destroyed with d + 1 activations.", "quantifier": "every element type whose operations do what they should, every reachable state, every valid call, every pattern of refused allocations and constructions", "why_tests_cant": "the depth must be bounded for trees of every size and shape, and for copies that are given up at any element", "anchors": ["nestl/implementation/detail/red_black_tree.hpp: m_erase, m_copy, clear, copy_nothrow, m_move_assign, erase", "nestl/implementation/set.hpp: copy, clear, erase"]}
{"id": "C130", "title": "Growth of vectors of objects is geometric", "statement": "n successful calls of push_back (copying or moving their argument) on a vector of m objects construct at most n + 3 (m + n) elements in total, the copies made when the vector is relocated included, and make at most 2 log2 (m + n + 1) requests for memory. A single push_back, successful or not, constructs at most one element if the vector has spare room, and at most one more than it has elements if it is full.", "quantifier": "every element type whose operations do what they should, every number that grows by at most one with every construction, every reachable state, every n and m, every mixture of copies and moves", "why_tests_cant": "the bound is on the total over histories of every length from every reachable state", "anchors": ["nestl/implementation/vector.hpp: push_back_nothrow, insert_value, grow, do_reserve", "nestl/detail/uninitialised_copy.hpp", "nestl/detail/destroy.hpp"]}
{"id": "C131", "title": "Number of elements the calls of vectors of objects construct", "statement": "Every call on a vector of objects, whether it succeeds or fails, constructs at most this many elements: creating, clearing, swapping, moving and destroying vectors construct none; reserve and shrink_to_fit at most one per element, and none if the capacity stays; resize none when it shrinks and at most the new size when it grows; assignments and copies at most one per assigned element; push_back one, and one per element more if the vector is full; an insertion one for the new element and one for every element behind the position, and one per element more if the vector is full.", "quantifier": "every element type whose operations do what they should, every number that grows by at most one with every construction, every reachable state, every valid call, every failure of allocations and copies", "why_tests_cant": "the bounds hold for every size, capacity and point of failure", "anchors": ["nestl/implementation/vector.hpp: push_back_nothrow, insert_value, grow, do_reserve, do_resize, assign_nothrow, assign_iterator, copy_nothrow, move_assign, clear", "nestl/detail/uninitialised_copy.hpp", "nestl/detail/destroy.hpp"]}
{"id": "C132", "title": "Cost of inserting ranges into vectors of objects", "statement": "Inserting a range of n objects in front of the element i of a vector of m objects constructs at most n (m - i + 1) + 3 (m + n) elements, the copies made when elements are shifted and relocated included, and makes at most 2 log2 (m + n + 1) requests for memory, whether it succeeds or fails.", "quantifier": "every element type whose operations do what they should, every number that grows by at most one with every construction, every reachable state, every position, every valid range, every failure of allocations and copies", "why_tests_cant": "the bound holds for every size, capacity, position, range and point of failure", "anchors": ["nestl/implementation/vector.hpp: insert_nothrow, insert_range, insert_value, grow, do_reserve", "nestl/detail/uninitialised_copy.hpp"]}
{"id": "C133", "title": "Elements that calls of lists and trees of objects construct", "statement": "A call of a list or a tree of objects constructs at most one element for every position it adds: a call of a list that adds n positions constructs at most n elements, and erasures, moves, swap, splice, merge, sort and lookups construct none. An insertion into a tree constructs at most one element; a successful insert of a key that is there constructs none. Copying a tree constructs at most as many elements as the source has. Inserting a range of n objects into a set constructs at most n elements. Move assignment of sets constructs nothing if the allocator propagates or the allocators are equal, and otherwise at most one element for every element of the source. All this also holds if the call fails.", "quantifier": "every element type whose operations do what they should, every number that grows by at most one with every construction, every comparator that constructs no elements, every reachable state, every call with its arguments, every failure of allocations and copies", "why_tests_cant": "the bound holds for every size, shape, argument and point of failure", "anchors": ["nestl/implementation/list.hpp: create_node, insert_nothrow, assign_nothrow, copy_nothrow, merge, sort, splice", "nestl/implementation/detail/red_black_tree.hpp: m_create_node, m_insert_unique, m_emplace_unique, m_copy"]}
