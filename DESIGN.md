# Formal model of nestl — design

Source: `/repo` (prograholic/nestl, pinned commit), read as text only; nothing was compiled or run.
Model and proofs: `/verif/lean/Verif/**` (Lean 4.33.0).  Properties: `properties.jsonl`.  Status: `MANIFEST.json`.

## 1. Trusted base

* Lean's kernel; axioms allowed: `propext`, `Classical.choice`, `Quot.sound` (no axioms of our own, no
  `sorry`, no `native_decide`/`bv_decide`).
* The faithfulness of the hand-written model to the C++ text.  Every definition cites file and lines and states
  its simplifications.
* The small specification definitions that statements use (sorted lists, reference state machines on `List`).

## 2. Common model (Verif/Base.lean)

* **Execution monad** `M σ α := StateT σ (ExceptT Fault Option) α`.  `.error f` is undefined behaviour or a
  failed assertion (null/dangling dereference, double destroy, freeing a live object, reading raw storage,
  deallocating through a wrong allocator, array overrun, failed `NESTL_CHECK…`/`assert`).  `none` is divergence.
  Loops of unknown length are `partial_fixpoint` definitions, without fuel.  All main theorems use
  total correctness: `wp m s Q` says that `m` run in `s` **terminates without fault** in a state satisfying `Q`.
* **Memory** `heap : Ptr → Option cell`.  `none` = not allocated; any access faults.  `Ptr = null | stk i | dyn i`;
  `stk` addresses are the container objects themselves (sentinels, tree headers, temporaries).
* **Environment (adversary)**: `env.addr k` answers the k-th allocation request (`none` = out of memory, or an
  address; an address that is in use also means failure, so an allocator can return any free address, including a
  recently freed one); `env.ctor k` decides whether the k-th element construction succeeds.  Theorems quantify over
  all environments, i.e. over every failure pattern.
* **Errors** `err : Option Err` is the in/out `OperationError&` argument.
* Element values are opaque; a slot is raw or holds a value.  Moves are modelled as copies of the value
  (the moved-from value is not distinguished).  The comparator is a pure function (no exceptions from it).
* Concurrency: nestl has none (plain integer counts), so executions are sequential.

## 3. Property plan

| Property | Model | Proof idea |
|---|---|---|
| C01–C05, C07 | `RBTree/*`: node cells with colour/parent/left/right, header cell with count, same functions as `red_black_tree.hpp` | zipper representation predicate; in-order list invariant through rotations; red-black invariant; refinement to sorted `List` |
| C06 | same | in-order list of (address,key) pairs changes only at the inserted/erased element |
| C08 | `increment`/`decrement` | in-order neighbours in zipper |
| C09 | comparison counter in the state | black-height argument |
| C10, C45 | create_node with guard | heap equality on failure |
| C11 | `m_erase` recursion/loop | induction on the represented tree |
| C12, C13 | move ctor, `m_copy` with guards | relinking; induction with failure points |
| C14 | no hypothesis on `lt` | structural part of C01 separated from ordering |
| C15 | bound queries | zipper search |
| C16, C65–C67 | `RBTree/ModelExtra`: hinted insertion, emplacement, range insertion | a search result is a hole of the tree or an equivalent element, and this is unique; the rest of the insertion calls no comparator (`NoCmp`), so equal positions give equal memory |
| C68–C71 | `RBTree/ModelEqual`, `Multi/*`: insertion next to equivalent elements on top of the set model | the same insertion at a hole; weakly sorted in-order list; refinement to sequences of keys (`seqRun`), where iterator arguments are counted by the client as indices |
| C84 | `RBTree/HintAny`, `RBTree/HintBad`, `Full/HintProps`: all insertions of a key that may be present | without an order the search result is still a hole of the tree on the side that the re-evaluated comparison chooses, if the comparator is asymmetric; otherwise symbolic execution on a tree of two nodes shows the loss |
| C85 | `Quiet`, `Told`, `RBTree/Quiet`, `RBTree/Told`, `LinkedList/Told`, `Vector/Told`, `Report`: all client calls of trees, lists, vectors | three program predicates closed under sequencing, branching and recursion (fixpoint induction): a quiet program requests nothing; a program that starts with an error set requests nothing; a program that starts with a fresh error object ends with a truthful report. For vectors a request may also be refused for its size; `Vector/Sized`, `Vector/SizedProps` follow size and capacity through the calls, so the sizes of all requests are known from what a client can observe |
| C86 | `Stack`, `RBTree/ModelDepth`, `RBTree/Depth`, `RBTree/DepthOps`, `Full/DepthClient`, `Full/Depth`: the recursive functions with a bounded number of activations, all client calls | the bounded programs refine the unbounded ones (`Sub`, fixpoint induction) and agree with them if the nesting depth of right subtrees fits; black height bounds this depth from above and below |
| C87 | `SharedPtr/ModelDepth`, `SharedPtr/Depth`, `SharedPtr/DepthProps`: `release` with a bounded number of nested activations, all client calls | simulation: the bounded program runs as the unbounded one while the set of objects that are still owned shrinks with every nested activation; lower bound by induction along a chain of objects; chains of every length are built with `make_shared` and `swap` |
| C88 | `Threads/Model`, `Threads/Inv`, `Threads/Props`, `Threads/Seq` (the split functions, run without interruption, do what the functions of the model in `SharedPtr/` do): small-step interleaving of any number of threads, the functions of the control block split into single memory accesses (sequentially consistent) | violated: explicit schedules (`race_copy`, `race_leak`, `race_counters`, `race_counters_weak`, `race_lock`); with a lock around these functions: invariant relating the counters, the position of the thread inside and the total number of smart pointers; with a single counting thread: every run is also a run with the lock |
| C89 | `ReadOnly` (programs that read a set of cells and write nothing), `RBTree/Readers` (the queries are such programs), `Full/Query` | every query is proved correct in the heap restricted to the cells of its objects, so it reads only those; the frame of every call (`FEffect.frame`) gives the independence of calls on other objects |
| C90 | `LinkedList/Readers`, `LinkedList/Query` | as C89: every query is proved correct in the heap restricted to the cells of its objects; the specification of every call (`Spec.frame`) gives the independence of calls on other lists |
| C91 | `Vector/Readers`, `Vector/Query`, `Vector/Sim` (`exec_fsim`: effect of every call with its frame) | as C89 |
| C92 | `Own/Model` (the comparator of every object as part of the state), `Own/Client`, `Own/Steps`, `Own/Props` | simulation: the programs with stored comparators act on memory as those of `Full/` with the comparator of the object (`osim`); the invariants are split into the structure of memory, which does not depend on the order, and the order of every tree; partial: the code violates the property for refused move assignments (witness `refused_move_assign_breaks_order`) |
| C93 | `Alias/Base` (programs that do the same where an assertion holds), `LinkedList/Alias`, `RBTree/Alias` (the functions with an argument that is read from a node whenever it is used), `LinkedList/AliasProps`, `Full/Alias` | the node is shown to keep its value until the last use of the argument; hence the programs with a reference and with a value are equal on such states (fixpoint induction in both directions for the loops); the corresponding property of vector is violated (C41, C42) |
| C94 | `Own/Any` on top of `Own/*`; the effect relations `EffectS`, `MEffectS`, `FEffectS` have a parameter `S` that guards all facts about the order | `S := False`: every call is safe on every well-formed tree with any comparator function; induction over histories in which the comparators change arbitrarily between calls; a specification `Loose` of what may happen to the elements |
| C95 | `Local`, `Fixed`, `RBTree/Local`, `LinkedList/Local`, `LinkedList/Separate`, `Vector/Local`, `Vector/Separate`, `Full/Local` | the frame property of separation logic proved for every primitive and every function (`Local`: a run in a small memory is also a run beside any other memory); the objects of a call alone form a state that satisfies the invariant, so the call runs there, and the run is carried to every state that contains these objects; exchange of two calls follows from two applications |
| C96 | `VectorOf/Model`, `Rel`, `Leaf`, `Elems`, `Funs`, `Client`, `Inv`, `Step`, `Props`, `Nest`, `Lists`, `Shared`, `NestProps` | the functions of `vector` are written for an abstract element class (`ElemOps`) with a contract (`Elem`: what default construction, copy, move and destruction do to the values of objects); every run is simulated by a run of the vector of values (C30 ff.) for suitable answers of its constructors, so all its theorems carry over; `vector` itself is shown to meet the contract, so nesting is induction; `list` and `shared_ptr` are shown to meet it too |
| C97 | `NodeOf/Base`, `Rel`, `Elems`; `ListOf/Model`, `Links`, `Funs`, `Client`, `Inv`, `Step`, `Props`, `Nest`, `NestProps` | as C96, for containers of nodes: `NodeOf` relates programs on nodes that hold the address of their element to programs on nodes that hold values (programs that only touch links do the same to both; construction, destruction and comparison go through the contract of the element class); the functions of `list` are simulated by those of the list of values, so its specification carries over; predicates that only depend on which object is in which node show that relinking calls leave every element where it is; `list` meets the contract itself, so nested containers of any mixture are covered by induction over the type expression |
| C98 | `NodeOf/More`; `TreeOf/Model`, `Links`, `Funs`, `Build`, `Client`, `Abs`, `Inv`, `Step`, `PropLemmas`, `Props` | as C97, for the red-black tree: rotations, rebalancing and iteration only touch links and do the same to nodes with addresses and to nodes with values; searches compare objects through the contract of the comparator; the functions of `rb_tree` on objects are simulated by those on values (C01 ff.), whose effects give a specification on sequences of values (`Spec`); predicates that only depend on which object is in which node show that queries, move construction and swap leave every element where it is; the order of the elements is preserved by every call of the specification |
| C99 | `TreeOf/Nest`, `NestOrder`, `NestProps` | the set of objects of C98 meets the contract of an element class itself, so the theorems of C96-C98 apply to every type built from `vector`, `list` and `set` (`Ty`), by recursion on the type; the comparisons of trees meet the contract of a comparator (`Compares`), and the lexicographic order of a strict weak order is shown to be one. nestl has no `two_phase_initializator` for `set`: calls that copy sets as elements assume that the client specialises it with `copy_nothrow`, as list.hpp does for `list`; calls that only move elements do not need it |
| C100 | `NodeOf/Does`, `ListOf/Refs`, `ListOf/RefProps`, `TreeOf/Refs`, `TreeOf/RefProps` | relational: functions that only follow and change links keep which node holds which object (`Link`); destruction removes objects from nodes (`Fewer`), construction only adds them (`More`), `assign` and `copy_nothrow` of lists first add and then remove; `emplace` into a tree may remove the node it has just made (`Spare`) |
| C101 | `NodeOf/Does`, `ListOf/RefProps`, `TreeOf/RefProps` | relational: every step of every function stands in the relation `Blame` (the environment is the same, counters grow, new nodes come from requests, an error has a cause, success means that every request was served), which is reflexive and transitive; `d_exec` lifts it to all calls |
| C102 | `VectorOf/Runs`, `VectorOf/Foot`, `VectorOf/Sums`, `VectorOf/RefProps` | relational: `Works` (a block changes above an index only), `Moved` (a reallocation has failed and nothing changed, or the block is a new one), `Added`, `Foot` (of the memory in use only the vector object and its block change); equal cells mean equal objects (`same_els`).  The failing `push_back` on a full vector is proved to be a counterexample (`vectorOf_references_push_failed`): `insert_value` grows first (vector.hpp:707-714) and constructs the new element in the new block |
| C103 | `VectorOf/Runs`, `VectorOf/Asks`, `VectorOf/Foot`, `VectorOf/Sums`, `VectorOf/RefProps` | relational: `Fair E ask s s'` says that a program makes the request `ask` or none, and what its error means; `Calm` programs make none; `NInv.sum` gives the request of every call; the specification `Asks` is stated with `size()` and `capacity()` |
| C104 | `Vector/Anywhere`, `VectorOf/Insert`, `VectorOf/InsertRuns`, `VectorOf/InsertLemmas`, `VectorOf/InsertProps` | simulation by insertions into vectors of values under any pattern of failing constructors (`VC.wp_insertAny`: the other memory is unchanged even if the vector is broken); relational footprint (`Placed`) for the identity of objects and the requests.  Violated for copies that fail while elements are shifted (`vectorOf_insert_failure_violated`, the counterpart of C33), hence `vectorOf_insert_partial`; complete if copies cannot fail (`vectorOf_insert_sure`) |
| C105 | `VectorOf/Range`, `VectorOf/RangeProps` | induction over the range; every step is an insertion of C104, and since the other vectors and the objects of the client are left alone, the rest of the range keeps its values and addresses.  Violated for failures in front of an element (`vectorOf_range_failure_violated`), hence `vectorOf_range_partial` |
| C106 | `VectorOf/ThrowsModel`, `VectorOf/Throws`, `VectorOf/ThrowsProps`, `ListOf/ThrowsModel`, `ListOf/Throws`, `ListOf/ThrowsProps`, `ListOf/ThrowsWrong` | the throwing functions are sequences of the calls of C96 and C97 (`call_all` bundles refinement, client objects and references of one call); strong guarantee by composition.  Violated for assignment to non-empty lists with another allocator (`listOf_throws_assign_wrong_allocator`, `listOf_throws_assign_violated`), hence `listOf_throws_assign_partial` |
| C107 | `Errors/Model`, `Errors/Props`: both classes of error objects; `std::exception_ptr` as numbers of exception objects, `std::make_exception_ptr` with an oracle for its failures | induction over programs (branching on the tests) against the error objects of this model (`Option Err`), which justifies their use in all other modules; induction over histories for `throw_exception` |
| C108 | `VectorOf/Weak` (`weak_ptr` as an element class), `TreeOf/WeakProps` | instance of the contract `Elem` of C96, C97 and C99 whose `rest` contains all `shared_ptr`s, members and managed objects; nothing is doomed by calls that only move `weak_ptr`s (C50); induction over the nesting |
| C109 | `VectorOf/Equal` (`operator==` of vectors of objects), `TreeOf/EqProps` | loop invariant over the compared prefix; each `operator==` meets the contract `Compares` of a comparison if that of its elements does; induction over the nesting |
| C110 | `TreeOf/OrderProps` (`operator!=`, `>`, `<=`, `>=` of trees) | from C98 (`==` and `<` compute equality and the lexicographic order); trichotomy of the lexicographic order by induction over both sequences |
| C111 | `Own/Assign` (`set::operator=(set&&)` with the fallback that inserts element by element; by intent) | from C73/C92/C94 per call; induction over the elements not yet transferred; **violated**: the fallback cannot report a failed allocation, empties the source all the same, and the elements are lost (witness) |
| C112 | counters of requests and constructions in every call (`Grows`, `LinkedList/Asks`, `RBTree/Asks`, `RBTree/AsksCopy`, `Full/Asks`) | compositional rules: `Costs i j` (a number known in advance), `Grows` (the new cells of the heap are exactly the answered requests), compared with the representation before and after the call; upper bounds also for failing calls |
| C113 | node requests of lists and trees of objects (`ListOf/Asks`, `TreeOf/Asks`) | the simulation of containers of objects by containers of values keeps the number of node requests and whether an error is reported, so C112 (proved for every state that satisfies the invariant) carries over; the number of elements is the same in both |
| C114 | calls of the comparator in trees and lists of objects (`ListOf/Costs`, `TreeOf/Costs`) | the simulation keeps the number of comparator calls; the height bound and the merge and sort bounds of the value models carry over |
| C115 | requests and constructions of vector calls (`Vector/Asks`, `Vector/AsksProps`) | the counters are followed through the runs of the programs, knowing only the members of the vector object; ranges: the growth invariant of C36, for runs that may fail |
| C116 | calls that call no comparator (`Mute`, `RBTree/Mute`, `LinkedList/Mute`, `Full/Costs`, `LinkedList/Costs`, `TreeOf/Costs`, `ListOf/Costs`) | structural program logic of programs that leave the comparison counter alone; erasing keys: induction over the array with the height bound; objects: by the simulation |
| C117 | move construction with an allocator (`RBTree/ModelMove`, `Full/MoveAlloc`) | equal allocators: the run is the run of the move constructor; different ones: specification of `m_copy`; violated if a node of the copy is refused (assertion of `s_minimum` on a null root): fault proved for every such state |
| C118 | the public interface of set with a comparator in every object and `set::operator=(set&&)` (`Own/SetProgram`) | histories of calls; invariant: keys of every object are those of the specification and strictly increasing for its comparator; the specification leaves open which first elements survive if move assignment throws an error away |
| C119 | `m_insert_unique(err, first, last)` and `set::operator=(set&&)` for sets of objects (`TreeOf/Range`) | induction over the range, each step is a call of C98; values of the set by `addAll` (C67); move assignment is partial: elements that cannot be copied are lost without a report, and self-assignment clears the set |
| C120 | `m_insert_equal`, `m_insert_equal_at`, range `m_insert_equal` (by intent: with the missing error argument; `RBTree/ModelEqual`, `Multi/Value`) | the effect of one insertion is that of `m_emplace_equal`/`m_emplace_hint_equal` (C68); induction over the range; histories refine sequences of keys |
| C121 | `rb_tree_increment`, `rb_tree_decrement` with a counter of links (`RBTree/ModelSteps`); that dropping the counter gives the functions of `RBTree/Model` is proved | every position gets a potential (its place in the Euler tour of the tree); one move costs exactly the difference of potentials, so the costs of successive moves telescope; the potential of position i is 2 i up to the height |
| C122 | `rb_tree_insert_and_rebalance`, `rb_tree_rebalance_for_erase`, `m_insert_`, `m_insert_unique`, `erase(iterator)` with counters of rotations and passes (`RBTree/ModelRot`); that dropping the counters gives the functions of `RBTree/Model` is proved | the zipper invariants of C01/C04, with: after a rotation of an insertion the parent is black, after the rotation for a red sibling the loop stops; a hole of depth d has at least 2^(d/2) nodes around it |
| C123 | the counted functions of C122 (`RBTree/ModelRot`) | a potential (`RBTree/Phi`): a black node counts two with two red children, one with two black ones, nothing with one of each. Every pass but a constant number lowers it, every operation raises it by at most a constant; it is at most twice the number of elements |
| C124 | `__rb_verify` on trees of objects (`TreeOf/Verify`): comparisons are programs on the objects the nodes hold; `rb_tree_black_count` by intent, as for C75 | simulation of the self check of trees of values (C75) |
| C125 | counted insertion and erasure of objects (`TreeOf/WalkCost`): the programs of C98, which additionally return rotations and passes; iterators as for C121 | the tree of nodes is a tree of addresses, so the bounds of C121 and C122 apply; insertion by simulation of the counted insertion of values |
| C126 | all insertions with counters of rotations and passes (`RBTree/ModelRotAll`); that dropping the counters gives the functions of `RBTree/Model`, `ModelEqual` and `ModelExtra` is proved | the searches of C84 and of the insertions of equivalent elements end at a free place of the tree, where linking costs what C122 says; the same bound carries the potential, so C123 counts all these insertions |
| C127 | the range insertions with counters (`RBTree/ModelRotAll`: `insertRangeByN`); the insertion that keeps equivalent keys with the error argument that it lacks in the source, as for C120 | induction over the range; each step adds at most 7 to the potential of C123; at the end of the tree the hint `end()` is right, so the place is found with one comparison and the side with another |
| C128 | `erase(first, last)` and `erase(key)` with counters (`RBTree/RotErase`); the runs of the counted and of the plain function end in the same state | induction over the range with the cost and the potential of one erasure (C122, C123) |
| C129 | the recursive functions of trees of objects with room for `d` activations (`TreeOf/ModelDepth`); activations inside the constructors and destructors of the elements are not counted | simulation of the bounded functions by those of trees of values (C86) by induction on `d`; what runs on the bounded stack runs on the unlimited one; for the lower bound, the way to the right of a red-black tree is as long as its black height |
| C130 | the model of vectors of objects (`VectorOf/Model`), unchanged; `Counts` says what a count of constructions is | bound of the constructions made by every part of `push_back`, by induction on the loops; then the potential argument of C36 along the history, with the capacities and requests of C102 |
| C131 | the model of vectors of objects (`VectorOf/Model`, `VectorOf/Client`), unchanged; `Call.Bound` gives the bound of every call in terms of the sizes and capacities the client sees | bound of the constructions of every function by induction on its loops; the loops of the assignments never reallocate, because `grow` has made room before |
| C132 | the model of vectors of objects with the insertion of ranges (`VectorOf/Model`, `VectorOf/Range`), unchanged | induction on the range: every step is an insertion from a reachable state (C105) and costs what C131 says; the potential argument of C36 for the relocations |
| C133 | the models of lists and trees of objects, unchanged | every program constructs at most one element for every node it requests (`NodeOf/Within`), by following its structure, with fixpoint induction for the loops; the number of nodes requested is that of C113; ranges by induction, move assignment of sets as in C119 |
| C72–C76 | `RBTree/ModelSwap`, `Full/*`: exchange, move assignment, comparison, self check, erasing an array of keys on top of the multiset model | two-object change lemma (`Change2`) keeps the invariant; iteration of both sequences for the comparisons; black counts by induction on the path for the self check; refinement to sequences (`famRun`) |
| C17–C20, C26–C30 | `List/*`: circular doubly linked cells with sentinel in the heap | chain predicate; refinement to `List` over any number of lists |
| C21, C23 | range insert, range splice | the code violates the property: negation proved with witness + what does hold |
| C22, C24, C25 | splice, merge, sort with its 64 bins | chain surgery; abstract merge; binary counter invariant |
| C61, C62 | self copy; comparison counter | the code violates C61 (undefined behaviour); counting merges per level for C62 |
| C31–C44, C63 | `Vector/*`: blocks of slots, offsets, `size_t` arithmetic mod 2^64 | slot-state invariants; refinement to `List`; negations for C33, C35, C41, C42, C44, C63 |
| C46–C48 | `Helpers/UninitCopy` (on the vector model), `Helpers/Construct` (raw/live/initialised storage, fallible second phase), `Algorithm/*` (ranges of cells walked by any `next`) | induction on ranges; case analysis of failure points |
| C49–C58 | `SharedPtr/*`: control blocks with counts and value state, handle variables, objects owning handles | counting invariant; negations for C52–C56 |
| C77 | `Vec.insertRange`, `Vec.clear` (by intent) | induction over the range with the effect of one positional insertion (`PutAll`) |
| C78, C79 | `LL.eraseRange`, `LL.moveAssign` (by intent) | induction over the range; composition of move construction, exchange and destruction; negation for different allocators |
| C80–C83 | `Nested/*`: list of lists; two memories with one error object, elements constructed in two phases (`class_operations::construct`) | simulation of both levels with the list invariants plus `Linked` (elements are distinct live inner lists); ownership invariant over histories; the lists determine the memory, hence exact restoration on failure |
| C49, C50 | `SharedPtr/Any*`, `Props4`: the same model without validity conditions on the calls (`Hist`) | partial-correctness rules `pw` for executions that return; use counts survive even the defective calls |
| C64 | `makeShared` records the allocator of the block | negation |
| C59 | `Exceptions/*`: throwing functions return `Except Err α` and run the nothrow functions of the list and vector models; destructors run on the throwing path | composition of the effects of the nothrow calls; the lists/vectors determine the memory, so "unchanged" is equality of memory; negation for list copy assignment |

Where the code does not satisfy a property we prove the negation with a concrete witness run, and keep a
`_partial` theorem for the part that holds.

## 4. Discrepancies found while reading (to be proved)

* vector: failing copy in the middle of a positional insert leaves a destroyed slot inside `[begin,end)` (C33);
  `push_back(v[i])` at full capacity reads freed memory (C41); insert/resize with aliased value (C42);
  `n*sizeof(T)` wraps in `allocator::allocate`, so `reserve` can report success with a too small block (C35);
  `assign` replaces the allocator by a default one and move assignment takes the block but not the allocator (C44);
  `resize` to a larger size always reallocates (C63); the `length_error` branch of `reserve` is dead.
  All proved in `Vector/Props*.lean`.
* list: range insert reverses the range (C21); range splice with `pos==last` (C23); `swap`/`assign` leave
  allocators in place (C29); `copy_nothrow` from itself is undefined behaviour (C61); move assignment
  takes the nodes but not the allocator (C79).  All proved in `LinkedList/Props*.lean`.
* tree: hinted insertion compares the key twice with the same element in opposite directions; with a comparator that is not
  asymmetric (such as `<=`) it overwrites a child pointer and leaks a node, whereas plain insertion is safe for every comparator
  (C14, C84; `Full/HintProps.lean`).
* tree: `m_move_assign` assigns the comparator before it decides whether the elements can be moved; if it refuses, the elements
  are in the order of the old comparator and `find` misses elements (C92; `Own/Props.lean`).
* set: if the allocators differ, `set::operator=(set&&)` transfers the elements one by one and then clears the source even if an
  allocation failed: the elements are lost and no error is reported (C111, `Own/Assign.lean`; for sets of objects C119, `TreeOf/Range.lean`).
* set: on failure `insert_nothrow` returns `{end(), true}` (C02: flag not meaningful on failure).
* rb_tree: move construction with a different allocator copies the elements but cannot report a failure; if a node is refused it
  takes the minimum of a null root (C117, `Full/MoveAlloc.lean`).
* weak_ptr: `lock()` on expired resurrects (C52); move-assign does not clear the source (C53); self copy-assign of a
  sole expired handle (C54); object with weak_ptr to itself (C55); `head = std::move(head->next)` (C56).
* make_shared ignores its allocator argument (C64) and skips the control block destructor on failure (C57); with a stale
  error it leaks the raw block (C45).
* A pre-set `err` makes `do_reserve`/`create_node` leak the fresh block (C45; `Vector/Props4.lean`, `StaleError.lean`).

* `class_operations::construct` (two-phase) and `uninitialised_copy` leave live objects behind when `err` is set on entry
  (`Helpers/*.lean`); vector's `two_phase_initializator` names its method `construct` instead of `init`, so a vector of
  vectors cannot be copied (compile time; C96 takes the name to be `init`).
* vector: growth copies the elements even if they could be moved; with nested containers this is a deep copy, and references into
  inner containers become invalid (C96, `VectorOf/NestProps.lean`).

* The counters of `shared_ptr` are not synchronised and the tests are separate from the decrements: copies of a `shared_ptr` must
  not be used in several threads without a lock, and `lock()` after `!expired()` not at all (C88, `Threads/Props.lean`).

* `has_exceptions::list::operator=` swaps with a copy that has a default constructed allocator: nodes are returned to the
  wrong allocator (C59, `Exceptions/List.lean`).

Found by reading to be ill-formed if instantiated (hence modelled by intent or left out): `vector::clear`, range
insert of vector, `list::erase(first,last)`, `list::operator=(list&&)`, `set::copy_nothrow`, `set::operator=`,
`rb_tree::swap` (`_S_on_swap`), `rb_tree::m_move_assign` (`_S_propagate_on_move_assign`, `_S_always_equal`), `rb_tree(rb_tree&&, allocator)` and
`m_move_data(false_type)` (`s_always_equal`; `m_copy` without error argument), `__rb_verify`
(`rb_tree_black_count` has no body), `crbegin/crend`, `rb_tree::m_insert_equal`, `m_insert_equal_at`, range `m_insert_equal` (missing
error argument; by intent, C120); declared but not defined: `vector::insert(count)`, `emplace`, `erase_nothrow`,
`pop_back`, `list::resize/remove/reverse/unique`.

Vector model in particular: iterators are offsets from `m_start`; `sizeof(T) < 2^60`; no allocator delivers a block of more
than 2^62 bytes (any request above fails); moving an element is copying it (in `VectorOf/*` elements are objects of a class with
copy, move and destructor).

## 5. Not modelled

Template machinery (traits, SFINAE, allocator rebind), object representation/alignment, iterator category
dispatch beyond the stated algorithm, move semantics of elements (except in nested lists, `VectorOf/*`, `ListOf/*` and `TreeOf/*`), `string.hpp` (empty class), platform code.
