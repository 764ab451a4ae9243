{"id": "C01", "title": "ArcIntern: pointer equality is value equality", "statement": "At every instant of every concurrent execution, for any two existing ArcIntern<T> handles a and b, `a == b` (a pointer comparison) is true exactly when the values they dereference to are equal under T's Eq.", "quantifier": "all numbers of threads, all interleavings of new/from/clone/drop at atomic-operation granularity, all allocator choices including address reuse, all panics of user Hash/Eq inside a lookup, all value types with lawful Eq+Hash (Eq may be coarser than identity), all pairs of handles, including handles stored inside other interned values", "why_tests_cant": "The guarantee fails only in narrow races between the last drop and a concurrent new; stress tests sample a vanishing fraction of interleavings.", "anchors": ["src/arc.rs: ArcIntern::new, Drop::drop, Clone::clone, PartialEq::eq", "src/arc_dst.rs: new_with_copyable_init_val"]}
{"id": "C02", "title": "ArcIntern: no use after free, no double free", "statement": "No step of ArcIntern code (new, clone, drop, deref, refcount, len) ever reads, writes or frees an object that has already been freed, and every existing handle points to an object that is still allocated and still registered.", "quantifier": "all reachable states and all next steps of any thread, for all interleavings, allocator choices and user Hash/Eq panics during lookup or removal (panics inside the table insertion itself are C19), as long as no object has 2^64 handles (C18)", "why_tests_cant": "Memory errors need a specific interleaving; the project itself notes miri cannot run on dashmap.", "anchors": ["src/arc.rs: ArcIntern::new, Drop::drop, Clone::clone, refcount, AsRef::as_ref"]}
{"id": "C03", "title": "ArcIntern: refcount() is exact", "statement": "The counter that refcount() reads on an existing handle is at every instant exactly the number of handles to that object existing at that instant; which older values the load may return on hardware is C58 (a handle being created exists from its successful increment or insertion, a handle being dropped until its decrement).", "quantifier": "all reachable states, all interleavings, all handles, bounded only by fewer than 2^64 handles per object", "why_tests_cant": "Transient increments done and undone by a racing new must never be visible through a live handle; this depends on the interleaving.", "anchors": ["src/arc.rs: refcount, ArcIntern::new lines 231-241, Clone::clone, Drop::drop"]}
{"id": "C04", "title": "ArcIntern: nothing leaks once everything is dropped", "statement": "Whenever no operation is in progress and no client holds a handle, num_objects_interned() is 0 and every allocation made by the interner has been freed, even when interned values themselves contained handles to other interned values. (Proviso: no user Hash/Eq panic occurred inside a drop.)", "quantifier": "all histories of all lengths on any number of threads ending in a quiescent state", "why_tests_cant": "Leaks depend on which thread wins each race in the history; tests check a few fixed programs.", "anchors": ["src/arc.rs: Drop::drop, num_objects_interned, ArcIntern::new"]}
{"id": "C05", "title": "ArcIntern: quiescent size is the number of distinct live values", "statement": "Whenever no operation is in progress, the registered objects are exactly the objects some existing handle points to, so num_objects_interned() equals the number of pairwise-different values with at least one existing handle.", "quantifier": "all histories ending in a quiescent state without drop panics", "why_tests_cant": "Holds for every history, including ones with races between insertion, retry and removal.", "anchors": ["src/arc.rs: num_objects_interned, Drop::drop"]}
{"id": "C06", "title": "ArcIntern: new returns a live object equal to its argument", "statement": "When ArcIntern::new(v) (or from_ref, From, Default, the unsized constructors) returns h, h dereferences to a value equal to v, the object has a positive count that includes h, and no thread is about to remove or free that object.", "quantifier": "all interleavings with concurrent drops of the last handle to an equal value; all values", "why_tests_cant": "The hazard is the resurrection race: finding an object whose count has just hit zero.", "anchors": ["src/arc.rs: ArcIntern::new lines 224-269", "src/arc_dst.rs: new_with_copyable_init_val lines 68-118"]}
{"id": "C07", "title": "ArcIntern: a handle's value never changes", "statement": "As long as a handle exists, dereferencing it yields the very same value at every later instant; other threads' interning, cloning, dropping or shrinking never changes or replaces it.", "quantifier": "all execution suffixes during which the object continuously has at least one handle", "why_tests_cant": "Quantifies over all future executions.", "anchors": ["src/arc.rs: AsRef::as_ref, Deref::deref, shrink_to_fit"]}
{"id": "C08", "title": "ArcIntern: atomic (linearizable) behaviour", "statement": "Every concurrent execution of ArcIntern is, step by step, an execution of an atomic specification whose only actions are: intern a value (return the existing live object with an equal value, else a fresh one), clone a handle, drop a handle. Each operation takes effect exactly once.", "quantifier": "every step of every interleaving from every reachable state", "why_tests_cant": "Linearizability is a statement about all schedules.", "anchors": ["src/arc.rs: ArcIntern::new, Clone::clone, Drop::drop", "src/arc_dst.rs: new_with_copyable_init_val"]}
{"id": "C09", "title": "ArcIntern: every supplied value is stored or dropped exactly once", "statement": "Every allocation and every handle that moves into the interner inside a value is accounted for: a value passed to new is either stored as the unique representative or dropped, and a box allocated speculatively and lost to a race is reused or freed, never leaked and never freed twice.", "quantifier": "all interleavings, including repeated lost races", "why_tests_cant": "Requires counting over unbounded retry loops.", "anchors": ["src/arc.rs: ArcIntern::new lines 257-261, into_inner", "src/arc_dst.rs: lines 75, 96, 106-110"]}
{"id": "C10", "title": "ArcIntern: deadlock freedom", "statement": "In every reachable state in which some operation is unfinished, at least one thread can take a step; a thread is only ever blocked on a lock whose holder can run, and no lock is held while user destructors run.", "quantifier": "all reachable states", "why_tests_cant": "Deadlocks need specific interleavings.", "anchors": ["src/arc.rs: ArcIntern::new, Drop::drop lines 316-322"]}
{"id": "C11", "title": "ArcIntern: every operation can always complete", "statement": "From every reachable state there is a finite continuation, using no new client calls, in which every unfinished operation (new, drop, len) finishes; no reachable state is a livelock trap. (Proviso: no user Hash/Eq panic inside drop; see C20.)", "quantifier": "all reachable states without drop panics", "why_tests_cant": "A statement about all states and the existence of schedules.", "anchors": ["src/arc.rs: ArcIntern::new loop, Drop::drop"]}
{"id": "C12", "title": "ArcIntern: new never retries without interference", "statement": "If a thread runs new(v) with no other thread taking steps, starting when no other operation is in progress, then it has its handle after at most six steps without ever going round its retry loop, and only has to drop its argument. (Proviso: no user Hash/Eq panic inside an earlier drop; see C20.)", "quantifier": "all quiescent reachable states and all values", "why_tests_cant": "Must hold for every table content.", "anchors": ["src/arc.rs: ArcIntern::new loop lines 225-268"]}
{"id": "C13", "title": "ArcIntern: num_objects_interned under concurrency", "statement": "num_objects_interned() is not atomic (it visits shards one after another) but its result is at least the number of objects registered continuously throughout the call and at most the number of objects registered at some point during the call.", "quantifier": "all executions overlapping the call, all numbers of shards", "why_tests_cant": "The result depends on the interleaving with every other operation.", "anchors": ["src/arc.rs: num_objects_interned (DashMap::len)"]}
{"id": "C14", "title": "ArcIntern: one container per type", "statement": "However many threads race to intern the first value of a type, all of them obtain the same container for that type, different types obtain different containers, and the container obtained never changes afterwards. The lookups never panic or deadlock, and no thread changes the table of containers while another one is using a reference into the part that changes.", "quantifier": "all interleavings of container lookups for all types", "why_tests_cant": "First-use races happen once per process; tests almost never hit them.", "anchors": ["src/arc.rs: get_container lines 145-180"]}
{"id": "C15", "title": "ArcIntern: hash-consing", "statement": "For a recursive type whose interned nodes contain ArcIntern children (compared by pointer), two existing handles are == exactly when the trees they represent are structurally equal to any depth.", "quantifier": "all reachable states, all tree shapes and depths", "why_tests_cant": "Induction over unbounded depth and over all histories.", "anchors": ["src/arc.rs: test_arcintern_nested_drop, PartialEq, Hash for ArcIntern"]}
{"id": "C16", "title": "ArcIntern: nested drops are safe and complete", "statement": "Dropping the last handle to a value that itself owns handles drops those too, transitively, without deadlock and without freeing any object that still has another handle.", "quantifier": "all nesting depths and sharing patterns, all interleavings", "why_tests_cant": "Unbounded depth and sharing.", "anchors": ["src/arc.rs: Drop::drop lines 316-322, test_arcintern_nested_drop"]}
{"id": "C17", "title": "ArcIntern: data-race freedom under the documented memory orderings", "statement": "With clone's increment Relaxed, drop's decrement SeqCst, and shard locks acquire/release, every access to an object's data through any handle on any thread happens-before the deallocation of the object.", "quantifier": "all executions of the happens-before (view) semantics: all threads, all handle transfers between threads that synchronise", "why_tests_cant": "Weak-memory behaviours are not controllable by tests and depend on the architecture.", "anchors": ["src/arc.rs: Clone::clone line 279, Drop::drop lines 299-314"]}
{"id": "C18", "title": "ArcIntern: reference count overflow", "statement": "Unlike std::sync::Arc, clone does not guard against counter overflow: below 2^64 simultaneous handles all guarantees hold, but a history with 2^64 leaked (mem::forget) clones followed by one ordinary drop frees the object while handles still exist.", "quantifier": "all histories with fewer than 2^64 handles per object (positive part); existence of a violating history (negative part)", "why_tests_cant": "2^64 operations cannot be run.", "anchors": ["src/arc.rs: Clone::clone line 279, Drop::drop line 299"]}
{"id": "C19", "title": "ArcIntern: a panic inside table insertion is unsound", "statement": "In new, the handle to return is created before the entry is inserted; if insertion panics (a user Hash that panics when the table rehashes), unwinding frees the object and then drops that handle, touching freed memory.", "quantifier": "existence of a violating execution; all other user-panic points in new and drop are safe (C02)", "why_tests_cant": "Requires a panic at one precise call of a user callback.", "anchors": ["src/arc.rs: ArcIntern::new lines 249-256", "src/arc_dst.rs: lines 98-105"]}
{"id": "C20", "title": "ArcIntern: an unfinished or panicked final drop blocks new of that value", "statement": "Between the decrement to zero and the removal, no new() of an equal value can return; if the dropping thread stalls, or user Hash/Eq panics inside drop, every later new() of an equal value spins for ever (and other values are unaffected).", "quantifier": "all executions in which the pending removal does not complete", "why_tests_cant": "Requires reasoning about infinite waiting.", "anchors": ["src/arc.rs: ArcIntern::new lines 237-242, Drop::drop lines 300-322"]}
{"id": "C21", "title": "ArcIntern<[T]>/<str>: allocation layout", "statement": "The hand-computed layout for an unsized reference-counted slice has the counter at offset 0, the elements at an aligned offset that does not overlap the counter, all elements inside the allocation, and is the same size and alignment with which the Box will later be deallocated; construction panics rather than wrapping when the size exceeds isize::MAX.", "quantifier": "all element sizes, all power-of-two alignments, all lengths including zero and zero-sized elements", "why_tests_cant": "Infinite family of (size, align, len); the unit test samples one length and 13 alignments.", "anchors": ["src/arc_dst.rs: RefCount::<[T]>::from_slice lines 24-53, RefCount::<str>::from_str"]}
{"id": "C22", "title": "ArcIntern<[T]>: copy is faithful, allocation failure is not handled", "statement": "from_slice produces an object whose count is 1 and whose elements are exactly the source elements, writing only inside its own allocation; but when the allocator returns null the code does not call handle_alloc_error and writes through null.", "quantifier": "all slices, all allocator outcomes", "why_tests_cant": "Allocation failure and every length/alignment cannot be tested exhaustively.", "anchors": ["src/arc_dst.rs: from_slice lines 33-50"]}
{"id": "C23", "title": "ArcIntern<str>/<[T]>: all conversions give the same handle", "statement": "Interning the same content through &str, String, Box<str>, Arc<str>, Rc<str>, Cow<str> (or the slice equivalents), Default or deserialisation yields equal handles while one of them is alive, and comparing an ArcIntern<str> with any string-like type (in either direction, == and !=) agrees with comparing the contents.", "quantifier": "all contents, all pairs of source representations", "why_tests_cant": "Every pair of conversions times every content.", "anchors": ["src/arc_dst.rs: impl_from!, impl_eq!, From<Cow>, Default, StrVisitor"]}
{"id": "C24", "title": "Intern: pointer equality is value equality, for ever", "statement": "For any two Intern<T> handles obtained anywhere at any time in the process, `a == b` is true exactly when their values are equal.", "quantifier": "all histories of all entry points (new, from_ref, From<&str/&[T]/&Path/&CStr>, From<Box<T>>, From<T>, Default, deserialisation) on all threads, including histories with panicking user code; lawful Eq/Hash/Borrow/From", "why_tests_cant": "Quantifies over all histories and schedules.", "anchors": ["src/intern.rs: new, from_ref, via_box, From<Box<T>>, PartialEq", "src/boxedset.rs: get, insert", "src/container.rs: Arena::with"]}
{"id": "C25", "title": "Intern: values are never freed, moved or changed", "statement": "An Intern handle, once obtained, dereferences to the same value for the rest of every execution, and that value equals what was interned; the first interned representative of each equality class is the one kept.", "quantifier": "all futures of all reachable states", "why_tests_cant": "Quantifies over all futures.", "anchors": ["src/intern.rs: Copy for Intern, as_ref, new"]}
{"id": "C26", "title": "Intern: num_objects_interned counts distinct values", "statement": "Intern::<T>::num_objects_interned() equals the number of distinct values (up to Eq) of type T interned so far; it never decreases and is unaffected by duplicates, queries or other types.", "quantifier": "all histories", "why_tests_cant": "All histories, all multiplicities.", "anchors": ["src/intern.rs: num_objects_interned", "src/boxedset.rs: len"]}
{"id": "C27", "title": "Intern: is_interned is exact and has no effect", "statement": "is_interned(q) returns true exactly when some earlier completed intern of type T produced a value whose borrowed form equals q; calling it does not intern anything.", "quantifier": "all histories and all queries, including borrowed query types", "why_tests_cant": "All histories.", "anchors": ["src/intern.rs: is_interned", "src/boxedset.rs: get"]}
{"id": "C28", "title": "Intern: types are isolated", "statement": "Operations on Intern<T> never change what any operation on Intern<U> returns for U different from T, even when both types hash to the same of the 32 shards; each type has exactly one table for the life of the process.", "quantifier": "all type-id hash functions, all histories over any number of types", "why_tests_cant": "All collisions patterns of type hashes.", "anchors": ["src/container.rs: get_type_mut, Arena::with, HasherForTypeId"]}
{"id": "C29", "title": "Intern: shard selection is total and deterministic", "statement": "The type hasher always selects one of the 32 shards (never out of bounds) and selects the same one every time for the same type, whichever sequence of write/write_u64 calls TypeId's Hash performs, on 32- and 64-bit targets.", "quantifier": "all byte strings and u64 values written, all write sequences", "why_tests_cant": "All inputs.", "anchors": ["src/container.rs: HasherForTypeId, with lines 79-124"]}
{"id": "C30", "title": "Intern: panics in user code leave the pool usable and canonical", "statement": "If user Hash, Eq, Borrow or From code panics at any point inside an interning call, the lock is released, later calls (which ignore poisoning) proceed normally and all guarantees C24-C27 still hold for all handles ever returned.", "quantifier": "all histories with panics at any user-code point of any call", "why_tests_cant": "Crash points times histories.", "anchors": ["src/container.rs: TypeHolderSendCell::get_mut", "src/intern.rs: new, from_ref, via_box"]}
{"id": "C31", "title": "Intern::from_ref depends on From/Borrow agreement", "statement": "If T::from(q) borrows back to something equal to q then from_ref(q) is the same handle as new(T::from(q)); without that agreement from_ref can return two handles with equal values that compare unequal, whereas ArcIntern::from_ref never does.", "quantifier": "all Borrow/From implementations (positive under the agreement law, existence of violation without it)", "why_tests_cant": "Quantifies over user trait implementations.", "anchors": ["src/intern.rs: from_ref lines 225-237", "src/arc.rs: from_ref lines 193-200"]}
{"id": "C32", "title": "Intern: user code runs under the shard lock", "statement": "A From/Hash/Eq/Drop implementation that itself interns a value whose type falls in the same shard blocks for ever; nested interning in other shards by one thread completes.", "quantifier": "all nestings of interning calls inside callbacks, all type-to-shard assignments", "why_tests_cant": "Depends on compiler-chosen TypeId hashes.", "anchors": ["src/container.rs: Arena::with lines 117-122", "src/intern.rs: from_ref lines 229-236"]}
{"id": "C33", "title": "Intern: zero-sized values", "statement": "Handle equality is still value equality when interned values occupy no memory (unit structs, empty slices, slices of zero-sized elements), although all such allocations share one dangling address; this needs that zero-sized values with the same pointer metadata are equal.", "quantifier": "all mixtures of zero-sized and ordinary values of a type, all lengths", "why_tests_cant": "All values, and relies on fat-pointer metadata comparison.", "anchors": ["src/intern.rs: PartialEq::eq (core::ptr::eq), via_box"]}
{"id": "C34", "title": "Intern: concurrent interning is atomic and deadlock free", "statement": "Any concurrent execution of Intern operations gives the same results as running them one at a time in the order in which they take their shard lock; whenever some call is unfinished some thread can step.", "quantifier": "all interleavings, any number of threads and types", "why_tests_cant": "All schedules.", "anchors": ["src/container.rs: TypeHolderSendCell::get_mut, Arena::with", "src/intern.rs: new"]}
{"id": "C35", "title": "Arena: pointer equality is value equality within an arena", "statement": "For any two ArenaIntern handles obtained from the same arena by any of its intern functions, `a == b` exactly when the values are equal.", "quantifier": "all histories of intern, intern_ref, intern_from, intern_string/vec/box/... on all threads, including panics of user code", "why_tests_cant": "All histories and schedules.", "anchors": ["src/arena.rs: intern, intern_ref, intern_from_owned, intern_from, PartialEq"]}
{"id": "C36", "title": "Arena: handles are valid until the arena is dropped", "statement": "While the arena is alive every handle obtained from it points to allocated memory holding an unchanged value equal to what was interned (given lawful Eq/Hash/Borrow/From); dropping the arena frees every stored value exactly once and nothing else.", "quantifier": "all histories, all futures up to the drop", "why_tests_cant": "All histories.", "anchors": ["src/arena.rs: intern, intern_ref, Arena (Drop glue)"]}
{"id": "C37", "title": "Arena: disagreeing From/Borrow or inconsistent Eq/Hash gives a dangling handle", "statement": "intern_from / intern_ref with safe but disagreeing Borrow and From implementations (lookup misses but the built value is already present) returns a handle to memory that has just been freed; likewise intern with an Eq/Hash that answers inconsistently.", "quantifier": "existence of a violating execution; the agreement law excludes it (C36)", "why_tests_cant": "The required trait implementations are user code.", "anchors": ["src/arena.rs: intern_from lines 406-424, intern_ref lines 136-155", "src/boxedset.rs: insert"]}
{"id": "C38", "title": "Arena: separate arenas are independent", "statement": "Interning into or dropping one arena never affects handles or contents of another; handles of non-zero-sized values from two live arenas never compare equal, whereas zero-sized ones always share an address.", "quantifier": "all histories over any number of arenas", "why_tests_cant": "All histories.", "anchors": ["src/arena.rs: Arena::new, intern, PartialEq"]}
{"id": "C39", "title": "Arena: shared across threads without requiring T: Sync", "statement": "Arena<T> is Sync whenever T is Send; two threads interning equal values then hold shared references to one T at the same time even if T is not Sync (a data race is possible in safe code). Intern and ArcIntern require Sync and do not have this problem.", "quantifier": "all T by Send/Sync status; existence of the aliasing execution", "why_tests_cant": "A type-system level property; needs a type and two threads.", "anchors": ["src/arena.rs: struct Arena, intern (no Sync bound)", "src/intern.rs: bounds", "src/arc.rs: unsafe impl Send/Sync"]}
{"id": "C40", "title": "Equality, ordering and hashing of handles are mutually consistent", "statement": "For handles of one interner at one time: == is an equivalence; equal handles hash equally; cmp returns Equal exactly for == handles; lt/le/gt/ge/partial_cmp agree with those of the values, so handles can be keys of ordered and hashed collections.", "quantifier": "all reachable states and handle pairs/triples, all lawful Ord/PartialOrd implementations", "why_tests_cant": "== compares pointers but cmp compares values; agreement depends on canonicality over all histories.", "anchors": ["src/intern.rs: Hash, PartialEq, PartialOrd, Ord", "src/arc.rs: Hash, PartialEq, PartialOrd, Ord"]}
{"id": "C41", "title": "Fits64 round trip and injectivity", "statement": "Intern::from_u64(x.to_u64()) == x for every handle, and different handles of one type give different u64 codes, in 64-bit wrapping arithmetic, whatever the heap base.", "quantifier": "all pointers, alignments and heap locations", "why_tests_cant": "2^64 pointers times alignments.", "anchors": ["src/intern.rs: Fits64 for Intern, sz"]}
{"id": "C42", "title": "Fits64 codes are small for nearby heap addresses", "statement": "If a handle's address and the reference heap address agree above bit k then to_u64 is below 2^k divided by the alignment (for power-of-two alignment).", "quantifier": "all addresses, all k, all power-of-two alignments", "why_tests_cant": "All addresses.", "anchors": ["src/intern.rs: Fits64::to_u64 doc comment lines 319-325"]}
{"id": "C43", "title": "heap_location is unique", "statement": "However many threads race in their first calls, with relaxed loads that may return stale values, every call of heap_location() in the process returns the same non-zero value.", "quantifier": "all interleavings and stale reads", "why_tests_cant": "First-use race under relaxed memory ordering.", "anchors": ["src/intern.rs: heap_location lines 297-314"]}
{"id": "C44", "title": "Serde round trip", "statement": "Deserialising what a handle serialised to yields an equal handle (while the original exists) for ArcIntern<str>, Intern<T> and ArcIntern<T> whenever T itself round-trips.", "quantifier": "all values, all reachable interner states, all serialisers/deserialisers faithful to serde's data model", "why_tests_cant": "All values and states.", "anchors": ["src/arc.rs: Serialize, Deserialize", "src/arc_dst.rs: StrVisitor", "src/intern.rs: Serialize, Deserialize"]}
{"id": "C45", "title": "Serde: ArcIntern<[u8]> does not round trip through self-describing formats", "statement": "ArcIntern<[u8]> serialises as a sequence but its Deserialize only accepts byte strings, so a self-describing format (such as JSON) rejects its own output.", "quantifier": "all byte strings, all self-describing deserialisers", "why_tests_cant": "For every content the round trip fails; there is no test of it in the project.", "anchors": ["src/arc_dst.rs: BytesVisitor lines 265-297", "src/arc.rs: Serialize lines 429-434"]}
{"id": "C46", "title": "NewIntern: one table per type despite the push race", "statement": "With the lock-free type table, several threads may push a table for the same type; nevertheless all calls for a type always use the same (first) one, and the second search always succeeds (unreachable! is never reached).", "quantifier": "all interleavings of first uses, for all types sharing a shard", "why_tests_cant": "First-use race.", "anchors": ["src/typearena.rs: with_mutex_hashset lines 23-84"]}
{"id": "C47", "title": "NewIntern: a panic poisons the type for ever", "statement": "Unlike Intern, after user code panics inside a NewIntern call for type T every later NewIntern call for T panics too; other types keep working.", "quantifier": "all histories after a panic", "why_tests_cant": "Crash points times futures.", "anchors": ["src/typearena.rs: with_mutex_hashset lines 66, 79"]}
{"id": "C48", "title": "DeepSize accounting counts each interned object once", "statement": "The reported size of an intern pool depends only on the set of distinct interned values and the table capacity: interning duplicates does not change the object part, and each distinct value contributes exactly once.", "quantifier": "all histories", "why_tests_cant": "All histories.", "anchors": ["src/boxedset.rs: DeepSizeOf", "src/intern.rs: deep_size_of_interned", "src/arc.rs: deep_size_of_arc_interned"]}
{"id": "C49", "title": "Intern: clearing (bench feature) voids canonicality", "statement": "benchmarking_only_clear_interns empties the table but not existing handles: afterwards an equal value gets a different handle, so the documented guarantee does not survive it; without it the guarantee always holds.", "quantifier": "existence of a violating history", "why_tests_cant": "Shows the proviso on C24 is necessary.", "anchors": ["src/intern.rs: benchmarking_only_clear_interns"]}
{"id": "C50", "title": "Intern and Arena: interned values are safely published", "statement": "Writing an interned value into memory happens-before every use of it by any thread that has its handle, from an interning call or passed on by another thread in any way that synchronises, and all accesses to a pool's table are ordered by happens-before, so the interner itself introduces no data race.", "quantifier": "all executions, all threads, all values, with panics at any point", "why_tests_cant": "A missing synchronisation edge shows up only on weakly ordered hardware under rare schedules.", "anchors": ["src/container.rs: Arena::with lines 117-122", "src/arena.rs: get_mut, intern, intern_ref", "src/intern.rs: new, from_ref, Deref"]}
{"id": "C51", "title": "NewIntern: pointer equality is value equality, for ever", "statement": "Two NewIntern<T> handles are equal exactly when the interned values are equal, each handle dereferences to a value equal to the one interned, and what it points to never changes; also when threads race to create the table of T and when user code panics in other calls.", "quantifier": "all schedules, any number of threads, types and calls, panics at any step, stale reads of the vector length, zero-sized values", "why_tests_cant": "The race on the first use of a type has a tiny window, and a second table silently gives two handles for one value.", "anchors": ["src/typearena.rs: with_mutex_hashset lines 23-84, new 260-269, from 275-287, via_box 206-222, From<Box<T>> 224-235"]}
{"id": "C52", "title": "NewIntern: num_objects_interned counts distinct values", "statement": "NewIntern::<T>::num_objects_interned returns exactly the number of pairwise different values of T for which earlier calls returned a handle.", "quantifier": "all schedules and histories", "why_tests_cant": "All histories, including lost races for the table.", "anchors": ["src/typearena.rs: num_objects_interned lines 300-302"]}
{"id": "C53", "title": "Intern and Arena: memory in use is one box per distinct value", "statement": "At any moment an Intern or Arena pool keeps exactly one allocation per distinct interned value, plus one for each call in progress that has allocated but not yet inserted; an Arena leaks nothing even when user code panics, an Intern additionally keeps one allocation for each insertion in which user code panicked. Interning a value that is already interned allocates nothing.", "quantifier": "all schedules, histories and panics", "why_tests_cant": "A leak or a duplicate allocation on a rare path is invisible to functional tests.", "anchors": ["src/intern.rs: new, from_ref, via_box, From<Box<T>>", "src/arena.rs: intern, intern_ref, intern_from_owned, intern_from"]}
{"id": "C54", "title": "ArcIntern: every call finishes under a fair scheduler", "statement": "If finitely many calls are made, no drop panics, and the scheduler and the shard locks are fair (a thread that can step again and again eventually steps), every call of new, drop, num_objects_interned and shrink_to_fit returns. Lock fairness is needed (without it a drop and the new of an equal value can block each other for ever), and with infinitely many calls by other threads new is not wait-free: it may retry for ever.", "quantifier": "all infinite executions, any number of threads, calls and values, any fair schedule", "why_tests_cant": "Termination of a retry loop under every schedule is a property of infinite executions.", "anchors": ["src/arc.rs: new lines 211-263 (retry loop), drop lines 297-324", "src/arc_dst.rs: new_from_box, from_str, from_slice loops"]}
{"id": "C55", "title": "Intern and Arena: calls are starvation free", "statement": "If the scheduler and the locks are fair, every call on an Intern or Arena pool ends: it returns its result, or user code called by it panics, no matter how many other calls other threads make meanwhile and how many of them panic.", "quantifier": "all infinite executions, any number of threads and calls, panics at any step, any fair schedule", "why_tests_cant": "Termination under every schedule is a property of infinite executions.", "anchors": ["src/container.rs: Arena::with, TypeHolderSendCell::get_mut", "src/intern.rs: new, from_ref, is_interned, num_objects_interned", "src/arena.rs: get_mut, intern, intern_ref"]}
{"id": "C56", "title": "ArcIntern: memory in use is one box per distinct live value", "statement": "At any moment the boxes allocated by ArcIntern for a type are one for each distinct value that has a handle, at most one more for each call in progress, and one for each drop stopped by a panic of user Hash/Eq (those are leaked). While a handle to an equal value exists, new allocates nothing.", "quantifier": "all histories of calls on any number of threads, with panics at any step, every interleaving", "why_tests_cant": "Peak memory under races depends on the interleaving: losing calls hold speculative boxes.", "anchors": ["src/arc.rs: ArcIntern::new, Drop, into_inner", "src/arc_dst.rs: new_with_copyable_init_val"]}
{"id": "C57", "title": "User code that uses the library from inside a call", "statement": "Destructors of interned values and of unused arguments of ArcIntern::new and Arena::intern, and the conversion in ArcIntern::from_ref, may themselves intern and drop values of the same type, recursively, in any number of threads, without deadlock. Hash and Eq of a type in an ArcIntern may not: if they take the same shard lock the call never returns; nor may, in Intern::new, the destructor of the unused argument.", "quantifier": "all trees of nested calls, all numbers of threads, all schedules", "why_tests_cant": "The nesting is arbitrary user code, and deadlock depends on the interleaving.", "anchors": ["src/arc.rs: new, from_ref, Drop", "src/arc_dst.rs: new_with_copyable_init_val", "src/arena.rs: intern, intern_ref, intern_from_owned, intern_from", "src/intern.rs: new, from_ref, is_interned", "src/container.rs: Arena::with"]}
{"id": "C58", "title": "ArcIntern: what refcount() returns under weak memory", "statement": "refcount() is an atomic load, which may return an old value of the counter. Whatever it returns on an existing handle is at least 1 and was the exact number of handles to the object at some instant of the execution, not before any creation, clone or drop of a handle to it that happens before the call. If all of them happen before the call it is the current number. Otherwise it can be out of date in both directions: 1 does not mean that there is no other handle.", "quantifier": "all executions with their happens-before relation, all threads, handles and results that coherence of atomics allows", "why_tests_cant": "Stale loads depend on the hardware and on timing; tests on x86 rarely show them.", "anchors": ["src/arc.rs: ArcIntern::refcount lines 207-209, new, clone, drop"]}
{"id": "C59", "title": "ArcIntern: several interned types in one program do not interfere", "statement": "In a program that interns any number of types, whose values may contain handles of other interned types: a handle stored in a field of type ArcIntern<S> always points to an existing S; two handles are equal exactly if they have the same type and equal values; new::<T>(v) returns a handle to a T equal to v and looks only at objects of type T; num_objects_interned::<T>() counts objects of type T only, exactly so when nothing is in progress; a call only ever waits for a thread that is interning a value of the type it is working on. All other properties of ArcIntern hold for such programs, with all types together.", "quantifier": "all well-typed programs with any number of types and threads, every interleaving, panics of user code included", "why_tests_cant": "Needs all combinations of types, nesting and schedules.", "anchors": ["src/arc.rs: get_container lines 113-139, new, Drop, num_objects_interned, shrink_to_fit"]}
{"id": "C60", "title": "ArcIntern: depth of the recursion in drop", "statement": "Dropping the last handle to an object destroys its value, which drops the handles inside it, and so on. At any time the number of destructors running inside each other in one thread is at most the nesting depth of the interned values: if levels up to B can be assigned to the values such that each value passed to new is above the values of the handles it contains, no thread ever runs more than B destructors inside each other. If values contain no handles, drop never recurses. Without such a bound there is none: for every m a single-threaded, panic-free program makes m destructors run inside each other (a linked list of m + 1 interned cells, one drop), so a long list overflows the stack.", "quantifier": "all executions with any number of threads, every interleaving, panics included; all assignments of levels; all m for the negative part", "why_tests_cant": "Tests use short chains; the bound is over every shape of nested values and every interleaving of drops.", "anchors": ["src/arc.rs: Drop for ArcIntern lines 286-325, new lines 224-271"]}
{"id": "C61", "title": "User types whose Eq and Hash keep no contract", "statement": "Eq, Hash and Borrow are safe traits, so a type may implement them inconsistently, or change an interned value through interior mutability. For Intern this only costs canonicality (equal values may get different handles, or a handle of an unequal value may be returned): every handle ever returned still points, for ever, to a value that some call supplied, and no call touches freed memory, whatever the lookups answer, wherever user code panics and whenever the pool is cleared. For ArcIntern memory safety is lost: with an asymmetric Eq, or with a lawful Eq and a value changed through interior mutability while interned, dropping one handle frees another object that still has a handle.", "quantifier": "all lookup answers an arbitrary Eq/Hash can cause, all schedules, panics and histories (Intern); for every type with two unequal values, a concrete execution (ArcIntern)", "why_tests_cant": "Arbitrary user code cannot be enumerated, and the use after free needs a particular combination of values.", "anchors": ["src/intern.rs: new, from_ref, is_interned, num_objects_interned", "src/boxedset.rs: HashSet::get, insert", "src/arc.rs: Drop lines 297-324 (removal by value), Deref"]}
{"id": "C62", "title": "ArcIntern: which laws of Eq and Hash memory safety needs", "statement": "Memory safety of ArcIntern depends on the user's Eq and Hash only in two places: in the removal that the drop of an object's last handle performs, and in the two lookups that the hash table makes while it inserts a new object. As long as the removal finds the very object whose last handle was dropped, or nothing, and the lookups of an insertion find no equal key before it and some key after it, then whatever all other lookups answer, whatever values change through interior mutability (without moving the handles inside them) and wherever else user code panics: no call touches freed memory, every handle points to an allocated object, and refcount is the number of handles to it. If Eq is symmetric and transitive and equal values have equal hashes, but some values do not equal themselves (like NaN), every program that does not intern such a value is safe. Interning a value that does not equal itself is undefined behaviour: already the first call of new with it frees the object while the table and the handle to be returned refer to it, and then drops this handle.", "quantifier": "all schedules, all client programs, all answers of lookups, all stores into interned values; all types with a partial equivalence; for the last claim every type, every value that does not equal itself and every state from which it is inserted", "why_tests_cant": "The adversary's answers and the schedules cannot be enumerated.", "anchors": ["src/arc.rs: new lines 224-271 (insertion line 254), Drop lines 286-325 (removal lines 319-324), Deref lines 327-332, refcount", "src/arc_dst.rs: new_with_copyable_init_val (insertion line 103)"]}
{"id": "C63", "title": "NewIntern: every call completes, finding the table is wait free", "statement": "NewIntern finds the table of its type in a vector to which it may append while other threads append, too. Under a fair scheduler and fair locks every call ends, however many threads race to create tables and however many calls are made meanwhile: it returns, or its own user code panics, or it panics because user code has panicked before in a call for the same type. If user code never panics in calls for a type, every call for this type returns a result. Before it waits for the lock of its table a call is never blocked and takes at most three steps, whatever other threads do.", "quantifier": "all fair infinite executions, any number of threads, types, shards and calls, all user code that ends, all panics of user code; all reachable states for wait freedom", "why_tests_cant": "Termination under contention is a property of infinite schedules; no finite run can show it.", "anchors": ["src/typearena.rs: with_mutex_hashset lines 23-90, CONTAINERS"]}
{"id": "C64", "title": "NewIntern: at most one table per thread, spare tables stay empty", "statement": "Threads that race to be the first to intern a value of a type may create several tables for this type, and none is ever removed. A type never has more tables than there are threads, even when threads read outdated lengths of the vector, as long as the lengths that one thread reads do not go back (read-read coherence of one atomic variable). A thread that has found the table of a type never creates another one in any later call. All tables but one remain empty, unlocked and not poisoned for ever.", "quantifier": "all reachable states, any number of threads, types and shards, all interleavings, all coherent outdated loads; without coherence for the spare tables", "why_tests_cant": "How many tables a race can create depends on every interleaving and on outdated loads that no test can force.", "anchors": ["src/typearena.rs: with_mutex_hashset lines 23-90, CONTAINERS"]}
{"id": "C65", "title": "Intern, Arena, NewIntern: all constructors agree", "statement": "Interning the same content with any of the functions of one interner (by value, From, Default, deserialisation, from a Box, from an owned String/CString/OsString/PathBuf/Vec, from &str, &CStr, &OsStr, &Path, &[T] or an array, from a key with from_ref, intern_ref or intern_from, provided Borrow is lawful and the built value borrows back to the key) yields equal handles; contents that are not equal yield different handles; the handle points to a value equal to the content, possibly in the spelling of an earlier call.", "quantifier": "all contents, all pairs of functions, all key types, all histories, schedules and panics", "why_tests_cant": "Every pair of functions times every content and history.", "anchors": ["src/intern.rs: from_via_box!, From<&[T]>, From<&[T; N]>, via_box, From<Box<T>>, new, from_ref, From<T>, Default, Deserialize", "src/arena.rs: intern, intern_ref, intern_from_owned, intern_string, intern_cstring, intern_osstring, intern_pathbuf, intern_vec, intern_box, intern_from", "src/typearena.rs: new, from, via_box, From<Box<T>>, From<T>, Default"]}
{"id": "C66", "title": "ArcIntern: weak memory adds no behaviour", "statement": "Suppose that every plain (non-atomic) read in new, clone, drop, deref and num_objects_interned may return any value that the location has ever held, unless a write that happens before the read has replaced it. Then still every execution is one in which all reads return the newest value, and none reads memory that is freed or not yet written. So what is proved about interleavings holds under weak memory.", "quantifier": "all executions, threads, schedules, values, panics, and all outdated values the memory model permits for each read, including those of earlier allocations at the same address", "why_tests_cant": "On x86 the hardware hides most outdated reads, and no test can enumerate what the memory model permits.", "anchors": ["src/arc.rs: new, clone, drop, num_objects_interned, deref", "src/arc_dst.rs: new_with_copyable_init_val"]}
{"id": "C67", "title": "Intern and Arena: weak memory adds no behaviour", "statement": "Suppose that every plain (non-atomic) read in an interning call, in is_interned, in num_objects_interned and in dereferencing a handle may return any value that the location has ever held, unless a write that happens before the read has replaced it. Then still every execution is one in which all reads return the newest value, no call reads memory that is freed or not yet written, and a thread that has a handle, from its own call or passed on by another thread, reads the interned value. So what is proved about interleavings holds under weak memory.", "quantifier": "all executions, threads, schedules, values (zero-sized ones included), panics, dropped arenas, and all outdated values the memory model permits for each read, including those of earlier allocations at the same address", "why_tests_cant": "On x86 the hardware hides most outdated reads, and no test can enumerate what the memory model permits.", "anchors": ["src/intern.rs: new, from_ref, is_interned, num_objects_interned, Deref", "src/arena.rs: intern, intern_ref, get_mut", "src/container.rs: Arena::with"]}
{"id": "C68", "title": "NewIntern: no data races, weak memory adds no behaviour", "statement": "NewIntern publishes its tables in a vector without a lock. Still any two conflicting accesses (creating a table and reading it; two accesses to the values of a type) are ordered by synchronisation, a table or value is read only after it has been written, and whoever has a handle, from its own call or passed on by another thread, reads the interned value. If every plain read may return any value that the location has ever held, unless a write that happens before the read has replaced it, every execution is one in which all reads return the newest value, and the unreachable branch is not reached. So what is proved about interleavings holds under weak memory.", "quantifier": "all executions, threads, types, shards, schedules, user code, panics, outdated lengths of the vector, and all outdated values the memory model permits for each read", "why_tests_cant": "On x86 the hardware hides most outdated reads, and no test can enumerate what the memory model permits.", "anchors": ["src/typearena.rs: with_mutex_hashset lines 23-90, CONTAINERS, new, Deref", "src/boxedset.rs: HashSet"]}
{"id": "C69", "title": "Handles and the uniqueness of Box", "statement": "A Box claims to be the only pointer to its content, and compilers may rely on it. Handles of Intern and NewIntern point to leaked boxes and respect this: whatever sequence of calls, copies, reads and writes to cells a client performs, the rule in the documentation of Box, Stacked Borrows and Tree Borrows accept it. ArcIntern and Arena do not: they take the pointer of the handle before they move the box into the table. The documented rule and Stacked Borrows reject every use of the handle of the call that stored the value. Tree Borrows accepts Arena if no handle is used to write to a cell, but not otherwise, and rejects every history of ArcIntern in which the last handle has been dropped, or, in its lenient variant, some history with two interning calls.", "quantifier": "all histories of actions on one interned value (interning it again, comparisons, growing tables, copying, dereferencing, writing to cells, reference counts, dropping handles, dropping the arena), both kinds of bytes (in and outside of an UnsafeCell), three sets of rules", "why_tests_cant": "Compilers rarely exploit the rule today, so a violation does not show in a test; the project's CI runs Miri on Intern only, because dashmap fails it.", "anchors": ["src/arc.rs: new lines 244-256, clone, drop", "src/arc_dst.rs: new_with_copyable_init_val", "src/arena.rs: intern, intern_ref, intern_from_owned, Drop", "src/intern.rs: new", "src/typearena.rs: new"]}
{"id": "C70", "title": "NewIntern and Intern, down to the type table: arbitrary user code and clearing", "statement": "Whatever Eq, Hash and Borrow of a type do, wherever user code panics, whenever the set is cleared (bench feature), and whichever threads race to create the table of the type: every handle a NewIntern or Intern call returned points, for ever, to a value that some call for the same type supplied; at every moment, also in the middle of a call, every element of the set points to a live value; no step panics inside the type table. Only canonicality can be lost: an Eq that is never true makes equal calls return different handles.", "quantifier": "all lookup answers, panics, clears, schedules, types and histories", "why_tests_cant": "Arbitrary user code and schedules cannot be enumerated.", "anchors": ["src/typearena.rs: new, from, via_box, From<Box<T>>, num_objects_interned, benchmarking_only_clear_interns, with_mutex_hashset", "src/intern.rs: new, from_ref, via_box, From<Box<T>>, is_interned, num_objects_interned, benchmarking_only_clear_interns", "src/container.rs: Arena::with", "src/boxedset.rs: clear, get, insert"]}
{"id": "C71", "title": "NewIntern and Intern: what exactly clearing does", "statement": "With lawful user code: two handles returned for the same type with no clear between the two calls are equal exactly if the values are; if a clear finished between the two calls, the handles are different, even for equal values, unless the value has size zero; every handle, returned before or after clearing, keeps pointing to a value equal to the interned one; num_objects_interned counts the different values interned since the last clear, and is_interned (Intern only) says yes for a value interned since the last clear and only for values given to a call since then.", "quantifier": "all histories with any number of clears, all schedules, panics and types", "why_tests_cant": "The claim is about all positions of clears in all interleavings.", "anchors": ["src/typearena.rs: benchmarking_only_clear_interns, num_objects_interned, new", "src/intern.rs: benchmarking_only_clear_interns, num_objects_interned, is_interned, new", "src/boxedset.rs: clear"]}
{"id": "C72", "title": "DeepSize: allocations shared by interned values", "statement": "When interned values contain Arcs to common allocations, deep_size_of_interned and Arena's deep size count every such allocation (also ones nested in others) exactly once, in whatever order the hash table gives the elements; deep_size_of_arc_interned counts it once for every distinct interned value that keeps it alive, so it can report more memory than there is. Intern and ArcIntern handles inside interned values add nothing, ArenaIntern handles are counted twice.", "quantifier": "all reachable states, all acyclic graphs of shared allocations, all iteration orders, all sizes", "why_tests_cant": "Needs all sharing patterns and all orders of a randomly seeded hash table.", "anchors": ["src/boxedset.rs: deep_size_of_children", "src/intern.rs: deep_size_of_interned, DeepSizeOf for Intern", "src/arc.rs: deep_size_of_arc_interned, DeepSizeOf for ArcIntern", "src/arena.rs: DeepSizeOf for Arena, DeepSizeOf for ArenaIntern"]}
{"id": "C73", "title": "Hash function, seed and number of shards cannot be observed", "statement": "For types whose Hash agrees with Eq: two programs that make the same calls in the same order with the same schedule and allocator, but use different hash functions or hasher seeds (with any collisions), get the same handles, booleans and counts from Intern and Arena. For ArcIntern the same holds, also for different numbers of shards, of every single-threaded program. With several threads, sharding restricts which schedules are possible, but not what clients can see: a history of calls, values and reference counts read, handles returned and panics is possible with one hash function, seed and number of shards if and only if it is possible with any other, and in the end the same objects exist.", "quantifier": "all pairs of hash functions agreeing with Eq, all shard counts, all histories, schedules and panics (for ArcIntern: of programs that do not call num_objects_interned or shrink_to_fit, whose steps depend on the number of shards)", "why_tests_cant": "Tests run with one hasher and a handful of random seeds.", "anchors": ["src/boxedset.rs: HashSet::get, insert", "src/intern.rs: Intern::new", "src/arena.rs: Arena::intern", "src/arc.rs: get_container, ArcIntern::new, Drop"]}
{"id": "C74", "title": "deep_size_of_arc_interned is safe and meaningful while other threads intern and drop", "statement": "deep_size_of_arc_interned may run while other threads create, clone and drop ArcIntern handles: it never reads freed memory, whatever they do between two entries it looks at; its result is the reported capacity times the size of a pointer plus the sizes of pairwise different objects, each of which was interned at some instant of the call, and it includes every object that was interned throughout the call. If nothing is interned or freed during the call each object is counted exactly once.", "quantifier": "all executions in which one thread walks over the shards while any number of other threads take any steps that do not need the write lock of the shard being read; all size functions", "why_tests_cant": "The one test of the function is single-threaded; freeing an object in the middle of the walk needs a schedule no test controls.", "anchors": ["src/arc.rs: deep_size_of_arc_interned, ArcIntern::new, Drop"]}
{"id": "C75", "title": "Arena: the destructor of a duplicate argument runs unlocked and may intern", "statement": "When Arena::intern, intern_string, intern_box, ... find their value already there, the unused argument is dropped after the arena's mutex has been released. So its destructor may itself use the same arena (or any other interner), nested to any depth, and other threads may use the arena meanwhile: there is no deadlock, each such call returns, handles stay canonical and valid, all results are those of a sequential history, the arena cannot be dropped before the destructor has ended, and a panic in the destructor only costs its own call the return value. (Intern::new drops a duplicate under the lock of its shard, so there the same destructor blocks.)", "quantifier": "all interleavings of any number of threads, all nestings of destructors that intern, panics anywhere", "why_tests_cant": "Needs destructors with arbitrary nested calls under all schedules; no test interns from a destructor.", "anchors": ["src/arena.rs: Arena::intern, intern_from_owned, intern_string, intern_box, intern_vec, Drop", "src/intern.rs: Intern::new"]}
{"id": "C76", "title": "Intern and Arena: every supplied value is stored or destroyed exactly once", "statement": "A value that moves into Intern::new, Arena::intern, intern_box, ... or that from_ref, intern_ref, ... build is never lost, duplicated or destroyed twice: at every moment the values supplied so far are exactly those whose destructor has run and those in the library's care (arguments of running calls and boxes in memory). When a call by value returns, its argument has been destroyed or is the value behind the returned handle. No step destroys a value stored by Intern. When no call is running on an arena, the values supplied to it are those destroyed and its elements; once it has been dropped, each of them has been destroyed exactly as often as it was supplied. This holds also if Hash, Eq and Borrow answer inconsistently and if user code panics.", "quantifier": "all interleavings of any number of threads, all answers of lookups, panics in user code at any point, arenas dropped at any time", "why_tests_cant": "Requires counting values over unbounded histories with lost races, inconsistent Eq and panics.", "anchors": ["src/intern.rs: Intern::new, from_ref, via_box, From<Box<T>>", "src/arena.rs: Arena::intern, intern_ref, intern_box, intern_from_owned, Drop", "src/boxedset.rs: HashSet::insert"]}
{"id": "C77", "title": "ArcIntern handles inside values of Intern and Arena", "statement": "Values given to Intern or Arena may contain ArcIntern handles. Each such handle is owned by exactly one place at any time, and the two interners together are as safe as each alone: a handle inside a stored value is valid, refcount() counts the handles inside stored values, no call touches freed memory. A handle inside a value interned with Intern keeps its object alive for ever with the same value. When ArcIntern is idle an object is registered exactly when it can be reached from a handle of the program or of a value in the care of Intern or Arena; in particular, when all arenas that held handles have been dropped and the program has dropped its own, nothing is left. Hash-consing works across interners: two handles of an arena to nodes with ArcIntern children are equal exactly when they represent the same tree.", "quantifier": "all interleavings of any number of threads using both interners, all values with any number of handles, panics in user code, arenas dropped at any time; for the last two claims no panic in a drop and lawful Eq and Hash, respectively", "why_tests_cant": "Needs counting handles over unbounded histories of two interners; no test puts one kind of handle into the other kind of interner.", "anchors": ["src/arc.rs: ArcIntern::new, clone, drop, refcount", "src/intern.rs: Intern::new", "src/arena.rs: Arena::intern, Drop"]}
{"id": "C78", "title": "ArcIntern: the lookups inside the insertion of a new object", "statement": "The hash table of ArcIntern looks a new key up twice while it inserts it, with the user's Hash and Eq: once to see whether it is there already, once to read it back. If Eq is an equivalence and equal values have equal hashes, the first lookup finds nothing and the second finds the new object, in every execution, so these lookups change nothing: the executions are the same as if the insertion could not fail, and no call touches freed memory. If user code panics in one of these lookups, the next step of the thread touches freed memory, whatever the state; after a panic in the second one the table keeps the freed object as a key.", "quantifier": "all schedules, all client programs, all types with lawful Eq and Hash; for the panics every state in which a new object is being inserted", "why_tests_cant": "Whether the lookups agree depends on what other threads do between the lookup of new and the insertion.", "anchors": ["src/arc.rs: new lines 244-256", "src/arc_dst.rs: new_with_copyable_init_val lines 95-105"]}
{"id": "C79", "title": "ArcIntern: destructors that use the interner", "statement": "The destructor of a value, run when the last handle to it is dropped or when new does not need its argument, may itself intern values, clone and drop handles, move handles out of the value it destroys and put others in; the drops it makes may run further destructors that do the same. In all such executions no call touches freed memory, every handle is valid and counted, handles are equal exactly when their values are, a value does not change while it has a handle, and new returns a handle to an equal value. If anything is unfinished something can continue, and everything can be completed. When nothing is in progress exactly the objects that can be reached from handles of clients are registered; when clients hold none, all memory has been freed.", "quantifier": "all destructors made of calls of the interner and moves of handles, nested to any depth, all schedules of any number of threads, panics in Hash and Eq; for completion and reclamation no panic in a drop", "why_tests_cant": "Destructors are arbitrary user code, run in the middle of the calls of other values; the number of nested calls and their interleavings is unbounded.", "anchors": ["src/arc.rs: Drop::drop, _remove lines 296-325, new lines 224-262", "src/arc_dst.rs: new_with_copyable_init_val"]}
{"id": "C80", "title": "ArcIntern: the functions as written, with Rust's scopes, moves and unwinding", "statement": "Take the bodies of new, of the unsized constructors and of drop as they are written, and Rust's general rules: locals are destroyed in the reverse order of declaration when their scope is left, a variable that was moved from is not destroyed, return and panics leave the scopes from the inside out, dropping a value drops its fields. In all executions no step touches freed memory or a moved variable; a handle of a client leads to a registered value, and handles are equal exactly when their values are; the count is at least the number of handles, and exactly that number when no function is running; new returns a handle to a value equal to its argument. Whatever way a call ends, it leaves no lock behind, and no lock is held while a value is destroyed. If a function is running some function can take a step, and all running functions can be completed, whatever addresses the allocator returns. When no function is running and clients hold no handle, all memory has been released. The one exception: a panic of Hash inside the table insertion leads to a use after free.", "quantifier": "all schedules of any number of threads, all client programs, all values with any number of handles inside, panics of Hash and Eq at any lookup and of destructors of values; for reclamation and completion no panic of Hash or Eq in the removal of a drop", "why_tests_cant": "The order in which guards and boxes are dropped is implicit in the source, differs on every way out of a function, and matters only under particular interleavings and panics.", "anchors": ["src/arc.rs: new lines 224-270, Drop::drop and _remove lines 293-325", "src/arc_dst.rs: new_with_copyable_init_val lines 68-122"]}
{"id": "C81", "title": "Intern and Arena: the functions as written, with Rust's scopes, moves and unwinding", "statement": "Take the bodies of the interning functions, of is_interned and num_objects_interned, and the destruction of an arena as they are written, and Rust's general rules for scopes, moves, return and unwinding. User code (Hash, Eq, From, destructors) may call the same functions again, to any depth, and may panic. In all executions: no step touches memory without a value or a moved variable; every returned handle leads to a value equal to the argument, which never changes, and handles of a pool are equal exactly when the arguments are, until the arena is dropped; the calls are linearizable, also those inside other calls; a function that ends without a panic returns a result; whatever way a call ends it leaves no lock behind. An Arena function runs destructors after it has released its lock, unless it is unwinding; Intern runs the destructor of its argument under the lock, so a destructor that interns something can block forever. All functions take finitely many steps, in any schedule; if calls inside calls respect a hierarchy of locks there is no deadlock and all functions can be completed. No value is lost or destroyed twice; when no function is running the boxes of an arena are exactly its elements, and when an arena has been dropped without a panic none of its boxes is left and each of its values has been destroyed exactly once.", "quantifier": "all schedules of any number of threads, all client programs, all nested calls of user code at every place where user code runs, panics of user code at every such place", "why_tests_cant": "The order in which guards, boxes and arguments are dropped is implicit in the source and differs on every way out of a function; nesting depth and interleavings are unbounded.", "anchors": ["src/intern.rs: Intern::new, From<Box<T>>, via_box, from_ref, is_interned, num_objects_interned", "src/container.rs: Arena::with, get_mut", "src/arena.rs: Arena::intern, intern_ref, intern_from_owned, intern_from", "src/boxedset.rs: get, insert, len"]}
{"id": "C82", "title": "ArcIntern: the functions as written, called by destructors and Hash in the middle of other calls", "statement": "Take the bodies of new, the unsized constructors and drop as they are written, with Rust's rules for scopes, moves, return and unwinding, and let user code that runs inside a call (destructors of interned values and of unneeded arguments, and Hash when it is called to choose the shard) call new, clone and drop again, to any depth, move handles out of and into the value being destroyed, and panic. In all executions: no step touches released memory or a moved variable; handles are equal exactly when their values are and lead to the same value as long as a client owns them; counts cover all handles and are exact when no call is running; then, if no handle is left, everything has been released; no such user code runs while a call that it is inside of holds a lock, so some call can always go on; all calls, also inner ones, are linearizable; new returns a handle to an equal value; if only destructors make inner calls, all calls can be completed. (With Hash that is false: if Hash, called by the removal in drop, interns an equal value, new waits for ever.)", "quantifier": "all schedules of any number of threads, all client programs, all inner calls of destructors, and of Hash before a lock is taken, at every place where they run, to any depth, panics of user code at every such place except inside the table insertion (for reclamation and completion also except the removal in drop)", "why_tests_cant": "Which locks are held, and which variables are alive, at the places where user code runs is implicit in the source; nesting depth and interleavings are unbounded.", "anchors": ["src/arc.rs: new lines 224-270, Clone lines 273-287, Drop::drop and _remove lines 293-325", "src/arc_dst.rs: new_with_copyable_init_val lines 68-122"]}
{"id": "C83", "title": "ArcIntern: every value given to it is stored or destroyed, exactly once", "statement": "With the functions as written and user code calling them inside other calls as in C82: every value that is handed to new (and every copy that an unsized constructor makes) is at any time in exactly one place: destroyed, owned by a running call, or stored in the table. No destructor runs twice for one value, also if it panics or if user code panics elsewhere, and no value that is still owned has been destroyed. A call that has ended, with or without a panic, keeps nothing: what it was given or has removed from the table, it has stored or destroyed; so new(v) has stored v or destroyed it. Every allocated box has exactly one owner, the table or one running call, and when no call is running the allocated boxes are exactly those in the table. A client's handle, and a handle in a field of a stored value, leads to a stored value, never to one that has been or is being destroyed. When no call is running and no handle is left, every value given has been destroyed exactly once (unless user code panicked in the removal of a drop, C20).", "quantifier": "all schedules of any number of threads, all client programs, all values with any number of handles inside, all inner calls of destructors and of Hash before a lock is taken, to any depth, panics of user code at every such place except inside the table insertion (for the last claim also except in the removal of a drop)", "why_tests_cant": "Which destructor runs, and how often, depends on the paths (hit, miss, lost race, panic at each call into user code) and on what destructors do in the middle; a test sees a few combinations, and a double drop or a lost value on a rare path goes unnoticed", "anchors": ["src/arc.rs: ArcIntern::new, Drop::drop, RefCount, BoxRefCount", "src/arc_dst.rs: RefCount::from_slice, RefCount::from_str, new_with_copyable_init_val"]}
{"id": "C84", "title": "ArcIntern: the functions as written finish under a fair scheduler, also those called by destructors", "statement": "Take new, the unsized constructors and drop as they are written, called by clients and by destructors in the middle of other calls. If finitely many calls are made (and finitely many handles moved, and finitely many panics happen, none in the removal of a drop), and the scheduler and the shard locks are fair (a thread that can step again and again eventually steps), then from some instant on no call is running, and whenever clients own no handle from then on, all memory has been released. Fair locks are needed: otherwise a drop can wait for ever for its lock while the new of an equal value retries. And calls made by destructors may be allowed, but not those of Hash: if Hash, called by the removal in drop, interns an equal value, that call never ends, although scheduler and locks are fair.", "quantifier": "all infinite executions of any number of threads, all schedules that are fair, all client programs with finitely many calls, all inner calls of destructors, to any depth", "why_tests_cant": "Termination under every fair schedule is a property of infinite executions; tests run finitely many schedules for a finite time.", "anchors": ["src/arc.rs: new lines 224-270 (the loop and yield_now), Drop::drop and _remove lines 293-325", "src/arc_dst.rs: new_with_copyable_init_val lines 68-122"]}
{"id": "C85", "title": "Intern and Arena: the functions as written are starvation free, also when user code calls them", "statement": "Take the interning functions, is_interned, num_objects_interned and the destruction of an arena as they are written, called by clients and by user code in the middle of other calls. If finitely many threads run (or the hierarchy below has finitely many levels), the scheduler is fair and so are the locks, calls inside calls respect a hierarchy of locks (a call made inside others works on a pool whose lock is of a higher level than the locks that the calls around it hold), and no call makes infinitely many calls inside itself, then every call ends, by returning or by unwinding, however many calls the threads make meanwhile and wherever user code panics. If user code makes no calls, or calls are made only inside functions that hold no lock at that moment, no hierarchy is needed. Fair locks are needed: if only the scheduler is fair, a call of num_objects_interned can wait for ever while another thread calls it again and again. The hierarchy is needed: a destructor of an argument of Intern::new that interns a value itself waits for ever.", "quantifier": "all infinite executions of finitely many threads (or of any number, with finitely many levels of locks), all schedules that are fair, all client programs, also those that never stop, all calls inside calls that respect a hierarchy, all places where user code panics", "why_tests_cant": "Starvation freedom is a property of infinite executions under every fair schedule; tests run finitely many schedules for a finite time.", "anchors": ["src/intern.rs: new, from, from_ref, is_interned, num_objects_interned", "src/arena.rs: intern, intern_ref, from, drop of Arena", "src/boxedset.rs: HashSet"]}
{"id": "C86", "title": "NewIntern: the functions as written, with user code that calls them, racing table creation and poisoned mutexes", "statement": "Take with_mutex_hashset and the closures of new, from, via_box, From<Box<T>> and num_objects_interned as they are written, called by clients and by user code (Hash, Eq, Borrow, From, destructors) in the middle of other calls, with panics of user code anywhere. No value is used after it was moved or destroyed, no memory is released twice, and the unreachable!() after the second search is not reached. A handle that was returned leads for ever to the same value, equal to the argument; two handles of one type are the same pointer iff the arguments are equal, also when several threads each pushed a table for the type: only the first is ever used, the others stay empty. The results are those of a sequential history that respects real time. Every value given is stored or destroyed exactly once. A thread between calls holds no mutex. A mutex is poisoned exactly when a call releases it while unwinding from a panic that began after it took it; then it stays poisoned, its set never changes again, every later call for that type panics and none returns, while handles obtained before remain valid. Calls inside calls that respect a hierarchy of types cannot deadlock, and all calls can be run to their ends; without one they can: the destructor of an argument that was found to be present already runs under the mutex, and blocks for ever if it interns a value of the same type.", "quantifier": "all schedules of any number of threads, all client programs, all types and values with lawful Hash, Eq and Borrow, all calls of user code inside calls to any depth, all places where user code panics, all lengths of the vectors that a thread may see", "why_tests_cant": "Two threads that create the table of a type at the same time, and a panic in user code under the mutex, are rare in tests; what a poisoned mutex does to all later calls and to handles obtained before is a statement about all continuations.", "anchors": ["src/typearena.rs: with_mutex_hashset, NewIntern::new, from, via_box, From<Box<T>>, num_objects_interned", "src/boxedset.rs: HashSet"]}
{"id": "C87", "title": "NewIntern: the functions as written are starvation free, also when user code calls them and mutexes are poisoned", "statement": "Take with_mutex_hashset and the closures of new, from, via_box, From<Box<T>> and num_objects_interned as they are written, called by clients and by user code in the middle of other calls. If finitely many threads run (or the hierarchy below has finitely many levels), the scheduler is fair and so are the mutexes, user code that runs while the mutex of a type is held uses only types of a higher level, and no call makes infinitely many calls inside itself, then every call that is made returns or ends by a panic, however many calls other threads make meanwhile, wherever user code panics and however many threads race to create tables. A call for a type that is made after the mutex of the type was poisoned ends by a panic; it does not hang. If user code makes no calls, no hierarchy is needed. Fair mutexes and the hierarchy are needed: with a fair scheduler alone a call can wait for ever while another thread calls num_objects_interned again and again, and a destructor that interns a value of the type being interned never returns.", "quantifier": "all infinite executions of finitely many threads (or of any number, with finitely many levels of types), all schedules that are fair, all client programs, also those that never stop, all calls inside calls that respect a hierarchy, all places where user code panics, all lengths of the vectors that a thread may see", "why_tests_cant": "Starvation freedom is a property of infinite executions under every fair schedule; tests run finitely many schedules for a finite time.", "anchors": ["src/typearena.rs: with_mutex_hashset, NewIntern::new, from, via_box, From<Box<T>>, num_objects_interned"]}
{"id": "C88", "title": "ArcIntern: the functions as written, also called by Eq and Hash while a lock is held", "statement": "Take new, the unsized constructors and drop as they are written, called by clients and by user code in the middle of other calls: by destructors, by Hash where a shard is chosen, and also by Eq and Hash while they run under the lock of a shard (in a lookup, or when a table grows during an insertion). Nothing is used after it was released. Handles are canonical and lead to the same value as long as they are owned, counts cover the handles and are exact when no call is running, and all locks are free then; all memory is released when also no handle is left. A new that ends without a panic returns a handle to a value equal to its argument. The calls, also those inside others, are atomic. Every value given is stored or destroyed exactly once. At most one call holds the lock of a shard, and while it does nothing but that call changes the entries of the shard, whatever Eq and Hash call meanwhile. If calls made under a lock use only shards of lower rank in some order of all shards of all types, there is no deadlock: while a call is running, some thread can take a step. Without such an order there can be one: an Eq that interns a value of the same shard never returns, and two threads whose Eq intern values of each other's shards block each other for ever.", "quantifier": "all schedules of any number of threads, all client programs, all values with lawful Hash and Eq and any number of handles inside, all calls that user code makes inside calls, with or without a lock, to any depth, panics of user code at every place except inside the table insertion (for the release of all memory also except in the removal of a drop)", "why_tests_cant": "Eq and Hash of a value seldom intern values themselves, and whether that is harmless depends on which shards are locked by whom at that moment; a test meets a few of the schedules, and a deadlock or a corrupted shard shows in rare ones only.", "anchors": ["src/arc.rs: new lines 224-270, Drop::drop and _remove lines 293-325", "src/arc_dst.rs: new_with_copyable_init_val lines 68-122"]}
{"id": "C89", "title": "ArcIntern: the functions as written finish under a fair scheduler, also called by Eq and Hash while a lock is held", "statement": "Take new, the unsized constructors and drop as they are written, called by clients and by user code in the middle of other calls, with or without a lock of a shard. If finitely many calls are made (and finitely many handles moved, and finitely many panics happen, none in the removal of a drop), the scheduler and the shard locks are fair (a thread that can step again and again eventually steps), and the calls made inside calls use only shards of lower rank, in some order of all shards, than those in which others may have to wait for the calls around them (because these hold the lock, or are going to remove an object whose last handle was dropped), then from some instant on no call is running, and whenever clients own no handle from then on, all memory has been released. In particular no order is needed if user code makes calls only in destructors and where Hash is called before a lock is taken, but for the removal of a drop. Both conditions are needed, however fair scheduler and locks are: an Eq that interns a value of its own shard waits for ever, and if Hash, called by the removal in drop before the lock is taken, interns an equal value, that call retries for ever although no lock is held around it.", "quantifier": "all infinite executions of any number of threads, all schedules that are fair, all client programs with finitely many calls, all calls that user code makes inside calls to any depth in such an order", "why_tests_cant": "Termination under every fair schedule is a property of infinite executions; tests run finitely many schedules for a finite time.", "anchors": ["src/arc.rs: new lines 224-270 (the loop and yield_now), Drop::drop and _remove lines 293-325", "src/arc_dst.rs: new_with_copyable_init_val lines 68-122"]}
{"id": "C90", "title": "Handles can be used in place of values", "statement": "Take a program of several threads that interns values, clones and drops handles, compares handles by == and cmp, reads values through handles (Deref, AsRef, Borrow, Display, Debug, Serialize, ...), and sends handles from thread to thread, where what a thread does next depends in any way on what it has seen. Everything that the program can do, it can also do if it keeps the values themselves in place of handles: all threads see the same results of == and cmp, and equal values where they read. So the result of a thread that neither sends nor receives is the one computed with plain values, provided that it does not distinguish equal values when it reads (which it cannot do if == is identity, as for strings and numbers); if it does, it can have another result. Comparing and reading never fails for a handle that a thread has.", "quantifier": "all programs in this sense, with any number of threads, variables and queues, all schedules, all values with lawful Hash, Eq and Ord, all other uses of the interner by the rest of the process and by user code inside calls, panics of others; ArcIntern, Intern, ArenaIntern and the Intern of typearena.rs", "why_tests_cant": "This is a statement about all client programs and all of their schedules; a test is one program.", "anchors": ["src/arc.rs: new, Clone, Drop, PartialEq, Ord, Deref, AsRef, Borrow, Display, Debug", "src/intern.rs: Intern::new, PartialEq, Ord, Deref, AsRef, Borrow", "src/arena.rs: intern, PartialEq, Deref, AsRef", "src/typearena.rs: Intern::new, PartialEq, Ord, Deref, AsRef, Borrow"]}
{"id": "C91", "title": "Handles of several interners can be used in place of values", "statement": "Take a program of several threads as in C90 that uses several interners at once: ArcIntern of two types, Intern of any number of types, any number of arenas, and the Intern of typearena.rs of any number of types; the Hash, Eq and other user code that runs inside a call of one of them may call the others. Everything that the program can do, it can also do with the values themselves in place of handles: the interners do not disturb each other. All threads see the same results of == and cmp, and equal values where they read; the result of a thread that neither sends nor receives, and does not distinguish equal values, is the one computed with plain values; comparing and reading never fails for a handle that a thread has.", "quantifier": "all programs as in C90 over all these interners together, all schedules, all values with lawful Hash, Eq and Ord, all other uses of the interners by the rest of the process, and all calls of one interner inside calls of another", "why_tests_cant": "It is about all client programs and schedules; and tests rarely use several interners in one program, let alone one from the user code that runs inside another.", "anchors": ["src/arc.rs: new, Clone, Drop, PartialEq, Ord, Deref", "src/intern.rs: Intern::new, PartialEq, Ord, Deref", "src/arena.rs: intern, PartialEq, Deref", "src/typearena.rs: Intern::new, PartialEq, Ord, Deref", "src/container.rs: the statics, one per type"]}
{"id": "C92", "title": "Whatever a program can do with values, it can do with handles", "statement": "The converse of C90 and C91. Take a program as in C91, and anything that it can do if it keeps values, in any order of the steps of its threads. Then it can also do it with handles: there is an execution of the interners in which all threads get to the same place, with handles that lead to equal values in all variables and queues. So interning refuses no value, blocks nothing for ever, and rules out no order in which the threads can work; a thread that neither sends nor receives can get to the result computed with plain values. This needs that nobody else is inside a call at the start, that no removal was abandoned by a panic (C20), that no type of typearena.rs that is used is poisoned (C47), that values in an ArcIntern contain no handles, and that the program never owns so many handles at a time that a reference counter could overflow.", "quantifier": "all programs as in C91, all executions of them with values, of any length, and all start states that can be reached; ArcIntern, Intern, ArenaIntern and the Intern of typearena.rs, alone and together", "why_tests_cant": "That an execution exists for every program and every order of its steps is not something that a test, which has one program and one schedule, can settle.", "anchors": ["src/arc.rs: new lines 215-269, Clone lines 272-284, Drop lines 293-325", "src/intern.rs: Intern::new", "src/arena.rs: intern", "src/typearena.rs: Intern::new", "src/container.rs: with_container"]}
{"id": "C93", "title": "Hash-consed terms can be used in place of trees", "statement": "A program keeps terms as interned nodes: a node has a label and children, and each child is an ArcIntern handle to a node. The program builds nodes by moving handles that it owns into a call of ArcIntern::new, takes children out of nodes by cloning them, clones, drops and compares handles, looks at labels and numbers of children, and sends handles between threads. Every execution matches one of the same program that keeps whole trees and compares them from top to bottom: all threads get to the same place in their code, every variable and every message in transit leads to the tree that the other program has there. A thread that works alone ends with the result computed with trees. Any two handles of the program are == exactly if their trees are the same, however large the trees are and on whichever threads they were built, and looking at a node through a handle always works.", "quantifier": "all programs with any number of threads, variables and queues, all label types whose == is identity, all terms of any depth and width, all lawful hash functions, all schedules of the steps inside calls, all other use of the table by the process, user code that calls the interner again, panics of user code, all reuse of addresses of dead nodes, while no node has as many handles as the counter can count", "why_tests_cant": "the terms, the sharing between them and the interleavings of building and dropping nodes on several threads are unbounded", "anchors": ["src/arc.rs: new lines 215-269, Clone lines 272-284, Drop lines 293-325, Deref lines 356-361, Hash and PartialEq lines 383-395"]}
{"id": "C94", "title": "Hash-consed terms share everything and keep nothing else", "statement": "With nodes whose children are ArcIntern handles: at any time, also in the middle of calls, every part of every term to which the program has a handle is in the table exactly once. When no call is running, nothing else is: num_objects_interned() and the number of boxes in memory are the number of different parts of the terms to which the program has handles, and refcount() of a node is the number of handles that the program has to it plus the number of its occurrences as a child in those parts. So dropping a handle to a term releases just those parts that belong to no other term that is still in use.", "quantifier": "all terms of any depth, width and sharing, all label types whose == is identity, all histories of building, cloning, taking out children and dropping on any number of threads, all schedules, user code that calls the interner again, panics of user code (for the second part, not in the removal of a drop), all reuse of addresses", "why_tests_cant": "the number of terms, their sizes and the order in which parts of them are built and released on several threads are unbounded", "anchors": ["src/arc.rs: new lines 215-269, Clone lines 272-284, Drop lines 293-325, refcount lines 206-208, num_objects_interned"]}
{"id": "C95", "title": "Hash-consed terms are ordered, printed, written and read as trees", "statement": "Let nodes consist of a label and ArcIntern children, with derived Ord, Display/Serialize and Deserialize. cmp of two handles gives the lexicographic order of the trees that they stand for, and writing a handle writes its tree, whatever other threads intern, drop and free meanwhile, as long as the caller keeps the handles; no read ever goes to freed memory. cmp needs no deeper recursion than the depth of the shallower tree, and writing no deeper than the depth of the tree. If the order of labels is linear, so is that of terms; handles compare as equal, and have the same text, just if they are ==. Reading two texts in, node by node with interning, gives == handles just if the texts are the same.", "quantifier": "all labels and label orders, all terms of any depth and width, all executions of the library with user code, other threads and panics, all times at which the reads of a comparison or of writing take place, all concurrent programs beside the one that reads terms in", "why_tests_cant": "the recursion goes through memory that other threads change and free at the same time; tests can only try some terms and some interleavings, and cannot show that sharing and reuse of addresses are never visible", "anchors": ["src/arc.rs: Ord/PartialOrd for ArcIntern, Display, Serialize, Deserialize, ArcIntern::new, Drop for ArcIntern"]}
{"id": "C96", "title": "Terms made of Copy handles can be used in place of trees", "statement": "A program keeps terms as interned nodes with Intern, ArenaIntern or the Intern of typearena.rs: a node has a label and children, each child is a handle to a node, and ==, Eq and Hash of nodes are derived. The program builds nodes from copies of handles that it has, takes children out of nodes, compares handles with ==, looks at labels and numbers of children, and sends handles between threads. Every execution matches one of the same program that keeps whole trees and compares them from top to bottom: all threads get to the same place in their code, and every variable and every message in transit leads to the tree that the other program has there. A thread that works alone ends with the result computed with trees. Any two handles of the program are == exactly if their trees are the same, on whichever threads they were built, and whatever nodes other parts of the process intern in the same pool.", "quantifier": "all programs with any number of threads, variables and queues, all label types whose == is identity, all terms of any depth and width, all hash functions, all types and arenas, all schedules of the steps inside calls, all other use of the pools by the process, user code that calls the interners again, panics of user code, while the arena exists", "why_tests_cant": "the terms, the sharing between them and the interleavings of building nodes on several threads are unbounded", "anchors": ["src/intern.rs: Intern::new, Deref, Hash and PartialEq lines 414-426", "src/arena.rs: intern, Deref, Hash and PartialEq lines 520-532", "src/typearena.rs: Intern::new, Deref, Hash and PartialEq lines 429-441"]}
{"id": "C97", "title": "Whatever a program can do with trees, it can do with terms made of Copy handles", "statement": "The converse of C96. Take a program as in C96, and anything that it can do if it keeps whole trees, in any order of the steps of its threads. Then it can also do it with Intern, with an arena, and with the Intern of typearena.rs: there is an execution in which all threads get to the same place, with handles that lead to the same trees in all variables and queues. So interning refuses no node, however deep the term is, blocks nothing for ever, and rules out no order in which threads can work; a thread that neither sends nor receives can get to the result computed with trees, and by C96 to no other. This needs that nobody else is inside a call at the start, that the arena exists, and, for typearena.rs, that the mutex of the type is not poisoned (C47).", "quantifier": "all programs as in C96, all executions of them with trees, of any length, and all start states that can be reached, with any contents of the pools", "why_tests_cant": "That an execution exists for every program and every order of its steps is not something that a test, which has one program and one schedule, can settle.", "anchors": ["src/intern.rs: Intern::new", "src/arena.rs: intern", "src/typearena.rs: Intern::new", "src/container.rs: with_container"]}
{"id": "C98", "title": "Terms made of Copy handles are ordered, printed, written and read as trees", "statement": "Let nodes consist of a label and children that are Intern, ArenaIntern or typearena Intern handles, with derived traits. cmp of two handles that threads have (Intern and the Intern of typearena.rs; arena handles have no Ord) gives the lexicographic order of the trees that they stand for, and writing a handle (Display, Debug, Serialize) writes its tree, whatever other threads intern meanwhile and however the program goes on. cmp needs no deeper recursion than the depth of the shallower tree, and writing no deeper than the depth of the tree. Handles are == just if cmp says Equal, and just if their texts are the same. Reading terms in (Deserialize) gives == handles just if the texts are the same, whatever the other threads of the program do.", "quantifier": "all labels and label orders, all terms of any depth and width, all programs as in C96 and all their executions, all times at which the reads of a comparison or of writing take place", "why_tests_cant": "the recursion goes through memory to which other threads add at the same time; tests can only try some terms and some interleavings", "anchors": ["src/intern.rs: Display, PartialOrd, Ord, Serialize, Deserialize lines 395-486", "src/arena.rs: Debug, Display lines 538-550", "src/typearena.rs: Display, PartialOrd, Ord, Serialize, Deserialize lines 410-502"]}
{"id": "C99", "title": "Whatever a program can do with trees, it can do with hash-consed terms", "statement": "The converse of C93. Take a program as in C93, with nodes whose children are ArcIntern handles, and anything that it can do in some number of steps if it keeps whole trees, in any order of the steps of its threads. Then it can also do it with ArcIntern: there is an execution in which all threads get to the same place, with handles that lead to the same trees in all variables and queues. So interning refuses no node, dropping a term always comes to an end although it may drop other nodes in turn, nothing is blocked for ever, and no order in which threads can work is ruled out. A thread that neither sends nor receives can end with a result just if this is the result computed with trees. This needs that nobody else is inside a call at the start, that no removal has been abandoned by a panic (C20), and that the reference counts have room: twice the number of handles that there are, plus the number of steps.", "quantifier": "all programs as in C93, all executions of them with trees, of any length, and all start states that can be reached, with any nodes in the table", "why_tests_cant": "That an execution exists for every program and every order of its steps is not something that a test, which has one program and one schedule, can settle; and how far a drop goes depends on all the terms there are.", "anchors": ["src/arc.rs: ArcIntern::new, Clone, Drop lines 224-345", "src/arc.rs: Deref, PartialEq, Hash"]}
{"id": "C100", "title": "Programs with Copy handles finish under a fair scheduler", "statement": "Take a program as in C96, which builds terms out of Intern, ArenaIntern or typearena Intern handles, running in a process with any other activity. Let the operating system give every thread time again and again, and let locks be fair; let user code of the process that runs inside calls come to an end and respect a hierarchy of pools, as in C85 and C87; and let no call of the program itself end in a panic. Then every thread of the program that neither sends nor receives comes to its end, with the result that is computed with trees, whatever the other threads do. And a whole program, also one whose threads exchange handles, comes to a stop, in a state that the same program with whole trees can get to and in which that program cannot go on either: interning adds no deadlock, no livelock and no starvation.", "quantifier": "all programs as in C96, of any number of threads, all infinite fair executions of the process, all activity of other threads and of user code, all terms of any depth", "why_tests_cant": "that something happens in every infinite fair execution cannot be observed by a test, which stops after a finite time on one schedule", "anchors": ["src/intern.rs: Intern::new", "src/arena.rs: intern", "src/typearena.rs: Intern::new", "src/container.rs: with_container"]}
{"id": "C101", "title": "Programs that use handles as values finish under a fair scheduler", "statement": "Take a program as in C90, whose threads intern values with Intern, ArenaIntern or the Intern of typearena.rs, clone, drop, compare, order and read handles and send them to each other, in a process with any other activity. Let the operating system give every thread time again and again, and let locks be fair; let user code that runs inside calls (Hash, Eq, Drop of the values) come to an end and respect a hierarchy of pools, as in C85 and C87; and let no call of the program itself end in a panic. Then every thread of the program that neither sends nor receives comes to its end, with the result that is computed with plain values, whatever the other threads do. And a whole program, also one whose threads exchange handles, comes to a stop, in a state that the same program with plain values can get to and in which that program cannot go on either: interning adds no deadlock, no livelock and no starvation.", "quantifier": "all programs as in C90, of any number of threads, all value types with lawful Hash and Eq (== need not be identity), all infinite fair executions of the process, all activity of other threads and of user code", "why_tests_cant": "that something happens in every infinite fair execution cannot be observed by a test, which stops after a finite time on one schedule", "anchors": ["src/intern.rs: Intern::new, from_ref, Clone, PartialEq, Ord, Deref", "src/arena.rs: intern and its variants, Clone, PartialEq, Deref", "src/typearena.rs: Intern::new, Clone, PartialEq, Ord, Deref", "src/container.rs: with_container"]}
{"id": "C102", "title": "Programs that use several types and arenas finish under a fair scheduler", "statement": "As C101, for programs that use handles of several types and of several arenas at once: every thread that neither sends nor receives comes to its end, with the result that is computed with plain values, each tagged with its type or arena; and a whole program comes to a stop only where the same program with plain values stops too. In particular tables and locks of different types and arenas do not block each other.", "quantifier": "all programs, of any number of threads, that use any set of types and arenas (none of which is dropped meanwhile), all value types with lawful Hash and Eq, all infinite fair executions of the process, all activity of other threads and of user code", "why_tests_cant": "that something happens in every infinite fair execution cannot be observed by a test, which stops after a finite time on one schedule", "anchors": ["src/intern.rs: Intern::new, from_ref, Clone, PartialEq, Ord, Deref", "src/arena.rs: intern and its variants, Clone, PartialEq, Deref", "src/typearena.rs: Intern::new, Clone, PartialEq, Ord, Deref", "src/container.rs: with_container"]}
