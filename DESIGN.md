# Formal model of droundy/internment in Lean 4

The design was written before the proofs and is updated as the model grows; the status of each property is in MANIFEST.json.

## 1. Trusted base

* Lean 4.33.0's kernel. No axioms are added. Each theorem depends on at most `propext`,
  `Classical.choice`, `Quot.sound` (checked with `#print axioms`; see `lean/Verif/Audit.lean`).
  No `sorry`, `native_decide`, `bv_decide`, `implemented_by`, `unsafe`.
* The reading of /repo into Lean. Nothing is executed; each definition cites the file and lines it models.
* Assumed behaviour of dependencies, modelled as data and steps, not as axioms:
  - `hashbrown::HashMap<P,()>`: `insert` keeps an existing equal key and drops the new one;
    `raw_entry().from_hash` returns some element with the given hash satisfying the predicate, if any;
    `remove`/`remove_entry` returns the removed key; `len` is the number of keys.
    (Tag/probe details are not modelled: lookup compares the full hash.)
  - `dashmap::DashMap` 5.x: an array of shards, each behind a reader/writer lock; `get_mut` and `entry`
    take the write lock of the key's shard and return a guard; `remove` does lookup and removal under
    that lock and returns the pair after releasing it; `len` sums shard sizes, one read lock at a time;
    `OccupiedEntry::into_key` returns the *supplied* key and releases the lock. `VacantEntry::insert` keeps a bitwise copy of the
    key, inserts the key into the shard (which looks it up), looks the copy up and unwraps the result, and forgets the copy. For lawful
    `Eq` and `Hash` this is an insertion that succeeds (C78), as in `Verif/Arc/Model.lean`; for other types and panics see C62, C78.
    (Known from dashmap's source, which is not in /repo.)
  - `std::sync::Mutex`, `spin::Mutex`: mutual exclusion; a panic in a critical section releases the lock
    and (std) marks it poisoned.
  - `append_only_vec::AppendOnlyVec`: `push` is atomic append; `iter` visits the prefix present when it starts.
  - `once_cell::OnceCell::get_or_init`: one value, created once.
  - allocator: returns any address not currently allocated (so freed addresses may be reused);
    zero-sized boxes get the dangling address equal to the alignment.
  - atomics: read-modify-writes of one location are totally ordered and each reads the latest value. The
    interleaving models use that. The trace models (C17, C39, C50) use of it only the order of the
    read-modify-writes of each counter and of the critical sections of each lock; two events are ordered only
    by program order, release/acquire on one counter or lock, and Rust's ownership rules for the client's
    handles. SeqCst is used only as acquire-release; the fence of arc.rs:314 is left out.
    `refcount()` is an Acquire load: the interleaving model reads the current value (C03); C58 allows every older
    value that coherence does not rule out. Plain reads: the interleaving models read the newest value; C66, C67 and C68
    prove for `ArcIntern`, `Intern`, `Arena` and `NewIntern` that nothing else is possible, given the order of the read-modify-writes and critical sections.
  - pointers: an access is defined behaviour in these models if the memory is allocated. The rules about
    aliasing (that a `Box` is the only pointer to its content) are looked at in C69 only, which finds that
    `ArcIntern` and `Arena` break them: for those two, the other properties hold of the machine code
    of a compiler that does not exploit the uniqueness of `Box`.

## 2. What is modelled, by module

| Lean module | Code |
|---|---|
| `Verif/Arc/Model.lean` | `arc.rs` new, clone, drop, refcount, deref, num_objects_interned, shrink_to_fit; `arc_dst.rs` new_with_copyable_init_val: an interleaving step function at the granularity of atomic read-modify-writes and lock acquisitions/releases, with user panics |
| `Verif/Arc/Trace.lean` | memory events, orderings and happens-before of the same code (C17) |
| `Verif/Arc/Loads.lean` | the load of `refcount()` in these executions (C58) |
| `Verif/Arc/Weak.lean` | `arc.rs`, `arc_dst.rs` again, with plain reads (values in boxes, hash tables of shards) that may return outdated values (C66) |
| `Verif/Arc/Values.lean` | where the values in the interner come from; private boxes keep their value |
| `Verif/Arc/Wild.lean`, `WildInv.lean`, `WildCover.lean` | the ArcIntern steps when the answers of all lookups are arbitrary and values change; invariant; relation to the original model (C62) |
| `Verif/Arc/Reentrant.lean` | destructors that use the interner (C79); invariant and completion in `ReentrantInv.lean` |
| `Verif/Arc/Insert.lean` | the lookups inside an insertion; relation to the original model (C61, C62, C78) |
| `Verif/Arc/Stack.lean` | the call stack of recursive drops (C60) |
| `Verif/Arc/Multi.lean` | the same model for all interned types of a program together (C59) |
| `Verif/Src/Lang.lean` | a small language with Rust's rules for local variables: scopes, moves, `return`, unwinding, drop glue (C80) |
| `Verif/Src/ArcCode.lean` | the bodies of `new`, `new_with_copyable_init_val`, `drop` in that language, statement by statement (C80); simulation by the original model in `ArcSim.lean`–`ArcMain.lean` |
| `Verif/Src/ArcNest.lean` | the same functions called by destructors and by `Hash` in the middle of calls (C82); simulation by the original model in `ArcNestFlat.lean`–`ArcNestMain.lean` |
| `Verif/Src/ArcNestLedger.lean` | who owns the values and boxes in those executions, and what has happened to each value (C83); proved in `ArcNestOwn.lean` and `ArcNestAcct.lean` |
| `Verif/Src/ArcNestFair.lean` | infinite executions of that code, fairness, and the proof that all calls end (C84); `ArcNestLasso.lean`: executions that repeat a loop, for the negative results |
| `Verif/Src/ArcHeld.lean` | the same functions called also by `Eq` and `Hash` while a lock is held (C88); `ArcHeldSpec.lean`: vocabulary; `ArcHeldInv`, `ArcHeldEntries`: invariants and locks; `ArcHeldFair`: infinite executions under fairness (C89); `ArcHeldDemo`, `ArcHeldLasso`: executions for the examples; `ArcSmall`: a call mentions at most four handles |
| `Verif/Src/PoolCode.lean` | the bodies of the interning functions of `intern.rs` and `arena.rs`, of `is_interned`, `num_objects_interned` and the destruction of an arena in that language, with user code that calls them again (C81); simulation by `Verif/Pool/Model.lean` in `PoolOwed.lean`–`PoolMain.lean`, vocabulary in `PoolSpec.lean` |
| `Verif/Src/PoolFair.lean` | infinite executions of that code with calls inside calls, fairness, and the proof that every call ends (C85); `PoolLasso.lean`: executions that repeat a loop, for the examples and the negative results |
| `Verif/Arc/Container.lean` | `arc.rs` get_container |
| `Verif/Dst/*.lean` | `arc_dst.rs` from_slice, from_str layout and copying, conversions and comparisons |
| `Verif/Pool/Model.lean` | `intern.rs`, `arena.rs`, `boxedset.rs`: the critical sections (interleaving, panics, zero-sized values) |
| `Verif/Pool/Chaos.lean` | the same critical sections when the answers of all lookups are arbitrary (C61) |
| `Verif/Pool/Trace.lean` | their memory events and happens-before, and handles passed between threads (C39, C50) |
| `Verif/Pool/Weak.lean` | the same code with plain reads (values in boxes, hash sets) that may return outdated values (C67) |
| `Verif/Pool/Late.lean` | the exact order at the end of an arena call that hit: unlock, then drop the argument, whose destructor may intern (C75) |
| `Verif/Pool/Ledger.lean`, `LedgerFacts.lean` | what becomes of supplied values: executions with the exact order of `Late.lean` and the adversarial lookups of `Chaos.lean`, with the lists of values supplied and destroyed (C76) |
| `Verif/Mix/Model.lean` | programs that put `ArcIntern` handles into values of `Intern` and `Arena`: the two models side by side, connected by ownership of handles (C77) |
| `Verif/Pool/Reentrant.lean` | nesting of interning calls in user code (C32) |
| `Verif/Nested.lean` | which user code runs under which lock, for all three interners (C57) |
| `Verif/TypeMap/*.lean` | `container.rs` |
| `Verif/TypeArena/*.lean` | `typearena.rs` with_mutex_hashset; `Coherent.lean` restricts outdated loads to coherent ones (C64) |
| `Verif/TypeArena/Trace.lean` | memory events and happens-before of `with_mutex_hashset`, with results passed between threads (C68) |
| `Verif/TypeArena/Weak.lean` | the same code with plain reads (elements of the vectors, hash sets with their values) that may return outdated values (C68) |
| `Verif/Src/NewCode.lean` | the bodies of `with_mutex_hashset` and of the closures of `NewIntern` in the language of `Lang.lean`, with mutex poisoning, the vectors of tables and user code that calls the functions again (C86); `NewSpec.lean`: vocabulary; `NewSim`, `NewRun`, `NewExec`, `NewPre`, `NewPost`, `NewGlobal`, `NewReach`, `NewMain`: simulation by `PoolCode.lean`; `NewCells`, `NewPoison`: the vectors and the poison flags; `NewTerm`, `NewProgress`: termination, deadlocks, calls after a poisoning; `NewDemo`: executions for the examples |
| `Verif/Src/NewFair.lean` | infinite executions of that code, fairness, and the proof that every call ends (C87); `NewLasso.lean`: executions that repeat a loop, for the examples and the negative results |
| `Verif/Closures/*.lean` | the closures of `intern.rs` and `typearena.rs` run on those two type tables: `Intern` and `NewIntern` from the call down to the table |
| `Verif/Constructors.lean` | every public constructor of `intern.rs`, `arena.rs`, `typearena.rs`: what it looks up and what it stores (C65) |
| `Verif/Closures/AnyOps.lean` | executions of both type tables in which every closure satisfies a predicate (C70, C71) |
| `Verif/Closures/Wild.lean` | the closures of `Intern` and `NewIntern` with leaked boxes and set kept apart, arbitrary lookup answers, clear (C70) |
| `Verif/Closures/Clear.lean` | the same with lawful lookups (C71) |
| `Verif/Alias/Rules.lean` | the rule in the documentation of `Box`, Stacked Borrows, Tree Borrows, for one allocation (C69) |
| `Verif/Alias/Model.lean` | the pointer operations of the four interners on the memory of one value (C69) |
| `Verif/Alias/Fresh.lean` | the pointer operations of an execution only use pointers that exist and give every new pointer a new name (C69) |
| `Verif/Fits64.lean` | `intern.rs` tinyset code |
| `Verif/Serde.lean` | serde impls at the level of serde's data model |
| `Verif/Traits.lean` | Eq/Ord/Hash impls |
| `Verif/Client/Lang.lean` | programs that use an interner, their executions with handles and with plain values, and how the two correspond (C90) |
| `Verif/Client/Arc.lean`, `Verif/Client/Pool.lean` | what such a program sees of the four interners as written (C90); `Sim`, `Stack`, `ArcLaws`, `PoolLaws`: proofs; `Demo`: executions for the examples |
| `Verif/Client/Many.lean` | several types and arenas, and two interners side by side, where user code inside a call of one may call the other (C91); `ManyLaws`: proofs; `ManyDemo`: executions for the examples |
| `Verif/Client/Able.lean` | executions with values in which the program owns at most `N` values, and what an interner must be able to do so that handles can do the same (C92); `AbleEval`: results of threads on their own; `PoolAble`, `NewAble`, `ArcAble`, `ManyAble`: proofs |
| `Verif/Client/Term.lean` | programs that build terms from `ArcIntern` handles, run with handles and with trees (C93); `Verif/Src/ArcTerm.lean`: the tree that a handle leads to, and what keeps it, for the functions as they are written; `TermSim`: the simulation; `TermDemo`: a checked execution; `Verif/Props/HashCons.lean`: the theorems |
| `Verif/Src/ArcShare.lean` | parts of terms, and which nodes exist (C94); `Verif/Props/Sharing.lean`: the theorems |
| `Verif/Client/TermTraits.lean` | `Ord`, `Display`, `Serialize` and `Deserialize` of nodes with `ArcIntern` children: recursion through handles, with reads at different times; the order and the text of trees (C95) |
| `Verif/Client/Fair.lean` | fair executions of the programs of C90 (C101, C102) |
| `Verif/Client/Copy.lean`, `CopySim.lean`, `CopyDemo.lean`, `CopyAble.lean`, `CopyTraits.lean`, `CopyFair.lean` | programs that build terms from handles that are `Copy`; the same programs with trees; the simulation, and its converse; the traits of terms; fair executions; demos (C96–C98, C100) |
| `Verif/Client/ArcRoom.lean`, `TermAble.lean`, `Verif/Src/ArcSize.lean` | how many handles a call of `new` or `drop` can mention while it runs, with the drops of children inside it; a call of `ArcIntern` that is left to run ends; from executions with trees to executions with handles (C99) |
| `Verif/DeepSize.lean` | deepsize impls |
| `Verif/Pool/HashFree.lean`, `Verif/Arc/HashFree.lean` | simulations between executions with different hash functions (C73) |
| `Verif/Arc/Settle.lean`, `Settle2.lean`, `Settle3.lean` | visible histories of `ArcIntern` and a simulation between all executions with different hash functions and shards (C73) |
| `Verif/Arc/DeepScan.lean` | `deep_size_of_arc_interned` walking over the shards while other threads go on (C74) |
| `Verif/DeepCtx.lean` | the same with deepsize's `Context`, which makes shared allocations count once (C72) |
| `Verif/*/Spec.lean` | vocabulary of the property statements (reachability, atomic specification, ledgers) |
| `Verif/Props/*.lean` | the property theorems, each with concrete instances of its hypotheses |
| `Verif/Conformance.lean` | the crate's own unit tests replayed on the models (tests of the models, not proofs; no property rests on them) |
| `Verif/Audit.lean` | `#print axioms` for every theorem in MANIFEST.json |

The other modules contain only lemmas and proofs.

Not modelled: Debug/Display/Pointer formatting (delegation to the value) and `AsRef<OsStr/Path>`
conversions (delegation), other than as reads through a handle in C90, benchmarks, cargo features other than as noted, the internals of the
dependencies, bytes of stack (C60 counts nested destructors), real time, and user callbacks that themselves intern
(except in the re-entrancy models for C32, C57, C75, C79, C81, C82, C84–C102).

Property theorems live in `Verif/Props/*.lean`, separate from the models and from the proof lemmas.

## 3. Model of ArcIntern (C01–C13, C15, C16, C18–C20, C54, C56, C58, C59, C66)

State: a heap (association list from addresses to `{count, data}`, newest first), the table (the
addresses registered in the DashMap), the shard locks, the list of handles held by clients, and a list of
threads. A thread has a program counter (one constructor per atomic step of `new`/`drop`/`len`), a stack
of handles it still has to drop (fields of destroyed values) and a pending return value. A value may
itself contain handles: `kids v`. `step s a` returns `ok s'`, `blocked`, or `ub` (touching freed memory).
Actions: client calls, one atomic step of a thread (with an allocator choice), a user panic at a
lookup/removal, and separately a panic in insertion.

Panics of user destructors are not actions of their own. When the destructor of an interned value panics, unwinding still drops its
fields and releases its memory, as the model does; then the call ends without returning. If it was a `new` (the destructor of the
argument of a hit), the handle it was going to return is leaked or dropped, depending on the version of rustc: in the model the call
returns and the client forgets or drops the handle. A second panic while unwinding aborts the process, which ends the execution.
For `Arena` and `Intern` the panic of the argument's destructor is an action; a panic in a destructor while an arena is
dropped leaks the remaining values and is not modelled.

Counts wrap modulo `W` (2^64 on 64-bit targets); executions are considered in which no object ever has
`W` or more handles, and C18 shows that restriction is necessary.

Central invariant, proved by induction over steps:
heap addresses = table ⊎ boxes private to one thread; table values pairwise unequal; every handle points
into the table; the count of a registered object = number of its handles + transient increments; an
object with no handle is registered iff exactly one thread is committed to removing it (or a user panic
stopped it); locks are held by exactly the threads whose program counter says so; the heap is ordered so
that values only contain handles to older objects.

* C01, C02, C03, C05, C06, C09, C16: corollaries of the invariant.
* C04: invariant + the heap order (the newest object cannot be owned by another object).
* C07: one-step lemma, lifted by induction over the suffix.
* C08: refinement: each step either leaves the multiset of handles unchanged (up to order) or is one action of
  the atomic specification in `Verif/Arc/Spec.lean`.
* C10: case analysis: lock holders are never blocked.
* C11: construct the continuation: finish lock holders, then pending removals (well-founded on heap size
  for cascades), then the remaining loops.
* C12: run the step function symbolically from a quiescent state.
* C13: induction over the execution between start and end of the scan.
* C15: induction on trees with C01 for the node type.
* C18 negative: explicit execution of `List.replicate` clones, by induction.
* C19 negative: explicit execution ending in `ub`. C20: invariant of the suffix.
* C14: separate interleaving model of get_container; one invariant for the contents of the table, one (`Excl`) for
  who excludes whom (`C14_exclusive`).
* C17: executions are paired with the trace of their memory events (`Traced`); invariant: each access to a
  live object is known (happens-before) to somebody who will pass it on before the object can be freed: a
  client handle, a thread with a handle, the counter, the shard lock, or an object containing a handle. The
  last decrement acquires them all.

* C54: a lexicographic measure (unfinished `new` calls, table size, heap size plus expected allocations, remaining
  program-counter steps) that every step decreases except the retry loop of `new`; so a fair execution ends with
  retries only, and a retrying `new` implies a pending removal, which fairness lets run. The two negative parts are
  periodic executions, checked around one period (`Verif/Arc/Lasso.lean`).
* C56: the invariant makes the heap a permutation of registered and private boxes, and the registered boxes without a
  handle a permutation of the pending removals and the panicked ones. The second part follows the program counter.
* C58: every write of a counter is an event of the trace. Invariants over the list of all instants: the last write wrote
  the current value; a box not yet inserted has only had the value 1; hence, as an object gets its first handle by
  insertion and transient increments only happen to objects without handles, every value ever written to the counter of
  an object that still has a handle was the number of its handles at that time. The negative part is an execution in
  which happens-before is refuted by a set of events that no edge leaves.
* C66: a plain read may return what the location held at any instant that no write known to the reader (happens-before)
  has followed. The race invariant of C17 orders the write of every value a step needs, and every change of the table it
  probes, before the read; so each possible view is the current one and the step is that of the interleaving model.
  Reads of further values by user code inside `Hash`, `Eq` and `Drop` are covered by C17 only.
* C59: `Verif/Arc/Multi.lean` instantiates the model with the disjoint union of all interned types. The shards of all
  containers are numbered consecutively; `num_objects_interned` and `shrink_to_fit` scan the range of one container
  (C13 is proved for ranges). The hash of a value in the union is defined as the number of its shard, which is all the model
  uses it for. Typing of handles is an invariant of programs whose calls of `new` are well-typed.
* C60: `Verif/Arc/Stack.lean` cuts the flat list `Thread.todo` of the ArcIntern model into stack frames, one per running
  destructor of an interned value (`Stacked`: executions with the stack of every thread). C60_stack_is_todo shows that the frames
  flatten to `todo`. The bound is an invariant: levels rise strictly from the object being dropped outwards. The negative part is
  an explicit family of executions (a linked list). Frames of the destructors of the values themselves and bytes are not counted.
* C62: `Verif/Arc/Wild.lean` repeats the three steps of ArcIntern that look something up with shard and answer chosen by an
  adversary, and adds stores into interned values. What is left of `DashMap` is that a lookup returns nothing or an element
  inserted under the same shard's lock (ghost `home`). One condition is on the removal in `drop`: it finds the dropped object
  or nothing; the other on the two lookups inside an insertion (`Verif/Arc/Insert.lean`): the first finds nothing, the second something. The invariant is that of the original proof without the facts about values, with "at most one pending removal"
  instead of "exactly one" (a removal that finds nothing leaks the object). `SelfReach.wild` embeds executions of the original
  model with arbitrary instances; `Reach.self` shows that partial equivalences meet the condition. Together with the negative part
  of C61 and C62_insertion_lookups_matter this pins the unsoundness on arc.rs:321-322 and on arc.rs:254, arc_dst.rs:103: with a
  removal by address and an insertion that does not read the key back ArcIntern would be safe for all user code that does not panic
  there.
* C79: the calls of a destructor run under a thread number of their own while the thread that runs the destructor is suspended between
  two steps of the destruction, where it holds no lock. Moving handles between the value and the client preserves the invariant. For
  completion, suspended threads are masked (their handles given to clients), C11 is applied, the innermost destructor returns, and so on
  by induction on the nesting.
* C80: in `Verif/Arc/Model.lean` the order of releasing locks and destroying locals is written down by hand for every way out of a
  function. In `Verif/Src/` it is derived: the function bodies are programs of a small language whose rules are Rust's. Every step of a
  program is matched by one step, or by none, of the original model (`Sim`, `sim_step`): a relation between the frames of a thread and a
  program counter. Steps matched by none decrease `work`, so completion carries over (`must_code`). Memory of a value is released after
  the drop glue of its fields, as in Rust; `Sim` hides the boxes whose fields are being dropped, which justifies the
  simplification of the original model (memory released first). Destructors of values may panic (`Glue.value`); the model does not
  see it. Left out: `num_objects_interned`, `shrink_to_fit`, the effect of
  `get_container` (C14); `clone` is a single step.
* C82: every call, also one made by user code in the middle of another, is a thread of its own in the code without nesting (`Flat`) and
  hence in the original model (`Good`). A destructor that moves handles between its value and the client moves them between the thread and
  the client in the model. An explanation of the visible history is built along with the execution (`Good.ev`, `Good.spec`, `Tracks`).
  Where user code runs, the thread of the model is idle or about to look up, and holds no lock (`user_no_lock`); the `Hash` meant
  here is the one that chooses the shard, before its lock is taken. Completion: as C79, with C11 for the threads that are not suspended, and
  `work` for the steps that the model does not see. Calls made under a lock (by `Eq`, and by `Hash` where the table of a shard hashes a key
  again) are C57 and C88.
* C88: a lookup of the code is split in two, taking the lock and the rest; between the two the call may make calls. Taking the lock changes
  nothing but the list of such locks (`held`), and every other step is a step of the code of C82 in which calls may be made at more places (`step_base`). So the simulation and the
  ledger of C82 and C83, which are stated for any set of such places, carry over. New are the invariants of `held` (`Held`): its locks are distinct,
  free in the code below, and belong to calls that are at a lookup in that shard. The entries of a locked shard change only in a step of its
  holder (`entries_step`). Deadlock freedom: the head of a chain of waiting threads waits for a lock; its holder is running or waits, below a call
  inside it, for a lock of lower rank (`holder_runs`).
* C89: as C84, an infinite execution of the code is followed by one of the atomic model, from an instant on at which no call ends any more
  and the model only retries (`Arc.Retrying`). A thread whose innermost call looks up only in shards that no suspended call blocks goes on for
  ever, so it is in the retry loop, meets a dying object, and some call is about to remove that object; this call is not suspended, hence it
  goes on for ever too, which contradicts that the model only retries. So every suspended call that blocks a shard waits for one of lower
  rank, and induction on the rank ends it.
* C83: a ledger (`Ledger`) records, beside the execution, what each step does with values: given, stored, removed, destroyed, and in which call.
  What a frame owns is read off its variables and pending drop glue (`owns`). Every step of a frame changes what it owns, memory and the
  ledger by one of ten transitions (`Trans`, `run_change`, `panic_change`), each of which keeps the three accounts: of owners of boxes
  (`Own`), of the table (`Held`), and of values, in total and call by call (`Bal`). That an assigned variable exists comes from C82 (`rel_proper`).
* C84: the termination argument of C54, carried over to the code. Each call is a thread of the model (C82); a step of the code is a step of the
  model or lowers the `work` left before the next one, so a call that steps for ever does so in the model. When no more calls end, the innermost
  calls stay the same; fairness holds for these only (an outer call waits for the inner one), so `Arc.Settled` takes fairness for a set `P` of
  threads that contains those holding a lock or about to remove an object. With calls from destructors only, these are innermost calls.
* C78: invariant `Absent` (a thread about to insert has found no equal element, and holds the lock of its shard, so there still is
  none) shows that the first lookup finds nothing; the second finds the new key exactly if the value equals itself (`run_vacant`).

## 4. Intern and Arena (C24–C39, C49–C53, C55, C61, C67, C81, C85)

Generic model `Pool`: a family of sets (one per type for Intern, one per arena for Arena) protected by
locks (`lockOf`: shard for Intern, the arena's own for Arena), with explicit steps: lock; lookup (user
hash/eq, may panic); build the value (user From, may panic); insert (may panic); unlock and return. Addresses
include the zero-sized rule; a handle is (address, metadata). Intern leaks the inserted reference, Arena
owns the box — so inserting a value already present frees the new box (`freeDup`), which is what C37 exhibits.
`container.rs`'s type-indexed shards are a concrete refinement of the family (C28, C29).
C53: executions carry a count of panicking insertions; the invariant gives the number of boxes by induction.
C61: `Verif/Pool/Chaos.lean` repeats the step function with the answer of every lookup chosen by an adversary among "nothing" and
the elements of the table (that a `HashMap` with broken `Hash`/`Eq` returns only stored elements is part of the trusted base: std
documents that it stays memory safe). C61_all_user_code_covered ties it to `Pool.step`. Safety of `Intern` is an
invariant of that model; the negative parts for ArcIntern are executions of `Arc.step`, with an added action that changes a stored
value for interior mutability. The positive part regards a value as what `Deref` gives; a value that itself changes through interior
mutability is represented by its identity.
C55: each move of a thread lowers its rank in the call; a lock holder is always enabled, so fairness frees every lock
again and again, and a waiting thread gets it. The same argument for `container.rs` with arbitrary closures is
`TypeMap.C55_with_starvation_free` (types that share a shard share its lock).
C67: as C66. Memory is addressed: a read through a pointer may see what any earlier box at the address held. The invariant of C50 orders
the creation of every value before the reads of whoever holds the pool's mutex or has the handle. Zero-sized values have no memory.
C81: as C80, for `Intern` and `Arena`. Every call, also one made by user code in the middle of another, is a thread of its own in
`Verif/Pool/Model.lean` (`Sim`, `sim_step`), so linearizability and canonicity carry over to nested calls. What the functions still have to
destroy (`owed`) accounts for every lock, every value and every half-destroyed box (`Acct`); each step of the language preserves this
account whatever the program is (`run_change`). The arena model frees all boxes of an arena in one step; the code destroys them one
after the other, and `Sim` hides those of arenas that are being dropped. Destructors start (`Glue.value`) and then run user code (`Glue.user`).
User code itself is not modelled, only the calls it makes and its panics. Termination: a weight of frames (`frameW`).
C32: small model of nested critical sections; C57 translates the calls of all three interners into it. C39: auto-trait rules as functions plus an explicit
execution.

C85: starvation freedom of that code in infinite executions. Between two steps that take a lock a call takes boundedly many steps (the
distance to the end of the function, C81), so a thread that is never idle again is, from some instant on, waiting for one lock. The holder
of that lock is a call of another thread. If that thread releases it again and again, the waiting thread can run again and again, and strong
fairness lets it. Otherwise that thread is stuck itself, for a lock of a higher level. Levels are bounded (finitely many threads, or a bounded
hierarchy), so this ascent ends. That user code ends (`UserCodeEnds`) is a hypothesis, as is the hierarchy (`Ranked`, from C81); both are
shown to be met by an execution that loops for ever with a destructor that interns values, and the negative
results are executions that repeat a loop or stop.

C24–C27 are proved twice: for the family of pools, where the heap and freeing are explicit, and (`*_end_to_end`) for the
closures run on the model of `container.rs`. In the latter a call's allocator is a function from the addresses in use to a new
one, chosen by the caller, and leaked values are kept beside their pointers. The same lemmas about sequential replays of
closures give C51 and C52 for `NewIntern` on the model of `typearena.rs`.

## 5. The rest

C21/C22: `Layout` arithmetic on naturals with the isize::MAX checks; byte-range disjointness. C23: conversions as
functions to content; C65 the same for the other interners, from C24, C35 and C51. C40: from canonicality and laws of the value type. C41/C42: `BitVec 64`. C43: interleaving model
with stale loads. C44/C45: serde data-model tokens. C46/C47: append-only vector model. C48: sums over the
table. C40, C41 and C44 are also proved for the handles of `NewIntern` (`Props/NewIntern.lean`), from C51.
C63: the argument of C55 on the model of `typearena.rs`; the search after a push is enabled because the new length is known
to the thread. C64: `Coherent.lean` runs the model with, per thread and shard, the largest length the thread has read, and a
load must not return less; the invariant gives every table a different thread that knows it.
C86: `NewIntern` as it is written, in the language of C80–C82. Once a call has taken the mutex of its type, the rest of it is the same as a
call of `Intern` as it is written (C81), with one lock per type; so each execution is simulated by an execution of the code of C81 in which a
call starts when its mutex is taken (`num` maps the numbers of calls; calls that are refused because the mutex is poisoned do not exist there,
and the values that they destroy are accounted for separately). The search and the push come before that: the vectors only grow, so the
first table of a type is the same for every thread that finds one (`First`), and a thread that has pushed finds one. Poison flags, the set of
a poisoned mutex and spare tables are invariants of steps (`Cells`); that later calls do not return is an induction over the continuation:
such a call is always before its lock operation, or unwinding (`Pre`). Assumed about `std::sync::Mutex`: mutual exclusion, and the rule for
the poison flag (set when a guard is dropped by a thread that is panicking and was not panicking when it locked).
C87: the argument of C85 for that code. The weight of the functions that a thread is executing (`frameW`) decreases with each of its steps, so a
thread that starts finitely many functions becomes idle, or from some instant on it waits for the mutex of a type; the mutex then has the same holder
for ever, and the holder waits for a mutex of a higher type. A poisoned mutex does not block: the call that finds it unwinds. That a call which is no
longer running has returned or panicked is an invariant of the history (`Reach.open_or_over`).

C68: as C66/C67 on the model of `typearena.rs`. `AppendOnlyVec` is taken to synchronise a push with every load of a length that counts it.
The hash set of a type and the values it owns are one location, written at a `data` event; a push writes the element, the box, the empty set. Only
the step that publishes a push is an event: the element is reserved and written before, by the same thread.
C69: a history is a sequence of actions on one value, each a list of pointer operations; a set of rules is a function that accepts or rejects
a list of operations. Acceptance: an invariant that relates the state of the rules to the pointers the program has (`Hist.allowed`). Rejection: an
invariant of the accepted histories (`Hist.holds`). Every move of a box, also inside of another value, is a retag.
C70, C71: the sequential meaning of the histories (`Replay`, C28 and C46) reduces both to facts about single closures on the memory of one type: the
invariant `WGood` (elements point to boxes, a pointer has one value) for arbitrary lookup answers, `WCanon` (elements pairwise unequal) for lawful
ones; a pointer that left the set does not come back (`replay_gone`), because the allocator does not reuse leaked boxes.
C72: the depth-first traversal of deepsize through a graph of `Arc`s, with the set of visited addresses as its `Context`; invariant: everything below a
visited address that is not an ancestor is visited. Trusted: deepsize's own `impl DeepSizeOf for Arc` is as in `visit`.
C73: erase the hashes of keys (and, for `ArcIntern`, which lock is held) from states; a step commutes with erasing. For `ArcIntern` this needs that the lock a
step takes is free in both executions, which holds if no lock at all is held ("calm"). For all other executions (`C73_arc_concurrent`) the second one is not in lockstep: it does each critical section in one go, at the
step of the first at which the outcome is decided (the increment from a non-zero count, or the lookup of `entry`), and none for lookups that find a dying
object. The visible history (`Witnessed`) is the same.
C74: executions of the `ArcIntern` model interleaved with a walk that holds read locks; steps taking the write lock of the shard being read are excluded. Invariant: the
entries still to visit stay registered; the objects visited are pairwise different and include every object that stayed in a shard already read.
C75: `Verif/Pool/Late.lean` adds to a state of the pool model the stack of arena calls that have unlocked and are dropping their argument; a thread may make calls meanwhile.
Every state is covered by a state of the pool model in which those calls have already returned (forward simulation), which transfers C34-C36; the rest is by an invariant
on the stack and the bound of C34. This also shows that the order of the two steps in `Verif/Pool/Model.lean` loses nothing.
C76: each step is classified into nine kinds (`Effect`), each of which keeps the invariant that every box of an arena is in its set or about to be inserted, once, and keeps the balance
"supplied = destroyed + in the library's care". The values are arbitrary, so a serial number in them tells equal values apart. A panic of a destructor while an arena drops its elements is not modelled.
C77: the two models run side by side; a value that is supplied to a pool takes its handles away from the program, a value that is destroyed gives them back (to the destructor, which drops them). The balance of C76
gives that the handles outside `ArcIntern` are those of the program and those inside values in the pools' care; everything else follows from C02, C03, C07, C15, C16, C75 and C76. Liveness of the mixed program is not treated.
C90: a program is a list of threads, each a tree of operations (intern, clone, drop, `==`, `cmp`, read, send, receive) that branches on what was seen. Forward simulation: a step of the program with handles is one
or no step of the program with values; a call takes effect when it returns. What is needed of an interner is collected in `Laws` (`Verif/Client/Sim.lean`): handles lead to a value while the program owns them, equal values have equal handles, a call returns a
handle to an equal value. They are proved from the theorems of C81, C86 and C88, for the functions as written. That the program owns its handles is a condition on the steps of the rest of the process, as in C88 (Rust's ownership).

C91: the laws that C90 needs of an interner hold for the pair of two interners that obey them (`prod_laws`), and for all types of `Intern`, all arenas, and all types of typearena.rs together (`pools_laws`, `newInterns_laws`); so the refinement of C90 applies to the
combination. The state of the pair says which of the two the program itself has called, and that a call inside it ends first. The examples run a program with all four kinds, and one where hashing inside an `ArcIntern` call interns into an `Intern`.

C92: a forward simulation from executions with values to executions with handles. What it needs of an interner is collected in `Able` (`Verif/Client/Able.lean`): from a state in which nobody is inside a call, every call of `new`, `clone` and `drop` can be carried through to its
end, in steps that take nothing away from the program, to a state in which again nobody is inside a call. For the interners with a mutex this is a run of the code without interruption (`run_calm`); for `ArcIntern` it is the termination argument of C82 (`must_all`), with a bound on the handles that
a call mentions meanwhile (`ArcSmall`), so that no counter overflows; and `prod_able` combines two interners. The side conditions are necessary: C20, C47 and C18 show what happens without them.

C93: a simulation from executions with handles to executions with trees. A handle stands for a tree if following it, and the handles in the nodes, gives the tree (`Arc.Unfolds`, as in C15). Two facts about the functions as they are written carry the proof (`Verif/Src/ArcTerm.lean`). First, every handle that the client owns, every child of a stored node and every child of a node that is being passed to `new` leads to exactly one tree, and two that lead to the same tree are the same address; the proof is by induction on the tree, with the fact (C84–C88) that the table has at most one entry for each node value. Second, a step of any thread keeps the tree of every handle that is still owned after it, also when nodes die in the same step and their addresses are free for new nodes, since a node that is reachable from an owned handle has a positive count. The children that were moved into a call of `new` belong to the call and not to the program; the invariant keeps their trees until the call returns or starts to panic, in which case they are dropped and no tree is claimed for them. When the call returns, the node found or stored has the same label and the same child addresses as the argument, so the result stands for the tree that was to be built. The program with trees takes no step while a call runs, and none when a call of `drop` ends.

C94: that parts of terms are in the table follows from the invariant that every handle, also one inside a stored node, is in the table; that they are there once, from the uniqueness of entries and, for the children, by induction on the term. When no call is running and nothing leaked, the table is exactly the set of all handles, of clients and inside nodes. An entry to which no client has a handle is therefore a child of a stored node; that node is newer (a node is built after its children), so following parents comes to an end, at a node to which a client has a handle. The sum of the occurrences is counted node by node along the heap, where a child's address is that of a node just if their trees are the same.

C95: `cmpAt` and `writeAt` follow handles through a sequence of memories, one for each read, with a bound on the depth of recursion; `none` is a
read through a dangling handle, or too deep a recursion. From C93's invariants, a handle that is owned all the time leads to the same nodes all
the time (`Fixed`: by induction over the depth of its tree, since addresses may be reused only for nodes that died). Induction over the bound then
gives the order and the text of the trees. `text_inj`: no text is the beginning of another. Reading in is a program of C93 (`load`); its result with
trees is computed by induction over the tree, and C93 carries it over.

C96: the invariant of the simulation is that the handles in variables and queues contain, with a node, its children (a child that is put into a
node was in a variable, and variables keep what they were given). On such a set, one address for each node (C90's laws) gives one address for each
tree, by induction over the tree; and nodes that were returned stay as they are, so that the tree of a handle never changes. Other parts of the
process may intern nodes with any children, also addresses that were never returned: they are not in the set.

C97: induction over the execution with trees. Between two steps no call is running; a step that builds a node is a whole call, which can be carried
through by itself (the lemmas `Quiet.call` of C92), and the other steps are taken over one by one with C96's invariant.

C98: as C95. The handles of a program are never given back, so what was read through the handles that the program has (and, since these are closed
under children, through those below them) stays the same in all later states; that is one more induction over the execution with the invariant of
C96. `cmp` and writing are then by induction on the room on the stack. Reading in is a program of C96 that never sends; its result with trees is
computed, and C96 carries it over.

C99: by simulation in the other direction, with a scheduler that lets every call run without interruption. That a call ends is C89's `Must`. What is
new is that no counter overflows on the way: dropping a node drops its children, so that a call mentions more handles than it started with. Each
frame of the stack gets a weight, the number of handles that it may still mention. The weight of the stack plus twice the handles in boxes
(`Src.ArcCode.pot`, `bal`) does not grow while a call runs: a box that is destroyed pays for the frames that drop its children. With trees, a thread may pause
between the two halves of `build` while others go on; with handles the whole call is made when the second half is due (`Lag`). Not covered: start
states in which some call is going on, and programs that come near the limit of the counters (C18 says what happens there).

C100: an infinite execution `σ` of the process (C85, C87), and worlds `ω` of a program that runs in it from some instant on. Weak fairness for a
thread's own code (`Attentive`): a thread that stays able to take a step of its own takes one. Code is finite, so every thread stops somewhere. If
the program with trees could go on from there, some thread would be inside a call for ever, against C85 or C87, or be able to take a step for ever
and not take one, against fairness. An execution in which a call of the program ends in a panic has no `ω`, and is not covered. Programs with
`ArcIntern` handles are not covered either: other threads that go on making calls for ever can starve `ArcIntern::new` (C54), so the statement is
false for them as it stands.

C101: as C100, for the programs of C90. A thread is strongly fair in its own code (it goes on if it can go on again and again): while it drops a
handle that is `Copy`, other code of the process may run in the same thread, and the thread can go on only between such calls. Every thread stops at
some operation, since code is finite. From then on the program with values stands still: a run of it that ends with all threads at the operations
where they were has no steps, because no operation comes after itself. If a thread could go on with values, it could go on with handles: it is not in
a call for ever (C85, C87), a drop ends, and in its own code nothing holds it up. The end of a thread that is alone follows, as its evaluation with values
is never stuck.

C102: as C101, with the interners of C92's kind (several pools, all typearena tables). The lemmas of `Verif/Client/Fair.lean` are stated for
programs that use some of the values only (`Prog.Only`), here those of the pools that the program owns or borrows.

No property is classed as not expressible. Memory orderings (C17, C39, C50, C66, C67, C68) are modelled with happens-before
over a total order of the steps, not the full C++ model.
