# Formal model of `allocative` in Lean 4 — design

## Layout

```
lean/Verif/Model/*.lean   executable model of the code; every definition cites /repo file:lines
lean/Verif/Spec/*.lean    small specifications, independent of the model's algorithms
lean/Verif/Lemmas/*.lean  proofs
lean/Verif/Props/*.lean   the property theorems (C01 ...); at the end of each file every theorem with hypotheses is applied to a concrete case
lean/Verif/Props/Showcase.lean   one value of every kind (each constructor of Datum and Alloc), all in one profile: they meet the hypotheses of C48, C52, C59, C60, C62, C70 together
tools/props.py            source of properties.jsonl
tools/claims.txt          source of MANIFEST.json (tools/manifest.py checks that the theorems exist)
seeded/LOG.jsonl          wrong programs tried against the theorems (rule 5)
```

| model file | code |
|---|---|
| Key | key.rs, `hash` and `allocative_key` of derive_allocative.rs, `ident_key!` of lib.rs |
| Collections | `HashMap`, `sort_by_key`, `join`, `Display` for integers, as used by flamegraph.rs |
| FlameGraph | flamegraph.rs:26-96 |
| Visitor | visitor.rs: `VisitorImpl`, `Visitor` handle with `exit`/`Drop`, and arbitrary visit programs |
| Builder | flamegraph.rs:116-495 (arena, tree stacks, `enter_*`, `exit_*`, `finish`) |
| SizeOf | size_of.rs |
| Object | the recursion pattern through shared pointers |
| Usize, Impls | targets of 32 and 64 bits, `usize` arithmetic, `Layout`, and every `Allocative` impl in allocative/src/impls |
| Datum | a deep embedding of values built from these impls, and which impl each uses |
| Derive | allocative_derive/src/derive_allocative.rs (attributes, generics, code generation, meaning of the generated code) |
| Root | allocative_derive/src/root.rs, with name resolution and `ctor` start-up |
| Locks | visits that take locks, borrow cells, upgrade weak pointers, with other threads interfering at every step |
| Live | values (as Datum) that have locks, cells, weak pointers, DashMaps and DashSets in them whose contents other threads change; size_of_unique_allocated_data beside other threads |
| Threads | small steps: looks of visits at shared memory, any number of profiling threads and calls of size_of_unique_allocated_data beside the others of the program, interleaved |
| ThreadsMachine | the same looks with the builder of machine arithmetic |
| Registry | global_root.rs and `visit_global_roots`, as a labelled transition system of threads |
| Pointers | addresses that identify shared allocations (`as_ptr`, `heap_ptr`, `ptr_hash`) |
| Machine | flamegraph.rs and size_of.rs again, with machine arithmetic, overflow checks on or off |
| Alloc | the allocation behind each kind of shared pointer, with the layout the code computes for it |
| Session | any sequence of calls on any number of builders that the borrow checker admits |
| SizeSession | any sequence of calls on the visitors of calls of size_of_unique_allocated_data, next to builders |
| MachineSession | the same sequences of calls on builders and during size_of_unique_allocated_data with machine arithmetic, both build modes |
| MachineLocks | visits beside other threads (Locks) with the builder of machine arithmetic, both build modes |
| BuildScript | build.rs: what is printed and where it panics, given RUSTC, what the compiler prints and the UTF-8 check; key.rs:75-95 with and without `cfg(rust_nightly)` |
| Write | flamegraph.rs:69-95 (the loop of the writer, word by word) and `finish_and_write_flame_graph` |
| Unwind | `FlameGraph::add`, `add_child`, `add_self` in a debug build, with the state left behind by an overflow panic |

## Modelling choices

* `str` = its UTF-8 byte sequence (`List UInt8`); `Key` = `{hash : UInt64, s}`.
* `usize` sizes = `Nat`, `isize` = `Int` in Builder/FlameGraph/SizeOf.  Machine repeats these with machine arithmetic and C42/C46 relate the
  two: same result if the sizes add up to at most `isize::MAX`; otherwise debug builds stop with a panic, release builds wrap (C56).
* The target: every definition that depends on the width of `usize` takes an instance of `Target` (32 or 64 bits); theorems with `[Target]` hold for both.  16-bit targets
  (no std) are left out.  Examples use `Target.x64`, those of Props/Word32 `Target.x32`.
* `HashMap` = association list, looked up by key equality; whenever the code *iterates* a map the model passes the entries
  through an arbitrary permutation (`HashOrder`, may differ per map), so theorems hold for every iteration order.
* `assert!`, indexing, `unwrap` = explicit error value (`Except Panic`).
* The arena (`Trees`, `TreeId`, `TreeStack`, saved `shared` stacks) is modelled as is.
  Recursion over the arena takes fuel (number of trees); running out of fuel is an error value that is proved unreachable.
* `VisitorImpl` (trait object) = a structure of functions over a state; three instances: the builder, the size_of visitor, and an event
  recorder used to state properties about calls.
* User code (`Allocative::visit` implementations) = arbitrary finite interaction trees `Prog`: a deterministic terminating visit function only
  observes Some/None of `enter_shared`, so it is such a tree.  Each visitor is exited, dropped, forgotten or leaked; panics and `catch_unwind` are
  constructors.  Rust's borrow checker gives LIFO nesting.  Session drops "deterministic" and "terminating": any call sequence, several builders, swapped visitors (C58).
* Object graphs = forests with shared pointers into a heap `Ptr → Obj`, cycles allowed.
* Values = `Datum` (about fifty constructors, one per supported kind of type).  Facts that Rust guarantees about layouts (a field fits in its
  struct, `len ≤ capacity`, ...) are the predicates `Datum.WF` and `Datum.Fits`; what the allocator really handed out is `Datum.heap`.
* Locks: a store of lock states; before every access and every read of shared memory another thread may change it arbitrarily (`Env`), subject to what a lock guarantees.
* Registry: threads interleave at the granularity lock / push or clone / unlock.

## Plan per property

| id | modelled | proof |
|----|----------|-------|
| C01 | builder arena vs. list of records (stack, size, unique) | simulation invariant + post-order update correctness |
| C02 | FlameGraph.write, Write | structural induction; sortedness + membership; the literal writer equals the structural one |
| C03 | write + parser | round trip by induction |
| C04 | negation witness | concrete evaluation |
| C05, C06 | HashOrder parameter; permuted histories | outputs shown equal to a function of the records |
| C07, C11 | calls of `enter_shared` over histories | event log simulation |
| C08–C10 | Obj/heap depth first search | closure invariant, permutation of records |
| C12–C15 | Prog execution with leaks, panics, exit/drop | simulation with a reference stack machine |
| C16–C22 | totals, warnings, algebra of flame graphs | induction on FlameGraph + path sums |
| C23–C25 | size_of visitor | induction on Prog / Obj |
| C26–C28 | Key | list induction, order lemmas, witnesses |
| C29–C30 | registry threads | invariant over all schedules |
| C31, C44, C51 | execution with locks and counts | induction on LProg, every interference; a call that waits looks again and again, other threads make a step before each look; for DashMap the reads of each shard, one after the other |
| C32–C35, C48, C49, C52 | impl models | induction over Datum |
| C36–C37, C50 | integer arithmetic, Layout | rounding and power of two lemmas |
| C38–C41 | derive model | induction over AST / tokens; C41: trait resolution as an inductive relation (impl table, assumptions in scope), demands of the generated body, monotonicity and substitution |
| C42, C46 | wrap-around arithmetic | simulation under a bound / fail-stop |
| C56 | the same, overflow checks off | homomorphism: sizes modulo `usize::MAX + 1` commute with every operation |
| C57 | Model/Unwind: `add`, `add_child`, `add_self` with the state of `self` at an overflow panic | induction: a nested `add` cannot overflow because the outer cached size overflows before |
| C58 | Session: call sequences over several builders, LIFO per builder | step invariant relating live visitors to the tree stacks; projection to one builder |
| C53 | addresses of allocations, `Layout` of the headers | place of the identifying address relative to the allocation |
| C59 | Alloc: C36/C50 layouts, C32/C33 accounting, C52 report | counted bytes of a visit = bytes visited on the heap (induction over Obj), summed over roots and reachable allocations; mixed stacks are excluded by naming (Spec/Names: the last two labels decide whether a stack is unique, induction over Datum), which also gives C25 for values |
| C60 | Datum, Alloc, Machine | records at the same depth describe disjoint memory: induction over Datum; then C42, C56 |
| C61 | Locks, Datum: values with places whose content depends on the memory | every resolution of a live visit has the trace of a snapshot's visit (induction over values, pointees, roots; heaps merged by what was visited), then C51, C52, C06 (a DashMap or DashSet is waited for; it ends because others let go of the shards, `Env.LetsGo`); evidence for what is seen is a moment with the stack of guards held then, so it can be confined to moments without the place's own guard (one owner) and with it (content); nobody else: the store is the initial one with the stack on top; total: C59_named_accounting for the snapshot; size_of: induction with pointees erased |
| C62 | Datum, reports | the records of an object in the order they are made determine what is inside of what; induction over objects: self size = sum of (size - direct parts), with C52, C59_unmixed |
| C63 | builder, sessions, object graphs, Datum | simulation: the builder that has seen the moved addresses makes the same steps; visits of moved objects and values are the moved visits |
| C64 | builder | C16: attributed bytes only grow with records; self sizes stack by stack |
| C65 | builder, object graphs | C08 (permutation of records) and C11 (log), arena invariant |
| C66 | SizeSession | step invariant (no visitor of kind shared), projection to one call; visit programs translated to call sequences |
| C67 | Builder, Object | the log of a visit as a function of the program; induction over the traversal for the peak of live visitors; `finish` with any bound on the depth of recursion equals `finish` or fails, by the bound; lower bounds by induction over programs (C67_at_least) and exact depth for roots without shared pointers (C67_owned, C67_box_list); an upper bound for every history without leaks from the longest stack and the number of shared addresses entered (C67_at_most) |
| C68 | MachineSession | wrap simulation (release); step invariant: equal to the unbounded session, or dead with one node more than visitors (debug); induction over operations |
| C69 | Moved | explicit environment (one exchange between two visits), invariant over `Env.Occurs`, evaluation of the live run |
| C70 | Merge | per-group profile as a sum of gaps (C62, C59), additivity of gaps, double sum over groups and allocations |
| C71 | Rebuild | client code folds `add` over single-stack graphs; induction on the list of lines, then C02 and the parser of C03 |
| C72 | CarryOver | traces depend on the visited addresses as a set (induction on programs); counts per stack determine the output (C35); conversely one distinguishing root per kind of difference, read off the text by C03 |
| C73 | Frames | sums over the stacks below a prefix (each record counts at its stack and, unless inside of a unique one, is taken off its parent); then the accounting of C59 restricted to the records with one top name |
| C74 | Reordered, Reproducible | congruence: reordered values have shuffled visits (mutual induction), then C63 (addresses) and C10 (orders) composed through the heap moved but not yet reordered |
| C75 | Local | the sums of C01 and C18 at a stack are over the records at it and directly below it; values: the records split into common ones and those of the change |
| C76 | Nested | the sums at a stack are unchanged when a stack is put in front of all records, and records elsewhere do not touch them (C75); values: what a datum reports below a stack is what it reports at the top, put below the stack; the records of derived structs split by field (C73) |
| C77 | SameNames | the trace of the renamed program is the trace with renamed stacks; sizes and children sizes at a stack are sums over the stacks that become it, then max(0, S - C) of sums against the sum of max(0, S - C); leaks do not depend on names |
| C78 | Retained | the profile of one group (C70): both profiles are sums over roots and reachable allocations; reachability from two lists of roots is the union |
| C79 | LiveMachine | wrap simulation of `execL` (release); sizes in the trees only grow, so if they fit at the end no addition overflowed (debug); each overflow leaves a node without a visitor, so the builder stays entered (fail stop); the snapshot of C61, with the bounds of C60 on its sums |
| C80 | BuildScript | substring search is the existence of a decomposition (induction); the bytes `v` and `y` are in no version of a stable or beta compiler |
| C81 | LiveMachine, Spec/LiveEvents | the log of calls does not influence visits with locks (erasure); each run with locks is the logged run of a resolved program (as C61), whose trace is that of a snapshot; then C11, C65, C67_at_most and C67_values |
| C82 | Live, Spec/Confined | filling the places of a shape at the level of visits (C61): the records of a visit are those of the bare data plus records at and below stacks of places, by induction over the visit; allocations reached only through places add records under their own names; then C75_local and finish on the snapshot |
| C83 | Threads, Spec/Threads | visits as trees of looks at memory shared by any number of profiling threads; executing a tree of looks is the big-step visit of Locks (induction over the program); by induction over the run each thread sees the rest as a respectful environment; then C31 and C61; looks are finite by induction over the tree; fairness for ends; invariant that no profile locks a shard exclusively; exclusion of guards and single destruction as invariants of runs |
| C54 | registry + builder + Datum | composition of C29 and C52; for roots that change, C29 and C61 |
| C55 | derive + Datum | composition of C38/C39 and C52 |
| C43, C45 | hazards | exact formulas and witnesses |
| C47 | root macro + registry | injectivity of the generated names, start-up as a schedule |

No property was dropped as inexpressible.

## Not modelled

* Cost of user code.  (Code that does not terminate, or that exchanges visitors of different builders, is covered by C58 at every moment of its run; the other
  properties are about visits that end.)
* Stack overflow itself (the depth of the recursion is proved, C67), allocation failure, I/O.
* UTF-8 validity (statements range over all byte strings); the tables of Unicode are a parameter with laws (`RootMacro.Unicode.Lawful`).
* Token level details of syn (paths are an arbitrary parser that consumes at least one token; spans, error messages, attributes of generic parameters).  Name resolution of `allocative::` and
  `std::` in generated code; trait resolution beyond a table of impls (C41).
* Impls for uninhabited types (`Infallible`, `!`): never called.  Test code, golden.rs.
* Memory orderings: `Mutex`, `RwLock`, `Arc` are taken as linearizable.  A thread that waits for a shard looks again and again (others may do any number of things between two looks); one that is never woken up is not modelled.
* Hashers, allocators and the internal layout of third-party crates enter as parameters (`heap` of a Datum), with the bounds stated in `Datum.WF`.

## Trusted base

* Lean 4.33 kernel.
* Axioms: every theorem depends on at most `propext`, `Classical.choice`, `Quot.sound` (checked with `#print axioms` over all claim theorems
  outside of the build; `vcheck` replays all modules).  No axioms of our own, no `sorry`, no `native_decide`/`bv_decide`.
* The reading of the Rust code (cited per definition) and of the documented behaviour of std, Rust's borrow checker for LIFO nesting of visitors.

## Findings: defects and hazards of the code

Each one marked (Cnn) is a theorem.

* F1 Contents of std maps and sets are visited below an *inline* `data` node of pointer size (`visit_generic_map_fields`): warnings, and 0 bytes in
  `size_of_unique_allocated_data` (C33).
* F2 `;` or newline in a name makes the text ambiguous (C04).
* F3 Visited addresses persist across roots, so a reused address hides the second object (C43).
* F4 A stack entered both as unique and inline is double counted (C45; TODO in the code).
* F5 derive: default of a const generic parameter is not removed from the impl header, the expansion does not compile (C41).
* F6 triomphe `ThinArc` with over-aligned elements: size too small (48 instead of 64; C50_thin_arc_underestimates); exact whenever
  `align T ≤ max(align usize, align H)`, never too large.
* F7 impls/std/thread.rs is not declared in impls/std.rs and never compiled.
* F8 Overflow in `size += size` in debug builds leaves the pushed node un-popped, later uses panic (C46); single nodes of more than `isize::MAX` bytes vanish
  with a warning (C42_bound_needed); `catch_unwind` inside a visit can make a debug build of `size_of_unique` return too small a value.
* F9 `Vec<anyhow::Error>`, `Box<&'static T>`: contents not counted.
* F10 SmallVec spare capacity and Slab entry overhead are not counted.
* F11 Contents of locked or poisoned locks are silently skipped (C31).
* F12 `Vec<ManuallyDrop<Box<T>>>` is counted flat because `needs_drop` is false.
* F13 Type-level `skip` on a union is accepted although unions are rejected otherwise (C38).
* F14 `#[root]` lowercases the name of the static: two statics that differ by case collide (C47).
* F15 The table of an `IndexMap`/`IndexSet` is estimated from `len`, not from its capacity: too small after removals or `with_capacity`.
* F16 A size given to the root of a FlameGraph with `add_self` is never printed (C17).
* F17 `DashMap::capacity` and `len` are read at different times; `saturating_sub` avoids a panic.
* F18 Visiting a `DashMap` waits for shard locks, a guard held by the caller deadlocks (C51); it waits for a shard while it holds the shard before, so it and a thread with guards of
  two shards can wait for each other (C51_holds_while_waiting).
* F19 `Arc<ZST>::as_ptr` may equal the `heap_ptr` of a triomphe allocation next to it, hiding the second; nothing else collides (C53).
* F20 The `upgrade()` in the visit of a `Weak` may become the last strong reference: the visit runs the destructor (C44_last_reference).
* F21 IndexMap: used entries count as `size K + size V`, padding is lost (C34_indexmap).
* F22 A panic in a visit poisons the std mutexes it is in (C31_panic_poisons).
* F23 derive: a field called `visitor` makes the generated code fail to compile (C38_field_named_visitor).
* F24 Type-level `visit`, field- and variant-level `bound`, variant-level `visit` are accepted and ignored; attributes of fields of a `skip` variant are not
  checked; stray commas and empty parentheses are accepted (C40).
* F25 `#[root]` on a raw identifier panics in the macro; `static mut` does not compile; an item called `_<name>_register_root` clashes (C47).
* F26 A visit recurses once per shared allocation on a path: profiling a linked list of n `Arc`s nests 2n+2 visitors and can overflow the stack of the thread (C67_list_depth); the flame graph itself stays shallow.
* F27 The profile of changing data can count a value twice or not at all if it moves between locks during the visit (C69); C61 says each place is seen as at a moment of the visit, not all at one moment.
* F28 Adding flame graphs of separate builders counts shared memory once per builder that reaches it (C70); nothing warns about it.
* F29 derive: a type with a lifetime parameter `'allocative_a` or `'allocative_b` does not compile (C41_header_ok); a non-empty `bound` replaces all parameters, lifetimes and constants
  included, so leaving one out does not compile (C41_bound_header).
* F30 On 32-bit targets `BigInt`/`BigUint` with an odd number of digits and no spare capacity are reported 4 bytes too large: the code counts 64-bit digits (C49_bigint).
* F31 In a build with overflow checks an addition that overflows during a visit panics while `try_lock` guards are held, so the `std::sync::Mutex` of the profiled program stays poisoned after profiling; in a release build it does not (C79_debug_poisons; only possible with declared sizes of `usize::MAX + 1` and more at one stack).
* F32 build.rs takes a stable compiler for a nightly one if a vendor text in `rustc --version` contains "dev" or "nightly" (C80_vendor); the build then fails at `#![feature(..)]`.
* F33 Two profiles of the same data at the same time see each other's guards: one can miss the content of a `Mutex` that nobody else uses, because the other has it locked (C83_profiles_hide).
