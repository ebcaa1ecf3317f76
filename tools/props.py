"""Source of /verif/properties.jsonl (run: python3 tools/props.py > properties.jsonl)."""
import json
P = []
def p(title, statement, quantifier, why, *anchors):
    P.append(dict(id=f"C{len(P)+1:02d}", title=title, statement=statement,
                  quantifier=quantifier, why_tests_cant=why, anchors=list(anchors)))
FG="allocative/src/flamegraph.rs"; V="allocative/src/visitor.rs"; SZ="allocative/src/size_of.rs"; K="allocative/src/key.rs"
D="allocative_derive/src/derive_allocative.rs"; GR="allocative/src/global_root.rs"; I="allocative/src/impls/"

p("Self size of every stack in the flame graph",
  "After any sequence of root visits, FlameGraphBuilder::finish().flamegraph() holds, for every stack (list of names), a self size equal to max(0, S - C), where S is the sum of the sizes declared by all enter/enter_unique/enter_shared calls made at that stack and C is the sum of the sizes declared at its direct child stacks, with C replaced by 0 if the stack was entered with enter_unique at least once. Stacks never entered do not exist.",
  "every sequence of Visitor API calls that safe Rust allows, every key, size and pointer",
  "the result aggregates over unbounded histories of nested calls; tests pin five small traces",
  FG+": FlameGraphBuilder, enter_inline_impl, enter_unique_impl, enter_shared_impl, update_sizes, write_flame_graph")
p("Text output lists exactly the non-empty stacks, sorted",
  "FlameGraph::write() is the concatenation of one line `k1;k2;...;kn size\\n` per stack of length >= 1 whose self size is non-zero, no other lines, ordered strictly by lexicographic order of the stack (a prefix before its extensions, names compared bytewise).",
  "every flame graph built through the public API from keys made by Key::new / derive",
  "universal over trees of any shape; tests check a handful of strings",
  FG+": FlameGraph::write, write_flame_graph_impl", K+": Ord for Key")
p("Text output can be parsed back",
  "If no key contains `;` or a newline, splitting write() into lines, each line at its last space and the stack at `;` recovers exactly the set of (stack, self size) pairs; hence two flame graphs with different non-zero self sizes never print the same text.",
  "every flame graph whose names contain neither `;` nor newline",
  "injectivity is a statement about all pairs of graphs",
  FG+": write_flame_graph_impl")
p("Names containing `;` make the text ambiguous (defect)",
  "Type names such as `[u8; 4]` contain `;`. There are two flame graphs with different stacks whose write() output is identical, so the parse-back property fails without the restriction on names.",
  "existence of a pair of graphs, both buildable through FlameGraphBuilder",
  "no unit test looks at array type names; the claim bounds what C03 can promise",
  FG+": write_flame_graph_impl", K+": for_type_name")
p("Output does not depend on hash map iteration order",
  "The flame graph text, total_size and the warnings are the same whatever order the HashMaps of the builder and of FlameGraph are iterated in (keys made by Key::new / derive).",
  "every iteration order of every map, every history",
  "HashMap order is randomised per process; a test observes one order per run",
  FG+": update_sizes, write_flame_graph, write_flame_graph_impl, FlameGraph::add")
p("Output does not depend on the order of visits",
  "Two histories which record the same multiset of (stack, size, is_unique) enters produce the same text, the same total_size and the same warnings.",
  "every pair of histories that are permutations of each other in the records they make",
  "unbounded number of permutations",
  FG+": FlameGraphBuilder")
p("A shared pointee is entered at most once per builder",
  "Visitor::enter_shared returns Some exactly for the first call with a given address during the whole life of the builder (over all roots) and None for every later one; each call, first or not, adds the declared pointer size to the stack of the pointer.",
  "every history of API calls and every address",
  "depends on the whole history of the builder",
  V+": enter_shared", FG+": enter_shared_impl, visited_shared")
p("Shared pointees are counted exactly once and exactly if reachable",
  "For an object graph whose shared pointers refer into a heap, the records made by visiting a list of roots are: those of the roots' own inline/unique parts, plus, for each heap cell reachable from the roots through shared pointers, the records of that cell exactly once, at stacks starting at the top level.",
  "every finite or infinite heap with finitely many reachable cells, any sharing and any cycles",
  "quantifies over all graph shapes including cycles",
  FG+": enter_shared_impl", I+"std/sync.rs: Arc, Weak, Rc")
p("Traversal of cyclic object graphs terminates",
  "Visiting any object graph with finitely many reachable shared cells terminates, also when the cells form cycles (Arc/Weak, Rc/Weak), and enters each cell once.",
  "every heap with finitely many reachable cells",
  "non-termination is not observable by a finite test and cycles have unbounded shapes",
  FG+": enter_shared_impl", I+"std/sync.rs: Weak")
p("Order of roots and fields is irrelevant",
  "For an object graph, visiting the same roots in any order, with the fields of every object in any order, gives the same flame graph text, total size and warnings, although a different pointer may be the one that enters a shared cell.",
  "every permutation of roots, every permutation of every object's fields, every heap",
  "the first-visited pointer changes with the order; all orders cannot be tried",
  FG+": enter_shared_impl, visit_root")
p("Contents of a shared pointer are attributed to the top level",
  "Everything entered inside the visitor returned by enter_shared is recorded at a stack that starts from the empty stack, whatever the stack of the pointer was, and after that visitor is gone recording continues at the stack it had before.",
  "every nesting depth and every history",
  "depends on arbitrary nesting of shared inside inline/unique/shared",
  FG+": enter_shared_impl, exit_impl")
p("No internal assertion can fail",
  "For every sequence of visits expressible with the public API where each Visitor is exited or dropped, no assertion, index or unwrap in the builder fails, root_visitor and finish succeed.",
  "every visit program: any nesting, any keys (also with wrong hashes), any pointers, any number of roots",
  "absence of panics over all programs",
  FG+": down, up, exit_impl, root_visitor, finish_impl, Index for Trees")
p("A leaked visitor is always detected",
  "If a Visitor obtained from a FlameGraphBuilder is leaked (mem::forget) at any point of any history, every later root_visitor/visit_root and finish panics; the builder never returns a flame graph for such a history.",
  "every program containing at least one leaked visitor",
  "needs the invariant that depth equals enters minus exits over all programs",
  FG+": exit_impl, finish_impl", V+": Drop for Visitor")
p("A panic inside a visit leaves the builder consistent",
  "If user code panics at any point inside a visit and the panic is caught outside visit_root, the builder is back in the between-roots state: it can visit further roots and finish; the records made before the panic are kept and no others are added.",
  "every visit program and every panic point in it",
  "every crash point of every program",
  V+": Drop for Visitor, exit_impl", FG+": visit_root")
p("Drop and exit are interchangeable",
  "Ending a Visitor by exit() or by letting it go out of scope has the same effect on the builder, for every visitor kind, and each visitor performs exactly one exit.",
  "every program and every choice of exit/drop for each visitor",
  "exponentially many choices",
  V+": exit, Drop for Visitor")
p("Conservation of bytes",
  "If finish() reports no warnings and no top-level stack is unique-ambiguous, total_size() of the flame graph equals the sum of the sizes declared at top-level stacks plus the sum of the sizes declared at stacks whose parent stack is unique: each byte is attributed to exactly one stack. With warnings, total_size() is at least that sum.",
  "every history",
  "a global sum over arbitrary trees",
  FG+": update_sizes, FlameGraph::total_size")
p("Lines of the text add up to total_size",
  "For the flame graph returned by finish() the sum of the sizes printed by write() is total_size(); for any FlameGraph it is total_size() minus the self size of the nameless root node.",
  "every flame graph",
  "global sum over arbitrary trees",
  FG+": total_size, write, add_self")
p("Warnings are exactly the over-full stacks",
  "finish().warnings() has one line per non-empty stack that was never entered as unique and whose declared size is smaller than the sum of the declared sizes of its children, in sorted order, with the two sums printed; no other lines.",
  "every history",
  "iff over all stacks and histories",
  FG+": write_flame_graph, inline_children_size")
p("Correctly declaring visits never cause warnings",
  "If in every single visit the sizes of direct children of each non-unique node sum to at most the size of that node, then finish() has no warnings, no matter how many visits are merged into the same stacks, and whatever their kinds are.",
  "every history of locally consistent visits",
  "merging of stacks across unboundedly many visits",
  FG+": update_sizes")
p("total_size is the sum of all node sizes",
  "After any sequence of FlameGraph::default, add_self, add_child, add and clone, total_size() equals the sum of the self sizes of all nodes: the cached children size never drifts.",
  "every sequence of public FlameGraph operations",
  "invariant over all operation sequences",
  FG+": FlameGraph::add, add_child, add_self, total_size")
p("add merges stack-wise and is commutative, associative, with unit default()",
  "The self size of each stack in a.add(b) is the sum of those in a and b; total_size adds; a.add(b) and b.add(a), (a.add(b)).add(c) and a.add(b.add(c)) print the same text and have the same total.",
  "every pair/triple of flame graphs",
  "algebraic laws over all trees",
  FG+": FlameGraph::add, add_child")
p("Merging flame graphs of separate builders equals one builder visiting everything",
  "If two histories share no pointer addresses, neither yields warnings and no stack is unique in one and merely inline in the other, then adding their two flame graphs gives the same text as one builder that performed both histories.",
  "every pair of histories",
  "relates three unbounded computations",
  FG+": FlameGraph::add, FlameGraphBuilder")
p("size_of_unique_allocated_data sums what lies directly behind unique pointers",
  "The result is the sum of sizes passed to Visitor::enter calls made directly on a visitor obtained from enter_unique, over the whole visit, never entering shared pointers; self and shared data are excluded; the result is independent of keys and pointer addresses.",
  "every visit program",
  "all programs",
  SZ+": size_of_unique_allocated_data")
p("size_of_unique never reaches unreachable!",
  "During size_of_unique_allocated_data enter_shared always returns None and the `unreachable!` in its exit is never executed, for any visit program, including ones that leak or panic.",
  "every visit program",
  "absence over all programs",
  SZ+": exit_shared_impl")
p("The two utilities agree",
  "For a value visited without shared pointers, with no warnings, unique kinds consistent per stack and no enter_unique directly on a unique visitor, the flame graph total_size equals the sizes declared at the top level plus size_of_unique_allocated_data; in particular it equals size_of_unique(x) when x enters itself once with size_of::<T>().",
  "every visit of that kind",
  "relates two different algorithms on all inputs",
  SZ+": size_of_unique, size_of_unique_allocated_data", FG+": total_size")
p("Keys are equal iff their strings are equal",
  "For keys made by Key::new, ident_key!, Key::for_type_name or the derive macro, equality coincides with string equality and equal keys have equal hashes, so a derive generated field name and a hand written Key::new of the same name are the same node.",
  "every pair of strings",
  "two hash implementations must agree on every string",
  K+": Key::hash, Key::new", D+": hash, allocative_key")
p("Key order is a total order consistent with equality",
  "Key comparison is reflexive, transitive, total; keys made by Key::new compare Equal iff they are equal. It does not depend on the hash.",
  "every keys",
  "order axioms quantify over triples",
  K+": Ord for Key, PartialOrd for Key")
p("A wrong hash in Key::new_unchecked splits a stack (hazard)",
  "Keys with the same string but different hashes are different children of a node: the flame graph then prints the same stack on two lines and, depending on hash iteration order, in different line orders. Sums over the text are still right.",
  "existence; and the totals claim for all key choices",
  "no test uses inconsistent keys",
  K+": new_unchecked, PartialEq, Ord")
p("Global root registration loses nothing under any interleaving",
  "For every interleaving of threads calling register_root and visit_global_roots/roots, the registry ends with every registered root exactly as many times as registered, each thread's registrations in its program order, and each snapshot is a prefix of the final list that contains every registration completed before it began.",
  "every number of threads, every program, every schedule",
  "schedules",
  GR+": ROOTS, register_root, roots")
p("Visiting global roots holds no lock while visiting",
  "A root's visit may itself call register_root or visit_global_roots (with another builder): no deadlock is possible, some thread can always make a step, because the registry lock is released before any visit starts.",
  "every program with re-entrant calls, every schedule",
  "schedules",
  GR+": roots", FG+": visit_global_roots")
p("Locks and cells are never waited for",
  "Visiting Mutex, RwLock, RefCell, OnceCell, OnceLock, tokio and parking_lot locks, in any state (free, shared, exclusively held, poisoned, uninitialised) never blocks and never panics; if the content is not accessible only the object's own size is reported; after the visit the lock state is what it was (if the visit of the content panics, the only change is that std Mutexes being visited are poisoned).",
  "every lock state, every object graph, including graphs where a lock is reached again while the traversal holds it",
  "all lock states at all depths",
  I+"std/sync.rs: Mutex, RwLock", I+"std/cell.rs", I+"tokio.rs", I+"lock_api.rs")
p("size_of_unique_allocated_data is exact on standard owning types",
  "For every value built from primitives, tuples, arrays, slices, structs/enums, Option, Result, Box, Vec, VecDeque, String, PathBuf, cells, locks and shared pointers, size_of_unique_allocated_data(v) equals the number of bytes of heap memory v owns through unique pointers: capacity*size_of::<T>() for Vec/VecDeque, capacity for String/PathBuf, size_of_val(pointee) for Box, recursively in elements. Exceptions, each of which makes the report too small by a known amount: content of a lock that is held, fields marked skip, values with an empty visit (anyhow::Error, &'static T) directly behind a pointer, elements without drop glue that nevertheless own memory (ManuallyDrop).",
  "every nesting of these types, every length and capacity",
  "unbounded nesting and sizes",
  I+"std/unsorted.rs", SZ)
p("Map and set contents are invisible to size_of_unique_allocated_data (defect)",
  "For HashMap, BTreeMap, HashSet, BTreeSet, SortedVectorMap/Set the table itself contributes 0 bytes to size_of_unique_allocated_data, whatever the number of entries, because the data node is entered inline and not with enter_unique; and the flame graph emits an 'Incorrect size declaration' warning whenever keys and values total more than a pointer.",
  "every map contents",
  "all sizes of maps",
  I+"std/collections.rs", V+": visit_generic_map_fields, visit_generic_set_fields")
p("Spare capacity is reported exactly",
  "For Vec, VecDeque, String, PathBuf, Slab, CompactString and IndexSet the bytes reported under used data plus those under `unused_capacity` equal capacity times element size; for IndexMap the total is smaller by the padding of (K, V) in used entries; no subtraction can underflow when len <= capacity.",
  "every len <= capacity, every element type size",
  "all sizes",
  I+"std/unsorted.rs: Vec, VecDeque, String, PathBuf", V+": visit_vec_like_body")
p("Bulk visiting of plain elements is unobservable",
  "visit_iter/visit_slice record elements without drop glue as one node. For element types whose own visit is a single leaf enter of their type name and size, flame graph text, warnings and size_of_unique_allocated_data are the same as visiting the elements one by one.",
  "every element count and size, every surrounding history",
  "all counts and contexts",
  V+": visit_iter, visit_slice")
p("Arc/Rc allocation size",
  "The size attributed to ArcInner/RcInner is the size of the repr(C) struct {usize, usize, T}: at least 2*size_of::<usize>() + size_of_val, a multiple of the alignment max(align_of::<usize>(), align_of_val), and minimal with the payload at an aligned offset; the `unwrap` on Layout::extend cannot fail for a layout that has been allocated.",
  "every size and power of two alignment",
  "arithmetic over all layouts; the test checks one",
  I+"std/sync.rs: RcBox::layout")
p("hashbrown table size approximation",
  "raw_table_alloc_size_for_len is 0 for 0, otherwise (size_of::<T>()+1) times a power of two >= 4; it is monotone, at least (size+1)*len and, for len >= 4, less than 2*(size+1)*len; for the capacity reported by a table with 2^k >= 4 buckets at 7/8 load it gives exactly 2^k buckets.",
  "every len and element size",
  "all integers",
  I+"hashbrown_util.rs: raw_table_alloc_size_for_len", I+"hashbrown.rs", I+"indexmap.rs")
p("derive visits exactly the non-skipped fields",
  "The code generated by derive(Allocative) enters the type itself with size_of_val(self), then for a struct each field not marked skip exactly once in declaration order under its name (index for tuple fields) with size_of_val of the field; for an enum the active variant under its name with size_of::<Self>() and its fields inside, unit variants and type-level skip enter nothing; a field with visit = f calls f. The generated code's patterns fit the declaration, every variable it uses is bound, and a match has exactly one arm per variant and is never empty (enums without variants can be derived).",
  "every struct/enum shape and attribute placement",
  "all shapes of inputs",
  D+": derive_allocative_impl, gen_visit_struct, gen_visit_enum_variant, gen_visit_field")
p("Derived visits never produce size warnings",
  "If the fields' own visits are locally consistent and sizes of the fields of each struct/variant fit in the size of the type (as any Rust layout guarantees), visits generated by derive are locally consistent, so C19 applies: no warnings, for any skip attributes.",
  "every derived type, every value",
  "all shapes",
  D+": gen_visit_struct, gen_visit_enum_variant")
p("derive attribute parsing",
  "extract_attrs accepts any order and number of `#[allocative(...)]` attributes and trailing or repeated commas, returns the union of the options, rejects a second skip, bound or visit anywhere on the item and any unknown word, and ignores attributes with other names.",
  "every token sequence",
  "a language property",
  D+": extract_attrs")
p("derive generics and bounds",
  "Without attributes each type parameter gets the extra bound allocative::Allocative and loses its default; with bound=\"\" or a type-level skip no bound is added; with a non-empty bound the string is used verbatim; lifetimes are kept. Defaults of const parameters are not removed, so a type with a const parameter default yields an impl header with a default (defect). The impl is for the type applied to its own parameters, under its own where clause; the compiler accepts its parameters exactly if no const parameter has a default and no lifetime is called 'allocative_a or 'allocative_b (those of the generated method). A non-empty bound must declare every parameter of the type again, with the declared bounds. The generated code requires the trait exactly of the types of fields that are neither skipped nor visited with visit = f (and not in a skipped variant or type); without bound, that compiles exactly if these types implement it given that every type parameter does, and then in every instance Name<args> that implements the trait every visited field has an implementation.",
  "every generics list, declaration and table of implementations",
  "all lists of parameters, all types of fields; a test compiles one declaration",
  D+": impl_generics, derive_allocative_impl, gen_visit_field")
p("Sizes up to isize::MAX behave as mathematical integers",
  "If the sum of all sizes declared in a history is at most isize::MAX (32- and 64-bit targets), the usize/isize arithmetic of the builder (+=, sum, as isize, saturating_sub) and of size_of_unique never overflows, and results equal those over unbounded integers, in debug and release builds. Beyond that bound a release build of size_of_unique returns the exact value modulo usize::MAX + 1 and a debug build panics; the builder drops a declared size of isize::MAX + 1.",
  "every history",
  "needs all size combinations near the limits",
  FG+": update_sizes, enter_inline_impl", SZ)
p("A pointer address reused after free hides the second object (hazard)",
  "The set of visited addresses persists for the life of the builder: if a second root, visited after the first has been freed, has a shared pointee at an address that was visited, its contents are not counted.",
  "every builder history containing the address",
  "depends on allocator address reuse, which tests cannot force",
  FG+": visited_shared")
p("Weak pointers",
  "A Weak (sync or rc) whose target is gone contributes only its own size; one whose target is alive records the same as the Arc/Rc itself nested in it, so the target is counted once even if only weak pointers reach it.",
  "every heap and every liveness state",
  "all graphs",
  I+"std/sync.rs: Weak, rc::Weak")
p("Stacks entered both as unique and inline are double counted (defect)",
  "If one stack is entered once with enter_unique and once with enter, the flame graph treats all of it as unique: the children of the inline visit are counted twice in total_size; the overcount is exactly the declared size of those children.",
  "every such pair of visits",
  "TODO in the code; no test mixes kinds",
  FG+": enter_unique_impl")
p("Overflow panics in debug builds are fail-stop",
  "If `size += size` overflows and panics (overflow checks on) inside an enter call, the node pushed by that call is not popped: after the panic is caught every later root visit and finish panics instead of returning wrong data.",
  "every history with an overflow at any point",
  "needs overflow at every possible point of every program",
  FG+": enter_inline_impl, enter_unique_impl, enter_shared_impl")
p("root attribute macro",
  "#[root] on a static registers exactly that static; the generated function name is `_<lowercased name>_register_root`, so two statics in one module whose names differ only by case collide (hazard), and names that differ otherwise do not.",
  "every module, every set of identifiers (any Unicode tables that satisfy the stated laws)",
  "pairs of names",
  "allocative_derive/src/root.rs: global_root_impl")
p("Values of supported types never produce size warnings",
  "Whatever values are visited, built from the supported std types (maps and sets only if their entries total at most a pointer), SmallVec, Slab, Either, CompactString, derived structs and enums and shared pointers, with the layouts Rust guarantees, the flame graph has no warnings: every node declares at least the sum of what is recorded directly in it.",
  "every nesting of these types, every object graph incl. cycles, every order of roots",
  "unbounded nesting, all graphs",
  I+"std", V, FG+": write_flame_graph")
p("size_of_unique_allocated_data never overcounts",
  "For every value built from the supported types (maps, sets, slabs, spilled SmallVecs, locked locks and skipped fields included) size_of_unique_allocated_data is at most the heap memory the value owns, and the difference is the sum of the listed defects. (One exception: on 32-bit targets a BigInt or BigUint with an odd number of digits and no spare capacity counts 4 bytes too many.)",
  "every value",
  "unbounded nesting and sizes",
  I+"std", SZ)
p("triomphe Arc and ThinArc allocation sizes",
  "The size attributed to a triomphe Arc's ArcInner is the size of the repr(C) struct {AtomicUsize, T}; the size attributed to a ThinArc's allocation is at most the true size, and equal to it whenever the element alignment is at most max(8, alignment of the header) (defect: it is too small for over-aligned elements).",
  "every header, element layout and length",
  "arithmetic over all layouts",
  I+"triomphe.rs: Arc, ThinArc")
p("Visiting a DashMap waits exactly when a shard is exclusively held (hazard)",
  "DashMap is the one lock-based type whose visit can block: it takes each shard's read lock; if some shard is write-locked for ever (e.g. by a guard held by the visiting thread) the visit never returns; it waits for ever only for a shard that others, from some moment on, hold exclusively whenever the visit looks; if every exclusive guard of a shard is sooner or later dropped at a moment when the visit looks, it returns, all shards have been visited and all shard locks are as before. If other threads change the map meanwhile and the visit returns, its report is that of a map whose entries are, for each shard, those at a moment at which the shard's read lock was held, and whose capacity and length are sums of values each shard had at some moment. While it waits for a shard it holds the read lock of the shard before, so it and a thread that owns one of them and wants the other wait for each other for ever.",
  "every set of shards, lock states, history of visits and interference by other threads",
  "lock states and schedules",
  I+"dashmap.rs")
p("The report of any values of supported types is the documented one",
  "For every value built from the supported types the flame graph text consists of exactly the documented stacks (type name, then `ptr`, `data`, `key`, `value`, `Some`, `unused_capacity`, field and variant names ..., in nesting order) with the documented sizes; the contents of each shared allocation reachable from the roots (through any number of Arc/Rc/Weak/triomphe/Shared pointers, including cycles) appear once, at the top; nothing else appears.",
  "every nesting of supported types, every heap of shared allocations incl. cyclic ones, every list of roots, every hash map order",
  "unbounded values and heaps",
  I+"*", FG+": finish_and_write_flame_graph", "allocative_derive/src/derive_allocative.rs: gen_impl")
p("Different shared allocations are told apart",
  "Two live shared allocations (Arc, Rc, triomphe Arc/ThinArc, futures Shared) are given the same identity by the visit exactly if one ends with a zero-sized value where the other, one of triomphe's, begins; in particular std Arcs and Rcs, zero-sized contents included, are never confused with each other, nor are any allocations with non-empty contents.",
  "every pair of non-overlapping allocations, every value layout",
  "all addresses, alignments and sizes",
  I+"std/sync.rs: Arc, Rc", I+"triomphe.rs: Arc, ThinArc", I+"futures.rs: Shared")
p("Profile of all registered roots under concurrency",
  "If a thread calls visit_global_roots on a new builder while any threads register roots in any interleaving, then every root whose registration returned before the call is in the profile, everything in the profile was registered by a call begun before the snapshot, and the output is the documented report of these roots (as often as registered) and of all shared allocations reachable from them, each once. If the roots have locks, cells, weak pointers or DashMaps in them that other threads change meanwhile, the output is that for a snapshot as in C61.",
  "every interleaving of any number of threads, every value of the roots",
  "schedules and unbounded values",
  "allocative/src/global_root.rs: register_root, roots", FG+": visit_global_roots")
p("From derive to the report",
  "For every struct (sized or not) or enum declaration accepted by #[derive(Allocative)], visiting a value whose fields are of supported types, or have a `visit = f` with an f that visits like a supported type, records the type name with its size, the variant name if any, and each non-skipped field below its name or index in declaration order, followed by the documented records of the field's value.",
  "every declaration, every field values",
  "all declarations",
  "allocative_derive/src/derive_allocative.rs: derive_allocative_impl", V)
p("Release builds: overflow never panics and stays local",
  "With overflow checks off, no leak-free history panics, whatever the declared sizes. The stacks reported are those entered; the self size of a stack is the saturating difference of its own and its children's declared sums, each cut to the bits of a usize, so a stack whose two sums are at most isize::MAX is exact even if others overflow; text, warnings and total (mod usize::MAX + 1) follow. Merging flame graphs adds self sizes stack by stack and totals modulo usize::MAX + 1.",
  "every leak-free history, every declared sizes, every pair of flame graphs",
  "overflow at any depth and step",
  FG+": enter_inline_impl, enter_unique_impl, enter_shared_impl, update_sizes, write_flame_graph, FlameGraph::add, add_child, total_size")
p("A caught overflow panic leaves a flame graph consistent",
  "In a debug build, add_self, add_child and add panic exactly if the root's self size, or the sum of all sizes below the root, does not fit into usize. add_self and add_child are then all or nothing; add has either changed nothing, or has merged the root's self size and some of the root's children completely and the others not at all. However many such panics are caught, the graph is one that panic-free calls could have made, each self size fits, and total_size is the exact sum of all self sizes (or panics if that does not fit).",
  "every flame graph made by any history of default, add_self, add_child, add and finish with any caught panics, every iteration order",
  "all graphs, overflow at any point of a merge",
  FG+": FlameGraph::add, add_child, add_self, total_size")
p("Any calls, on any builders, in any order the borrow checker admits",
  "Whatever sequence of root_visitor, enter, enter_unique, enter_shared, exit and drop user code makes on any number of builders (visits interleaved without nesting, visitors of different builders exchanged by mem::swap, code that never ends), no call panics; enter_shared returns Some exactly for addresses new to that builder; at every moment dropping the live visitors of a builder leaves it ready to finish, with the report of exactly the calls made on it so far; each builder depends only on the calls on itself; and a builder one of whose visitors was forgotten never finishes and accepts no other root.",
  "every finite prefix of every run of arbitrary (also nondeterministic or non-terminating) safe user code over any number of builders",
  "all call sequences and interleavings",
  FG+": root_visitor, enter_inline_impl, enter_unique_impl, enter_shared_impl, exit_impl, finish", V+": Visitor")
p("The total of a profile is the memory the values occupy",
  "total_size() of a profile of any roots is the sum of the sizes of the roots, of the heap memory they own through unique pointers, and, for every Arc, Rc, triomphe Arc, ThinArc or shared future reachable from them (through any chain or cycle), of the real size of its allocation (counters, padding, value) and of the heap memory the value in it owns, each exactly once; there are no warnings and no layout computation panics. The only differences are the documented ones: bytes that visits do not see (map tables, spare capacity of some collections, skipped or locked content, opaque values), which are missing, and stacks entered both as unique and inline, which can only add. Without these exceptions the total is exact; it is never less than the memory minus the unseen bytes.",
  "every list of root values of supported types, every object graph (sharing, cycles), every layout, every hash order",
  "unbounded values, graphs and layouts",
  FG+": finish, total_size, enter_shared_impl", I+"std/sync.rs: RcBox::layout", I+"triomphe.rs: ArcInnerRepr, ThinArcInnerRepr", I+"std", I+"common.rs")
p("Sizes of values that exist do not overflow",
  "For roots of any supported types and everything reachable from them: no stack of the profile is larger than the memory these values occupy (also with maps, warnings or mixed stacks). If the memory times the length of the longest stack is at most isize::MAX, debug builds do not panic and debug and release builds compute exactly the unbounded result; if the memory alone is at most isize::MAX, every self size of a release build is exact. size_of_unique and size_of_unique_allocated_data are exact in both builds for every value of at most usize::MAX bytes.",
  "every list of root values, every object graph, every hash order, debug and release builds",
  "overflow depends on sums over unbounded values and graphs",
  FG+": enter_inline_impl, enter_unique_impl, enter_shared_impl, update_sizes, total_size", SZ+": size_of_unique, size_of_unique_allocated_data", I+"std")
p("Profile of data that other threads change is that of a snapshot",
  "Roots and shared allocations may contain RefCell, OnceCell, OnceLock, RwLock, Mutex (std, parking_lot, tokio), once_cell cells, Weak pointers, DashMaps and DashSets, nested in each other in any way, and other threads may take and release them, replace what is in them and change reference counts at any moment of the visits. The visits return without panicking, and wait only for shards of DashMaps and DashSets, which others sooner or later let go; with all guards and references given back; the builder finishes; and the output is exactly the documented output for a snapshot in which each lock, cell and weak pointer that is seen granted access at some moment and has a content it really had at a moment at which the visit had access (if others keep to the locks: at a moment at which the lock was free), and one that is not seen refused access at some moment; a DashMap or DashSet has, for each shard, the entries that could be seen at a moment at which the visit had its read lock, and its capacity and length are sums over the shards of values they had at some moments. If each lock has one owner, access is refused only because of what others do, never because of guards of the visit itself, and never because the visit has poisoned the lock; a free lock that others do not touch, and an initialised once cell, is always seen. What is true of the memory throughout is true of the snapshot. If no other thread does anything, the snapshot is what is there, exactly, and afterwards all locks, counts and contents are as before. If types have proper names and sizes fit, there are no warnings and total_size() is the memory that the snapshot occupies, up to the documented unseen bytes. size_of_unique_allocated_data behaves likewise: it returns, with the result for a snapshot.",
  "every list of roots, every object graph with locks in it, every behaviour of other threads, every initial state, every hash order",
  "all interleavings with other threads, unbounded nesting and graphs",
  I+"std/cell.rs", I+"std/sync.rs: Mutex, RwLock, Weak", I+"lock_api.rs", I+"tokio.rs", I+"dashmap.rs", I+"once_cell.rs", FG+": root_visitor, finish", SZ+": size_of_unique_allocated_data")
p("Each line shows the bytes that are in nothing smaller",
  "In the profile of any values of supported and derived types (with proper names and layouts) and of the allocations they share, nothing declares less than what is directly inside it, and the number printed for a stack is the sum, over everything visited with this stack, of the bytes that are in none of the things directly inside; a unique pointer has all its bytes. So a line for a derived struct is its padding and skipped fields, a line for an enum variant its discriminant, padding and room for other variants. In general a value of any supported type contributes to its line its size without the values inside of it and without its pointers to the heap: an Option its discriminant and padding (all bytes for None), a Vec its length and capacity, an array nothing.",
  "every list of values, every graph of shared allocations, every hash order",
  "unbounded values and graphs, any mixture of types with equal names of stacks",
  FG+": update_sizes, finish_impl", "README.md (gaps in allocated memory)", "allocative_derive/src/derive_allocative.rs", V+": visit_field")
p("Only equality of addresses matters",
  "If everything that is visited lay at other addresses, different ones still different, all observable behaviour would be the same: text, total and warnings, panics, which enter_shared calls return Some. This holds for any calls on any builders, each with its own addresses, leaks and user panics included, and for the same object graph (values of all supported types, cycles) after all allocations have moved. So profiles are reproducible under address randomisation. size_of_unique_allocated_data is the same even if addresses coincide.",
  "every history, every sequence of calls on any builders, every object graph, every injective renaming of addresses",
  "all histories and placements in memory",
  FG+": enter_shared_impl, visited_shared", SZ+": enter_shared_impl", V+": enter_shared")
p("Visiting more",
  "Visiting further roots with a builder never makes a stack vanish; the total does not decrease if the roots before gave no warnings, and grows at most by the sizes that the new visits declare, unless these enter a stack with enter_unique that had been entered only inline and has something inside (C45). With warnings the total can decrease.",
  "every leak-free history and every continuation, every hash order",
  "all histories",
  FG+": FlameGraphBuilder, update_sizes, finish")
p("Calls and memory are linear",
  "Profiling an object graph makes exactly one enter call for each value, field and pointer in the roots and in each reachable shared allocation, however many paths (possibly exponentially many) or cycles lead to it. The builder keeps one tree node per distinct stack, never more than calls were made, one address per shared allocation, and no saved stacks between roots.",
  "every object graph, every leak-free history",
  "graphs with exponentially many paths, cycles, unbounded size",
  FG+": enter_shared_impl, visited_shared, TreeStackRef::down, Trees")
p("Any calls during size_of_unique_allocated_data",
  "Whatever sequence of enter, enter_unique, enter_shared, exit, drop and mem::forget user code makes on the visitor it is given and on the visitors it gets from it (interleaved with uses of builders and with other calls of size_of_unique_allocated_data, visitors exchanged by mem::swap), no call on such a visitor panics (unreachable! is never reached), enter_shared always returns None, and the result is the sum of the sizes of the enter calls made directly on visitors that came from enter_unique. It depends on nothing else. In particular this holds for visits that leak visitors.",
  "every finite prefix of every run of arbitrary safe user code, any number of calls of size_of_unique_allocated_data and builders, leaks included",
  "all call sequences and interleavings",
  SZ+": size_of_unique_allocated_data", V+": Visitor, exit, Drop")
p("Depth of recursion",
  "While roots are visited, the number of visitors alive at the same time (nested visit calls) is at most one plus the nesting of one root plus the nesting of the allocations on one path through shared pointers that meets no allocation twice; cycles do not add to it. This is attained: a linked list of n nodes connected by Arc needs 2n+2 nested visitors, so a visit uses stack space proportional to the length of the list. The two passes of finish recurse exactly one deeper than the longest stack of the flame graph; for object graphs that is the nesting of the deepest root or allocation on its own, however long the paths between allocations. Conversely at least as many visitors are alive at some moment as the longest stack has names, in any leak-free history; for a root without shared pointers exactly one more, so a linked list of n boxes makes visit and finish both recurse proportionally to n (6n+4 and 6n+4 deep) and the flame graph as deep. In every leak-free history, panics included, at most one visitor plus, for the root and each address entered with enter_shared, as many as the longest stack has names are alive at the same time, and none at the end. For values of supported types the nesting is at most four visitors per level of values inside of each other (plus two per shared allocation).",
  "every object graph (cycles included), every list of roots, every leak-free history, every hash order",
  "graphs of unbounded depth; a test with a fixed graph shows one depth",
  FG+": update_sizes, TreeRef::write_flame_graph, enter_shared_impl", I+"std/sync.rs: Arc, Weak", V+": enter, enter_unique, enter_shared")
p("Any calls with machine arithmetic",
  "Arbitrary user code on any number of builders (C58) with the arithmetic of a 32- or 64-bit target. Release build: admitted calls never panic whatever the sizes, return what they return with unbounded numbers, and a builder without live visitors reports its own calls with sums cut to the bits of a usize. Debug build: an enter call whose stack's sum would exceed usize::MAX panics; if user code catches this and goes on, that builder never gives a flame graph or accepts another root, whatever is called later, while the other builders are not affected: their calls and reports are those of unbounded numbers, exactly if at most isize::MAX bytes were declared (or finish panics). If no sum exceeds usize::MAX both builds behave as with unbounded numbers. size_of_unique_allocated_data: the sum modulo usize::MAX + 1 (release), or the exact sum of the calls that did not panic (debug).",
  "every finite prefix of every run of arbitrary safe user code on any number of builders, overflows caught or not, both build modes",
  "all call sequences and sizes; overflow needs sizes no test allocates",
  FG+": enter_inline_impl, enter_unique_impl, enter_shared_impl, finish, root_visitor", V+": Visitor", SZ+": enter_inline_impl")
p("A profile of changing data may be of no single moment (hazard)",
  "The snapshot that the profile of changing data is of (C61) may be one that never existed. If a value is moved between two mutexes while the program visits them, by a thread that follows the locking protocol and never holds up the visit, the profile may count it twice, or not at all, although at every moment exactly one of the mutexes has it.",
  "every value, every state with both locks free, every heap",
  "needs an adversarial schedule at an exact point of the visit",
  I+"std/sync.rs: Mutex", FG+": visit_root")
p("Profiles taken with separate builders and added",
  "Values are divided into groups, each group is profiled with a builder of its own, and the flame graphs are added with FlameGraph::add. Compared with one builder that visits everything, what is attributed to each stack is larger by exactly what the shared allocations contribute to that stack, each once for every further group it is reachable from; so is total_size. There are no warnings in either. If no shared allocation is reachable from two groups, the text and the total are the same.",
  "every finite division of every values of supported types (cyclic graphs included) into groups, every hash order of every builder",
  "all values and all ways in which groups may share memory",
  FG+": FlameGraph::add, visited_shared, finish")
p("Flame graphs put together from stacks and read back from text",
  "A flame graph put together with default, add_self, add_child and add from any (stack, size) pairs, in any order and with repetitions, attributes to each stack the sum of what was given for it, has the sum of everything as total_size, and writes the stacks with a non-zero sum, sorted, each once. So texts written by allocative can be concatenated in one file, read back line by line and put together again: the result writes the same text as the original flame graphs merged with add, and its total is theirs without the bytes of their nameless roots (which no text shows).",
  "every finite list of (stack, size) pairs with keys made by Key::new; every list of flame graphs with names without separators, every hash order",
  "all lists of stacks and all flame graphs; merging is a recursion over both trees",
  FG+": FlameGraph::add, FlameGraph::add_child, FlameGraph::add_self, FlameGraph::write, total_size")
p("What a builder carries over between roots",
  "From the roots visited so far a builder carries over exactly: the set of addresses for which enter_shared returned Some, the sum of the sizes declared at each stack, and which stacks were entered with enter_unique. Two histories that agree on these give, after any further use of the builder, the same text, total_size and warnings; two that differ (with names free of separators) are told apart by some further use. Order, repetition, panics, how visitors ended and stacks entered with no bytes leave no trace.",
  "every pair of leak free histories, every continuation of them, every hash order",
  "all continuations of all histories",
  FG+": FlameGraphBuilder, visit_root, finish, visited_shared")
p("The width of frames",
  "Tools draw the text as frames, each as wide as the lines at its stack and below it together. A frame is as wide as the sizes declared at its stack, plus those declared directly inside of stacks entered with enter_unique at or below it, plus, for stacks with a warning at or below it, what their parts exceed them by. For values of supported types: there are no warnings, and a top frame is exactly as wide as the memory occupied by the roots and the shared allocations of that name with all that they own, except for the bytes that profiles do not see (listed in C32, C33); the frame of a field is as wide as the memory occupied by the values of that field (likewise for parts at any depth that share their stack with nothing else).",
  "every leak free history and every stack; all values of supported types (cyclic graphs included), every hash order",
  "all histories and values; tests compare lines, not what is drawn from them",
  FG+": FlameGraphOutput::flamegraph, FlameGraph::write, update_sizes, finish", I+": all Allocative implementations")
p("Reproducible profiles",
  "The same values in another run of the program have the same profile: if all shared allocations lie at other addresses (different ones still at different addresses), the entries of hash maps, hash sets and hash tables, at any depth, come in another order, the roots are visited in another order and the hash maps inside of the profiler are iterated in another order, then the text is the same byte for byte, and total_size and the warnings are the same. size_of_unique_allocated_data is the same too. So profiles of two runs can be compared with diff.",
  "all values of supported types (cyclic graphs included), every renaming of the addresses that keeps them apart, every order of entries, roots and hash maps",
  "addresses and hash seeds are chosen anew at each run (ASLR, RandomState); a test sees one choice",
  FG+": FlameGraphBuilder, visited_shared, finish, FlameGraphOutput", I+"std/collections.rs", I+"hashbrown.rs", I+"dashmap.rs", "allocative/src/size_of.rs: size_of_unique_allocated_data")
p("Changes show only where they are made",
  "If two uses of a builder make the same enter calls except for some, then their outputs have the same line and the same warning (or none) for every stack, except for the stacks of the differing calls and the stacks directly above these. For values: if one root is replaced by another value, and some shared allocations appear, disappear or change, then all lines and warnings are the same except for those whose top name is that of the replaced values or of these allocations. So in the difference of two profiles every line has a cause at that place.",
  "every pair of leak free histories and every way in which they differ; all values of supported types (cyclic graphs included), every hash order",
  "all pairs of histories; a self size is a difference of sums over everything visited",
  FG+": update_sizes, write_flame_graph, finish, FlameGraphOutput", I+"*")
p("The profile of a part is in the profile of the whole",
  "If in one use of a builder some enter calls are made below a stack q, and nothing else below q, and in another use the same calls are made at the top, then the lines and warnings below q are those of the second use with q put in front (the warnings with the same numbers). For values: the lines and warnings below the frame Struct;field of a derived struct are those of the profile of the values of this field alone, made with another builder, with Struct;field put in front, apart from the shared allocations, which are at the top in both. So zooming into a frame shows what profiling the part would.",
  "every pair of leak free histories with such calls; all derived structs with fields of supported types, beside any other roots (cyclic graphs included), every hash order",
  "all histories and values; self sizes and the decision to warn are computed after everything is merged",
  FG+": update_sizes, write_flame_graph, finish, FlameGraphOutput", D+": derive_allocative", I+"*")
p("Things with the same name are merged",
  "Names are the only identity a profile has. If the same calls are made with other names, then: panics are the same; every warning is at a stack that an earlier warned stack became; where no stack that becomes p had a warning and all of them are of one kind (all entered with enter_unique, or none), the bytes at p are the sum of the bytes of the stacks that become p; where none had a warning they are never less than this sum, and where none was entered with enter_unique they are never more; so without warnings the total does not become smaller, and it stays the same if no stacks of different kinds are merged. If different names remain different, lines, warnings and total are the same under the new names.",
  "every leak-free history with proper keys and every function on names (injective on the names used, for the last part); for panics every history",
  "which names coincide depends on the program: type names that are printed alike, fields called like types, anonymous names; the sums must work out for every coincidence",
  FG+": VisitorImpl for FlameGraphBuilder, TreeStackRef::down, FlameGraphBuilder::update_sizes, FlameGraphBuilder::finish", K+": Key")

p("What some of the roots add to a profile (retained memory)",
  "Two profiles of the same memory, one with further roots, in any order: at every stack the larger one has more by exactly what the further roots and the shared allocations reachable only from them contribute, and total_size is larger by exactly the memory these occupy (but for the bytes profiles never see, C32 and C33); there are no warnings. So the difference of two totals is the memory retained by some roots alone. In particular visiting a root again, or another pointer to shared memory already reached, adds the root's own memory once more and nothing of the shared allocations.",
  "all values of supported types (with proper names), every object graph with sharing and cycles, every division of the roots, every order of visits, every hash order",
  "which allocations are reachable only from some roots is a global property of the object graph",
  FG+": FlameGraphBuilder::visit_root, enter_shared_impl, FlameGraphBuilder::finish, FlameGraph::total_size")

p("Data that other threads change, with machine arithmetic",
  "Visits of data with locks, cells, weak pointers and DashMaps that other threads use meanwhile: a release build takes and releases the same locks at the same times, sees the same memory, waits and panics in the same cases as with unbounded numbers, whatever the sizes, and reports a snapshot of the data with sums cut to the bits of a usize. If no stack of the snapshot sums up to usize::MAX + 1 or more, debug and release builds visit exactly as with unbounded numbers; if the memory of the snapshot is less than isize::MAX + 1 bytes, the visits panic in neither build and in a release build finish returns with the exact self size of every stack; if also the memory times the longest stack is, finish returns exactly the unbounded output in both. Only beyond that a debug build can panic inside a locked std Mutex and so leave it poisoned. In every case all guards and references are given back. A debug build never finishes with overflowed sums of stacks: if finish returns, all visits were exactly those with unbounded numbers. A debug visit in which a sum of a stack overflows panics, unless user code catches the panic. The same for visit_global_roots while other threads register roots. size_of_unique_allocated_data and size_of_unique of such data: in a release build the size of a value seen, modulo usize::MAX + 1, in a debug build exactly this size or (only if it exceeds usize::MAX) a panic.",
  "all programs of visitor calls, accesses and panics; all values with live places in any object graph, every behaviour of other threads that respects locks, every store, both build modes, both word sizes",
  "overflow depends on what other threads do during the visit; schedules and sizes are unbounded",
  FG+": VisitorImpl for FlameGraphBuilder, FlameGraphBuilder::finish", V+": Visitor", I+"std/sync.rs: Mutex, RwLock")

p("Detection of nightly compilers at build time",
  "The build script sets cfg(rust_nightly) exactly if the compiler named by RUSTC runs, succeeds and prints a text with rustc and with nightly or dev in it, sets nothing exactly if neither is in it, and stops the build in every other case. For every version string of the Rust project (any number, commit and date) it sets the cfg exactly on nightly and dev, not on stable and beta. Names in profiles are the same either way. A text of a vendor in the version string that contains dev is taken for a nightly compiler.",
  "every environment and every output of the compiler; every version number, beta number, commit hash and date; all type names",
  "compilers and version strings that do not exist yet",
  "allocative/build.rs: rust_nightly", K+": Key::for_type_name, AllocativeKeyForType")

p("Cost of profiling data that other threads change",
  "Visits of data with locks, cells, weak pointers and DashMaps that other threads use meanwhile end, and there is a snapshot of the data (each place as it was seen at moments during the visits) such that the number of calls of enter, enter_unique and enter_shared is exactly the number of entries in the report of the snapshot: linear in the parts of the roots and of the shared allocations reached, each of these once, however many pointers lead to it and however often other threads change pointers. The builder remembers each of these shared allocations once and has at most one tree node for each call. If k shared allocations are reached and nothing in the snapshot is nested deeper than m, at most 1 + (1 + k) (2 + 4 m) visitors are alive at the same time, and none at the end.",
  "all values with live places in any object graph (cyclic ones included), every behaviour of other threads that respects locks and gives them back, every store",
  "how much is visited depends on what other threads do during the visit; a changing graph could make a traversal go on for ever",
  FG+": VisitorImpl for FlameGraphBuilder, enter_shared_impl", V+": Visitor", I+"std/sync.rs: Mutex, RwLock, Weak")

p("What other threads change shows only at and below locks",
  "A profile of data whose locks, cells, weak pointers and DashMaps other threads use meanwhile is, stack by stack, the profile of the same data with each of these seen as empty: same line or no line, same self size, same warning or none. The only exceptions are the stacks of these locks and what is below them, and stacks under the name of a shared allocation that can be reached only through them. So two profiles of the same data, taken at different times among threads that do different things, agree on the self size of every other stack: a difference between them there is a difference of the data outside locks.",
  "all values with live places in any object graph (cyclic ones included), every behaviour of other threads that respects locks and gives them back, every store, every stack",
  "all schedules of other threads, all graphs",
  FG+": VisitorImpl for FlameGraphBuilder, FlameGraphBuilder::finish", I+"std/sync.rs: Mutex, RwLock, Weak", I+"dashmap.rs: DashMap", I+"std/cell.rs: RefCell, OnceCell")

p("Several profiles of the same data at the same time",
  "Several threads, each with its own builder, profile data at the same time, in any interleaving with each other and with other threads of the program. Each profile is exactly one made alone among other threads that respect locks and show it nothing but states of the run: it does not panic, gives back all guards and references, and finish returns the profile of a snapshot in which each place is as it was at moments of the run. Profiles do not wait for each other: without a DashMap each can go on at every moment, with one it waits only for others who have a shard locked exclusively. In every run each profile looks at the data finitely often; if the scheduler does not forget it, it ends, unless a shard it waits for is locked again and again for ever. Their guards exclude each other and those of other threads, and all profiles together run the destructor of a shared allocation at most once, and only as holders of its last reference. Two profiles of the same data at the same time agree at every stack that is not at or below a lock, and each builder keeps as much as it would for a snapshot of the data. The same with machine arithmetic: in a release build always without a panic, with sums cut to the bits of a usize; in a debug build, if no sum of a stack overflows, as with unbounded numbers, and else no profile; guards are given back in every case. And the same for size_of_unique_allocated_data beside profiles: its result is the size of a value as it was at moments of the run. visit_global_roots in several threads while roots are registered: each profile is that of the roots registered at one moment of the run. But profiles see each other's guards: of two profiles at the same time, while nobody else uses the locks, one can miss the content of a Mutex because the other has it locked.",
  "any number of profiling threads, all values with live places in any object graph (cyclic ones included) and all programs of visitor calls and accesses, every interleaving, finite or infinite, with respectful other threads",
  "all interleavings of all numbers of threads; fairness is about infinite runs",
  FG+": FlameGraphBuilder::visit_root, VisitorImpl for FlameGraphBuilder, FlameGraphBuilder::finish", V+": Visitor", I+"std/sync.rs: Mutex, RwLock, Weak", I+"dashmap.rs: DashMap", SZ+": size_of_unique_allocated_data", GR+": register_root, roots", FG+": FlameGraphBuilder::visit_global_roots")

if __name__ == "__main__":
    for x in P: print(json.dumps(x))
