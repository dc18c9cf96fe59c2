import json
P=[]
def p(title, statement, quant, why, anchors):
    P.append(dict(id="C%02d"%(len(P)+1), title=title, statement=statement, quantifier=quant, why_tests_cant=why, anchors=anchors))
E="src/engine.rs"
p("From-scratch consistency",
  "Whatever sequence of cell/thunk/ns/structural/force/force_map/set operations the editor performs, each value returned by force equals the value that running the demanded thunks from scratch, against the current contents of the cells and thunks the editor allocated, would produce. (For programs that respect the documented discipline: one kind and one program point per location, single assignment of names inside one run, no re-allocation of oneself, no mixed force/force_map of one cell in a run. Thunks and cells may be named, structural, or allocated in structural mode, with ADAPTON_STRUCTURAL set or not; structural thunks use only structural locations if the purity optimisation is on (see C16), thunks are demanded in the naming mode of the engine (see C65), and hashes of structural contents do not collide (see C55).)",
  "all editor programs of any length, all thunk bodies (including recursive ones), all values, all names and namespaces",
  "Tests sample a few edit histories; staleness depends on the whole history of edits, dirtying and cleaning.",
  [E+":loc_produce",E+":clean_comp",E+":dirty_pred_observers",E+":dirty_alloc",E+":force",E+":cell",E+":thunk",E+":set_"])
p("Incremental re-evaluation terminates without engine panics",
  "For a disciplined program whose from-scratch evaluation terminates, the engine's change propagation also terminates and raises none of its internal panics or assertions (dangling successor edge, unexpected cycle, dirty fresh edge, stack mismatch, duplicate force, missing cached result).",
  "all disciplined editor programs and all histories",
  "A panic or loop may need a particular graph shape and edit order.",
  [E+":get_succ_mut",E+":loc_produce",E+":force"])
p("Reuse of clean cached results",
  "If a thunk has a cached result and none of its recorded dependencies is dirty, force returns the cached result, runs no user code and leaves the engine's graph unchanged.",
  "all engine states, all thunks",
  "Needs all graphs and cached values.",
  [E+":force",E+":clean_comp",E+":ForceDep"])
p("Unchanged set/cell is invisible",
  "set(c,v) (and re-allocation cell(n,v)) with the value the cell already holds dirties nothing: graph and cached results are left exactly as they were.",
  "all engine states, all cells, all values",
  "Every state, not just the tested ones.",
  [E+":set_",E+":cell"])
p("Read your writes",
  "After set(c,v), or after cell(n,v) of a new name or a name that holds a cell, force of that art returns v until the next mutation of that location, and the content of every other location is unchanged.",
  "all states, all cells and values",
  "Universally quantified over states and values.",
  [E+":set",E+":cell",E+":force"])
p("Edits are lazy",
  "cell, set, and thunk never run user code: no thunk body is executed by an allocation or a mutation; recomputation happens only when something is forced.",
  "all states and all arguments",
  "Absence of execution over all states.",
  [E+":cell",E+":set",E+":thunk",E+":dirty_alloc"])
p("Dirtying terminates",
  "Dirtying after an edit always terminates, whatever the dependence graph looks like (including cyclic and ill-formed ones), visiting each edge at most once.",
  "all dependence graphs",
  "Termination over all graphs.",
  [E+":dirty_pred_observers",E+":dirty_alloc"])
p("Dirtying only sets dirty bits",
  "An edit's dirtying phase changes nothing but dirty bits, and only from clean to dirty: no cached value, argument, cell content or edge is added, removed or altered by it.",
  "all dependence graphs and start locations",
  "All graphs.",
  [E+":dirty_pred_observers",E+":dirty_alloc"])
p("Transitive dirtying invariant",
  "Between editor operations of a disciplined program: if an edge of a thunk is dirty, every edge that observes that thunk is dirty (the documented dirty invariant; what ADAPTON_CHECK_DCG checks).",
  "all reachable states",
  "All reachable graphs.",
  ["src/reflect.rs:Succ.dirty","src/engine.rs:wf::check_dcg",E+":dirty_pred_observers"])
p("Edge symmetry",
  "Between editor operations of a disciplined program: location s records an effect on x iff x records s as a predecessor with this effect; no edge dangles.",
  "all reachable states",
  "All reachable graphs.",
  [E+":revoke_succs",E+":loc_produce"])
p("Early cutoff",
  "When cleaning a thunk finds that every observed dependency still has the value recorded on its edge, the thunk's body is not re-run and its cached result is kept, even though a transitive input changed.",
  "all states and recorded dependencies",
  "All graphs and values.",
  [E+":clean_comp",E+":ForceDep"])
p("Dependencies follow the last run",
  "The dependencies recorded for a thunk are exactly those of its latest run: edges of earlier runs are removed when it is re-run, so inputs that are no longer read no longer trigger re-execution.",
  "all thunks, all runs",
  "All programs.",
  [E+":loc_produce",E+":revoke_succs"])
p("force_map equals map after force",
  "force_map(a,f) returns f(force(a)).",
  "all states, all arts, all pure functions f",
  "All functions and states.",
  [E+":force_map"])
p("force_map prunes dirtying",
  "When a cell is set to a value with the same image under f, an observer that only observed the cell through force_map(.,f) is not dirtied.",
  "all states, cells, values, functions",
  "All functions and states.",
  [E+":check_force_map_dep",E+":dirty_pred_observers"])
p("Mixed observations of one cell: what is tracked and what is not",
  "A user would expect that a thunk which observes one cell both through force and through force_map is recomputed when either observation changes. The code satisfies this when the plain force comes first. It violates it when force_map comes first, or when two different maps are used: for every map and every edit of the cell that the first map does not distinguish, the thunk returns its old value, while the same program run in a new engine returns the new one.",
  "all programs",
  "Requires a specific mix of observations and edits.",
  [E+":force",E+":get_succ_mut",E+":clean_comp"])
p("The purity optimisation loses changes below structural thunks",
  "A user would expect that the caller of a structural thunk is recomputed when an input of that thunk changes. The code satisfies this with the purity optimisation off and violates it with the optimisation on (the default): for all values a≠b, after the input changes from a to b the caller still returns a, while a new run returns b.",
  "all programs using structural thunks",
  "Requires a specific first-run order.",
  [E+":force"])
p("force_abs observations are never dirtied",
  "A user would expect that a thunk which observes a cell through force_abs is recomputed when the mapped value changes. The code never does: in every state, whatever the cell is set to, the edges of an observer that used force_abs stay as they were, and for all maps and values the thunk returns the image of the old content.",
  "all states, all families",
  "All mapping families.",
  [E+":force_abs",E+":dirty_pred_observers"])
p("A cell allocated over a thunk is lost",
  "A user would expect cell(n,v) at a name that holds a thunk to make force return v. The code drops the value: in every state the thunk stays, with its code, argument and cached result, and for all values forcing the returned art yields the thunk's result.",
  "all states where the name holds a thunk",
  "Requires kind change over a history.",
  [E+":cell"])
p("A thunk allocated over a cell forgets the observers",
  "A user would expect observers of a cell to be notified of later changes when its name is re-used for a thunk. In the code, in every state, the new thunk knows no observers, although the observers keep their edges; for all values a≠b there is a session in which an observer then keeps answering a after its dependency has become b.",
  "all states where the name holds a cell",
  "Requires kind change over a history.",
  [E+":thunk"])
p("Unexpected cycles are reported",
  "Forcing, without a cycle value, a thunk that is currently being evaluated panics and never returns a value.",
  "all states with a non-empty evaluation stack",
  "All stacks.",
  [E+":force"])
p("Expected cycles return the given value",
  "force_cycle(a, Some(v)) of a thunk currently being evaluated returns v without running it; of a cell, or of a thunk not on the stack, it behaves as force.",
  "all states",
  "All stacks.",
  [E+":force",E+":force_cycle"])
p("A self-cycle makes later edits panic",
  "A user would expect edits to work after force_cycle has observed a self-cycle. In the code the self-cycle is recorded as a dependency of the thunk on itself, and the next edit of any other input of the thunk panics in dirtying's assertion: for all values, cycle values and continuations.",
  "all programs with self-cycles",
  "Requires history.",
  [E+":dirty_pred_observers"])
p("set is editor-only",
  "set inside a running thunk panics, whatever cell and value, and changes no cell content or cached result.",
  "all states with a non-empty stack",
  "All states.",
  [E+":set"])
p("Dynamic type errors are detected",
  "Using a location at another result type than the one it was allocated with panics instead of reinterpreting the stored value, for force, force_map, set, cell and (nominal) thunk.",
  "all states, locations and types",
  "All states and types; the code uses transmute behind this check.",
  [E+":assert_graphnode_res_type",E+":res_node_of_loc"])
p("Program-point mismatch is detected",
  "Re-allocating a thunk name with another program point panics and does not change the stored thunk.",
  "all states",
  "All states.",
  [E+":thunk"])
p("Memo match",
  "Re-allocating a thunk with the same name, program point and argument keeps its cached result, and allocating with another argument discards the cached result and leaves every other location's cached result alone.",
  "all states",
  "All states.",
  [E+":thunk"])
p("Namespaces and modes are scoped",
  "After any operation that returns normally, including arbitrarily nested ns, structural, force and thunk runs, the current namespace, the structural-mode flag and the evaluation stack (its locations) are what they were before.",
  "all programs (disciplined or not), all states",
  "All nestings.",
  [E+":ns",E+":structural",E+":loc_produce"])
p("Locations persist",
  "A location, once allocated, stays allocated with the same result type forever; a thunk stays a thunk and an immutable structural cell keeps its value; an art obtained from cell/thunk never dangles.",
  "all programs, all histories",
  "All histories.",
  [E+":lookup_abs",E+":cell",E+":thunk"])
p("Art identity",
  "Outside structural mode, two allocations return equal arts iff they were made in equal namespaces with equal names; independent of content and of history. In structural mode identity is determined by namespace and content hash.",
  "all programs, all states, all names and paths",
  "All names.",
  [E+":loc_of_id",E+":cell",E+":thunk"])
p("A panic inside a thunk poisons the engine",
  "A user would expect to be able to go on after catching a panic of user code inside a thunk. In the code the thunk stays recorded as running, in every state and at every depth; and from then on, whatever programs the editor runs (returning or panicking), set panics for every cell and forcing that thunk panics with an unexpected cycle.",
  "all crash points inside a thunk run",
  "Crash points.",
  [E+":loc_produce",E+":set"])
p("Trace is well bracketed",
  "While a reflection trace is recorded, every operation that returns normally leaves the trace stack at the depth it had: effect begin/end are balanced, so dcg_reflect_end's assertion cannot fail and dcg_effect_end never reaches its unreachable cases.",
  "all programs, all states",
  "All nestings.",
  [E+":dcg_effect_begin",E+":dcg_effect_end",E+":dcg_reflect_end"])
p("Engine switching",
  "use_engine returns the engine that was in use and installs the given one unchanged; switching away and back restores the DCG exactly; init_dcg gives an empty engine.",
  "all engine states",
  "All states.",
  [E+":manage"])
p("Name forking is injective and disjoint",
  "name_fork(n) yields two different names; forks of different names are different; a fork never equals the name it came from, a leaf name, or a pair. Same for name_fork3 and name_fork4. Holds whatever the hash function is.",
  "all names, all hash functions",
  "All names; hash collisions cannot be sampled.",
  [E+":name_fork",E+":name_fork3",E+":name_fork4"])
p("Name pairing and leaf names are injective",
  "name_pair(a,b)=name_pair(c,d) iff a=c and b=d for names built by the API; name_of_usize, name_of_isize, name_of_string are injective with pairwise disjoint ranges, whatever the hash function; name_of_str agrees with name_of_string.",
  "all names built without name_of_hash64, all hash functions",
  "All names; collisions.",
  [E+":name_pair",E+":name_of_usize",E+":name_of_string",E+":name_of_str"])
p("The name counter never repeats",
  "Names drawn by the unnamed forms of cell!/thunk! from bump_name_counter are pairwise distinct (as long as the counter does not overflow).",
  "all sequences of draws",
  "Unbounded histories.",
  ["src/macros.rs:bump_name_counter"])
p("List round trip",
  "vec_of_list(list_of_vec(v), None) = v, and with Some(k), k>0, it is the first k entries.",
  "all vectors of elements and names",
  "All vectors.",
  ["src/catalog/collections.rs:vec_of_list","src/catalog/collections.rs:list_of_vec"])
p("List functions agree with their sequence meaning",
  "list_fold, list_append, list_map_*, list_filter_*, list_reverse compute fold-right, append, map, filter and reverse of the element sequence, whatever names and arts occur in the list.",
  "all lists, all element functions",
  "All lists.",
  ["src/catalog/collections.rs:list_fold","src/catalog/collections.rs:list_append","src/catalog/collections.rs:list_map_eager","src/catalog/collections.rs:list_filter_eager","src/catalog/collections.rs:list_reverse"])
p("Merge of sorted lists",
  "list_merge of two lists returns a permutation of both; sorted if both inputs are sorted.",
  "all lists, all total orders, all optional names",
  "All lists.",
  ["src/catalog/collections.rs:list_merge"])
p("Mergesort sorts",
  "mergesort_list_of_tree returns a sorted permutation of the leaves of the tree; so do variants 2 and 3.",
  "all trees",
  "All trees.",
  ["src/catalog/collections.rs:mergesort_list_of_tree"])
p("Tree of list and back",
  "tree_of_list never fails its assertion and keeps the elements and names in order: list_of_tree(tree_of_list(Left,l),Left) has the same elements and names as l, for every level assignment.",
  "all lists, all hash functions (levels)",
  "Shape depends on hashes of content.",
  ["src/catalog/collections.rs:tree_of_list","src/catalog/collections.rs:tree_of_list_rec","src/catalog/collections.rs:list_of_tree"])
p("Tree folds",
  "monoid_of_tree aggregates the leaves in order for any monoid; filter_tree_of_tree keeps exactly the leaves satisfying the predicate in order; prune and eager copies keep leaves in order; prune leaves no empty subtree.",
  "all trees, monoids and predicates",
  "All trees.",
  ["src/catalog/collections.rs:monoid_of_tree","src/catalog/collections.rs:filter_tree_of_tree","src/catalog/collections.rs:prune_tree_of_tree"])
p("list_gen generates its elements",
  "list_gen(len,f) holds f(0..len-1). (VIOLATED: the loop range is empty; proved: the result is nil for every len>0.)",
  "all lengths and generators",
  "Quantified over all lengths.",
  ["src/catalog/collections.rs:list_gen"])
p("filter_list_of_tree keeps one separating name",
  "filter_list_of_tree returns the filtered leaves in order, with exactly one name between two elements separated by a name. (Element part proved; name part VIOLATED because is_name answers for cons; witness.)",
  "all trees and predicates",
  "All trees.",
  ["src/catalog/collections.rs:filter_list_of_tree","src/catalog/collections.rs:ListElim::is_name"])
p("Association-list maps",
  "find(update(m,d,c),d)=Some(c); find(update(m,d,c),e)=find(m,e) for e≠d; whatever names and arts occur; set intersection contains exactly common members.",
  "all maps and keys",
  "All maps.",
  ["src/catalog/collections.rs:MapElim","src/catalog/collections.rs:SetIntro"])
p("Bit strings",
  "pow(b,n)=b^n; flip(i,·) toggles exactly bit i; is_set(i,·) reads bit i; prepend adds a top bit and keeps the others; shift_left keeps the length and shifts modulo it; no i64 overflow up to MAX_LEN.",
  "all lengths up to the limits, all values",
  "2^30 values per length.",
  ["src/catalog/bitstring.rs"])
p("Trie lookup",
  "find returns the stored element iff it is stored on the path given by the hash bits; split_atomic keeps all elements findable; is_empty is right.",
  "all tries, elements and hashes",
  "All tries.",
  ["src/catalog/trie.rs"])
p("Reflection parse round trip",
  "parse_val applied to the Debug output of a value built from numbers, escape-free strings, tuples, vectors, constructors, structs, names and nominal arts returns the value that was printed.",
  "all such values of any depth",
  "All values.",
  ["src/parse_val.rs"])
p("Contents and caches change only for a reason",
  "While any program runs, a cell's value changes only by a set (or re-allocation) of that cell, and a thunk's cached result changes only by running that thunk or re-allocating its location; everything else leaves contents and caches as they were.",
  "all programs, all engine states, all depths",
  "Quantified over all programs and histories.",
  ["src/engine.rs:dirty_alloc","src/engine.rs:cell","src/engine.rs:thunk","src/engine.rs:set","src/engine.rs:force"])
p("Clean dependencies are up to date",
  "Between editor programs of a meaningful session: if none of a thunk's recorded dependencies is dirty, then every value it observed is still the current value of the observed location (the cell's content, or the cached result of a thunk that itself has no dirty dependency).",
  "all meaningful sessions of any length, all locations",
  "Quantified over all programs and histories.",
  ["src/engine.rs:force","src/engine.rs:revalidate_succs","src/engine.rs:dirty_alloc"])
p("A cycle created by an edit is not reported",
  "A user would expect (C20) that demanding thunks which demand each other is reported as a cycle. If the cycle is created by an edit after both thunks have cached results, the code returns a stale value instead, for all values; the same program run in a new engine panics with an unexpected cycle.",
  "all values and depths",
  "Needs an edit between two demands, and quantifies over all values.",
  ["src/engine.rs:force","src/engine.rs:clean_comp","src/engine.rs:loc_produce"])
p("Filtering a tree keeps its names",
  "filter_tree_of_tree retains all names of the tree, even if they merely name empty subtrees (its documentation). (VIOLATED: whenever one side of a named node filters to nothing the name is dropped; proved for all such nodes, with a witness. Proved besides: the result has no empty subtree.)",
  "all trees and predicates",
  "Quantified over all trees and predicates.",
  ["src/catalog/collections.rs:filter_tree_of_tree","src/catalog/collections.rs:bin_arts_niltest"])
p("Tries can be extended",
  "extend, singleton, the set operation add and trie_of_list return a trie holding the given elements. (VIOLATED: extend is unfinished, so each of them panics on every argument; trie_of_list succeeds only for lists without elements. Proved for all arguments.)",
  "all tries, names, elements and lists",
  "Quantified over all arguments.",
  ["src/catalog/trie.rs:extend","src/catalog/trie.rs:singleton","src/catalog/trie.rs:trie_of_list"])
p("Every value can be reflected",
  "reflect_val/parse_val of any value that derives Debug returns the reflection of that value. (VIOLATED. Proved: a string is reflected as itself iff all its characters are plain printable ASCII; a string with a double quote panics, or inside another value may parse as different data; a value panics iff it holds a structurally identified articulation or a name made with name_of_isize; all name_of_hash64 names are conflated; user constructors called Usize, String, Isize... are taken for names; numbers beyond 64 bits panic.)",
  "all values of any depth, all strings",
  "Quantified over all values and strings.",
  ["src/parse_val.rs:lex","src/parse_val.rs:parse_art_val","src/parse_val.rs:name_of_val","src/parse_val.rs:name_option_of_val","src/reflect.rs:reflect_val"])
p("Counting a recorded trace",
  "Between dcg_reflect_begin and dcg_reflect_end, whatever programs the editor runs and whatever the engine's state was, dcg_reflect_end returns a forest of traces and trace_count of that forest does not panic. Each count is the number of traces of that kind: fresh, unchanged and changed allocations and dirtied edges of the editor (outside its demands of thunks) and of the archivist (inside them), demands of thunks by the editor, edges cleaned recursively, and re-evaluations with and without a change directly in their extent. Inside a Debug extent only dirtied edges are counted.",
  "all editor programs, all engine states, all depths",
  "Quantified over all programs and histories; trace_count has unreachable! cases and assertions that only fire on particular histories.",
  ["src/reflect.rs:trace_count","src/reflect.rs:trace_count_rec","src/reflect.rs:trace_count_dirty","src/engine.rs:dcg_reflect_end"])
p("Structural cells are immutable",
  "In structural mode with the purity optimisation (the default), a cell allocated for the first time at its location keeps its value for ever: through any history of programs, returning or panicking, demanding it returns the value it was allocated with, no dependency on it is ever recorded, and set on it panics. Identity is by hash only: a later structural cell of the same type and namespace whose value has the same hash is the old cell, and its value is lost.",
  "all values, types, engine states and histories",
  "Quantified over all histories.",
  ["src/engine.rs:cell","src/engine.rs:structural","src/engine.rs:force","src/engine.rs:set_"])
p("Observations form no cycle",
  "Between the editor programs of a session that has a meaning, no thunk is reachable from itself along the observations it and its dependencies have recorded: the demanded computation graph, restricted to demands, is acyclic, so dirtying and cleaning walks end. (Allocation edges may form cycles.)",
  "all programs and histories with a reference meaning; all locations; paths of any length",
  "Quantified over all histories and over paths of unbounded length.",
  ["src/engine.rs:force","src/engine.rs:loc_produce","src/engine.rs:dirty_pred_observers"])
p("The DCG checker",
  "With ADAPTON_CHECK_DCG set, the check passes, in whatever order the hash map presents the table, between the editor programs of every session that has a meaning, recursing no deeper than the table is large. In any state at all, reachable or not, if the check returns without panic then no running thunk is stale and every recorded observation of a stale location is dirty.",
  "all histories, all iteration orders; all engine states for soundness",
  "Quantified over all states and iteration orders; a test runs the checker in a few states and orders.",
  ["src/engine.rs:wf::check_dcg","src/engine.rs:wf::dirty","src/engine.rs:wf::clean","src/engine.rs:wf::add_constraint"])
p("The hash of a name identifies it",
  "Structural identities see only the stored hash of a name. Two names built by the API (from usize, isize, strings, unit, pairs and forks to any depth) have the same hash only if they are the same name or the hash function itself collided on inputs used in building them. (One systematic collision exists: name_of_usize(u) and name_of_isize(u), and all names built from them alike, have equal hashes though they are different names.)",
  "all names of any depth, all hash functions",
  "Quantified over all names and hash functions.",
  ["src/engine.rs:name_fork","src/engine.rs:name_pair","src/engine.rs:name_of_usize","src/engine.rs:name_of_isize","src/engine.rs:my_hash","src/engine.rs:impl Hash for Name"])
p("The naive engine and the DCG engine agree",
  "The same program text — the same calls, using arts abstractly — computes corresponding values on the naive engine (no sharing, no caching) and on the DCG engine, whatever happened before on the DCG engine: (a) any program that writes each location at most once, run after any session with a from-scratch meaning; (b) any demand by the editor after any interleaving of allocations, edits and demands, when the naive art has the contents the editor gave its locations. So whatever is observable of corresponding values is equal.",
  "all program texts and value correspondences, all earlier sessions, all depths of recursion",
  "Quantified over all programs and all histories of edits; tests run a few programs in both engines.",
  ["src/engine.rs:force","src/engine.rs:cell","src/engine.rs:thunk","src/engine.rs:ns","src/engine.rs:NaiveThunk","src/engine.rs:manage::init_naive"])
p("Results are right up to the user's equality",
  "The engine decides what to reuse with the PartialEq of the user's types. If that is an equivalence, and the user's closures, maps and hashes respect it, then for every session with a from-scratch meaning the engine terminates without panic and each result is == to the from-scratch result. The bound is sharp: an edit to an equal value is dropped, and the old value keeps being returned.",
  "all value types and equivalences, all closures that respect them, all editor sessions, any recursion depth",
  "Quantified over all user-defined equalities and all histories; unit tests use derived equality on small types.",
  ["src/engine.rs:DCG::thunk","src/engine.rs:DCG::cell","src/engine.rs:DCG::set","src/engine.rs:ForceDep::clean","src/engine.rs:AllocDependency"])
p("Articulations as values (thunk_map): violated",
  "Articulations may be contents of cells and arguments of thunks, so their == must distinguish articulations that force to different values. It is an equivalence and identifies exactly equal locations; but all articulations made by thunk_map are == to one another, whatever they map and by which map. So setting a cell from thunk_map(x,f) to thunk_map(x,g), or re-allocating a named thunk with the other one as argument, is ignored and stale results are returned. (Forcing thunk_map(x,f) itself is forcing x and applying f, in every state.)",
  "all articulations, all maps f and g, all contents of x, all recursion depths",
  "Which articulations compare equal and what the engine then reuses must be settled for all maps and values.",
  ["src/engine.rs:thunk_map","src/engine.rs:impl PartialEq for EnumArt","src/engine.rs:impl Force for NaiveThunk","src/engine.rs:force"])
p("Sorting never uses a name twice",
  "Sorting a tree into a list, and merging two lists, make the names they need by forking the names they are given. If the given names are independent (no two of them have a common fork), then merging allocates each of its thunks at its own name and keeps every element with the name in front of it (or its right half), the first and third merge sort allocate all their thunks (memoised recursive calls and merges) at names distinct within each namespace, and the names in the sorted list are again independent, hence distinct, and each is made from a name of the input. Distinct names that are not forks are independent. The second merge sort breaks this: it uses the name of a node both for an element and for a merge, so its result can contain one name twice and it can allocate two different thunks at one name.",
  "every order on the elements, every tree and every pair of lists of any shape with independent names",
  "Name reuse depends on how the values interleave in every merge of the recursion; a test exercises one interleaving, and a repeated name shows only as a silently wrong incremental result.",
  ["src/catalog/collections.rs: list_merge, mergesort_list_of_tree, mergesort_list_of_tree2, mergesort_list_of_tree3, tree_fold_up, tree_fold_up_nm_dn", "src/engine.rs: name_fork"])
p("Sorting on the engine, end to end",
  "An editor keeps trees in cells, edits the cells in any way (allocation of new cells, set, re-allocation), and demands vec_of_list(mergesort_list_of_tree(t)) after each batch of edits, in a thunk with a fixed name. If at each demand the articulations in the tree can be followed to the end and the names in the tree are distinct and none is itself a fork, then the DCG engine terminates without panic and each demand returns exactly the elements of the tree as it is at that moment, in ascending order. (mergesort_list_of_tree2 violates this already without any edit: a second thunk replaces a first one at the same name and the result is a cyclic list in which elements are lost and others repeat for ever.)",
  "all element types and total orders, all trees, all sequences of edits and demands of any length, any recursion depth",
  "Quantified over all histories of edits and all trees; the tests of the repository compare the two engines on one list and without edits.",
  ["src/catalog/collections.rs: mergesort_list_of_tree, mergesort_list_of_tree2, list_merge, list_merge_wrapper, tree_fold_up, tree_fold_up_nm_dn, vec_of_list, ListElim::elim_arg, TreeElim::elim_arg", "src/engine.rs: force, thunk, cell, set, ns", "src/macros.rs: memo!, thunk!, get!"])
p("The reflected DCG is the DCG",
  "dcg_reflect_now returns, in every engine state and for every iteration order of the hash map, exactly the nodes of the DCG with their values, edges, dirty bits and program points, the stack of frames and the current path, provided no articulation was named with name_of_hash64 (which users are told not to call; otherwise two nodes can share a reflected location and one of them is lost, depending on iteration order). It panics exactly if a value of some node cannot be parsed, and returns None exactly under the naive engine. Between the programs of every session with a from-scratch meaning the reflected DCG has no frames, every edge leads to a node that has the matching predecessor and vice versa, no edge is a self loop, dirty edges make all Force edges above dirty, and clean thunks only force clean thunks. Violated: edges never carry the documented value, and duplicate Alloc edges are stored, not marked as duplicates, and their dirty bits can differ.",
  "all engine states, all iteration orders, all parsers of values; all editor sessions for the invariants",
  "Quantified over all states and iteration orders of a hash map; tests look at a few graphs.",
  ["src/engine.rs: reflect_dcg::dcg_reflect_now, impl Reflect for DCG, Loc, Path, Frame, Succ, Pred, Node, Effect; name_of_hash64", "src/reflect.rs: DCG, Node, Succ, Pred, succs_of_node, preds_of_node"])
p("Thunks remember the naming mode in which they are evaluated: violated",
  "A program may evaluate a thunk in structural mode (`structural(|| force(t))`), where names are ignored. One expects that an incremental run evaluates the thunk in the same mode as a from-scratch run would. It does not: when the thunk is re-evaluated while an outer thunk is cleaned, the mode is that of the outermost demand. Names that were ignored then count, distinct cells become one, and the result differs from a from-scratch run.",
  "all values, all hash functions that separate the values concerned, both settings of the purity optimisation, every sufficient depth",
  "The mode at re-evaluation depends on which demand reaches the thunk first after which edit.",
  ["src/engine.rs: structural, loc_produce, clean_comp, ForceDep::clean"])
p("Each thunk runs at most once per demand, and only for a cause",
  "In every session with a from-scratch meaning, a demand of a thunk runs the code of each thunk at most once, however many thunks depend on it. It runs the code of a thunk only if that thunk has no cached result, or was allocated again with another argument, or its last run observed another value of something (for force_map: another image), or its last run allocated something that has been overwritten; and where the other value is that of a thunk which is itself run, there is in turn a cause for that run. A second demand, of the same thunk or of any thunk that the first demand has run, returns the cached result, runs nothing and leaves the graph as it is.",
  "all programs, all editor sessions of any length, all demands, both settings of the purity optimisation, any recursion depth",
  "Minimal re-evaluation is a statement about every dependency graph and every history of edits; a counter in a test covers one graph.",
  ["src/engine.rs: force, force_map, loc_produce, clean_comp, ForceDep::clean, ForceMapDep::clean, AllocDependency::clean, dirty_alloc"])
p("Concise strings of names and locations",
  "string_of_name, string_of_path and string_of_loc give different strings to different names, namespaces and reflected locations, as long as these are made from numbers (name_of_usize), words (nonempty strings without '-', '_', '▲' that do not start with a digit) and the unit name by forking only. Outside this they do not, although distinct names stay distinct for the engine: a number and the string of its digits, a usize and the same isize, pairs that differ in grouping only, a fork of a pair and a pair with a forked second part, a fork and a pair with the string 'l' or 'r', strings with '-' and pairs, and all structural locations of one namespace share one string.",
  "all names of any depth, all namespaces and locations of any length, all hash functions, all strings",
  "Injectivity quantifies over all pairs of names; a test compares a few.",
  ["src/engine.rs: reflect_dcg::string_of_name, string_of_path, string_of_loc, write_name, write_path, write_loc, write_namesym"])
p("The pipeline list, tree, sorted list on the engine, end to end",
  "An editor keeps lists in cells, edits the cells in any way (allocation of new cells, set, re-allocation), and demands vec_of_list(mergesort_list_of_tree(tree_of_list(dir, l))) after each batch of edits, in a thunk with a fixed name and with tree_of_list in its own namespace. If at each demand the articulations in the list can be followed to the end and the names in the list are distinct and none is itself a fork, then the DCG engine terminates without panic and each demand returns exactly the elements of the list as it is at that moment, in ascending order (equal elements in the order of the list for Left, in the reverse order for Right), whatever the hashes that decide the shape of the tree. With a repeated name the engine panics.",
  "all element types, total orders and hash functions, all lists, both directions, all sequences of edits and demands of any length, any recursion depth",
  "Quantified over all histories of edits, all lists and all tree shapes; the tests of the repository run the pipeline on one list at a time.",
  ["src/catalog/collections.rs: tree_of_list, tree_of_list_rec, mergesort_list_of_tree, list_merge, tree_fold_up, vec_of_list, ListElim::is_empty, ListElim::elim_arg, TreeElim::elim_arg", "src/engine.rs: force, thunk, cell, set, ns", "src/macros.rs: eager!, memo!, thunk!, get!"])
p("What is not demanded is not run",
  "After any history of edits and demands, the incremental evaluation of a demand runs the code of a thunk only if the evaluation of that demand from scratch would evaluate it too. A thunk that the current inputs make unnecessary is not run, although an earlier demand has run it and although its inputs have changed since; in the division example of the documentation, no history of edits ever divides by zero.",
  "all well-formed programs, all histories of edits and demands, all demanded articulations, all thunks; for the division example all contents of the two cells and all sequences of edits and demands",
  "Change propagation decides what to run from the dependency graph that the past has left, so the graphs to be considered are all that some history leaves; a test sees the order of re-evaluation of one graph.",
  ["src/lib.rs: Demand-driven change propagation, Switching", "src/engine.rs: DCG::force, loc_produce, clean_comp, ForceDep::clean"])
p("A memoization point evaluates the code it is given: violated",
  "Where a memoization point (memo!, let_memo!, thunk! followed by get!) is reached again under the same name, one expects the value of the code written there, and the documentation says that the name may be associated with other functions in later runs. The engine compares the program point and the argument only: if these are the same, the new code, the variables it captures and the arguments after ';;' are dropped, and the value is that of the old code, with nothing run. let_memo! and thunk![[name] body] use one program point for all bodies, so there the value is that of the first body even if the text differs. Where the text differs and counts, the engine panics. Arguments before ';;' are tracked.",
  "all histories with a meaning, all names, arguments, pairs of closures, both settings of the purity optimisation, every sufficient depth; for the first theorem all engine states",
  "Staleness depends on which code ran first under a name, in any history.",
  ["src/macros.rs: thunk!, memo!, let_memo!, let_thunk!, prog_pt!", "src/engine.rs: DCG::thunk (NameChoice::Nominal)", "src/lib.rs: Memoization points"])
p("A memoization point without a name is an ordinary call: violated in the DCG engine",
  "memo!([None]? f; x:v), thunk!([None]? f; x:v) and thunk![[None]? body] are documented as ordinary, uncached calls or structurally identified ones. In the DCG engine they panic in every state, whatever the function; in the naive engine a memoization point, with or without a name, is the call.",
  "all engine states, functions, arguments and continuations",
  "The panic is independent of the state; a test shows one state.",
  ["src/macros.rs: thunk!, memo!", "src/engine.rs: thunk, DCG::thunk (NameChoice::Eager)", "src/lib.rs: Optional names"])
p("The nominal firewall example, for every history",
  "In the documentation's example g squares the input cell a into the cell b, h formats b, f demands both. For every function in place of squaring and formatting, every content of a and every history of edits and demands: each demand returns the result for the current content; an edit runs nothing, dirties f and g unless the content is the one the last demand saw, and never dirties h; a demand runs g if the content is not the one the last demand saw, then h if the square is another one, then f if the string is another one, and nothing else; if the square is the same, no event of the trace mentions h. (The documentation's remark that without the firewall f would be re-executed is wrong: it is dirtied, but not run.)",
  "all value types, functions, contents, histories of edits and demands of any length, both settings of the purity optimisation",
  "The test in the documentation is one history of three runs, and looks at the results only.",
  ["src/lib.rs: Nominal Firewalls", "src/macros.rs: let_memo!, let_cell!, cell!, get!", "src/engine.rs: DCG::thunk, DCG::cell, DCG::force, clean_comp, dirty_alloc"])
p("The documented cycle exploration, on every graph and for every history of demands",
  "For the 'Nominal Cycles' program (`explore`, each recursive step a thunk named by its node and forced with an empty vector as cycle value): on every directed graph, with any cycles, the first demand in a new engine ends, answers exactly the nodes that can be reached, and runs the thunk of each of them exactly once. Any sequence of demands ends, contains no unreachable node, gives equal demands equal answers and runs no thunk twice. The documented assertion [0,1,2,3,3] holds. (Violated: after a demand that went through a cycle, a demand for another node of the cycle returns the truncated value that was computed inside the cycle, not what a new engine answers.) The version without thunks never ends.",
  "every graph of out-degree two whose reachable part is finite, every node, every sequence of demands, every sufficient recursion depth",
  "the documentation checks one demand on one graph of six nodes; termination, completeness and the one-run bound are claims about all graphs, and the stale value only shows after particular orders of demands",
  ["src/lib.rs: Nominal Cycles (explore, explore_rec, explore_thunk)", "src/engine.rs: DCG::force (is_cycle, is_dup), loc_produce, force_cycle", "src/macros.rs: get!, thunk!"])
p("What is still current is not run again",
  "If everything that a thunk has observed, directly or through other thunks, still has the value that was seen (for force_map: the same image), then a demand returns the cached result and runs no code, changes no content and no cached value, and leaves no dependency of the thunk flagged, however many dependencies were flagged in between. In particular, after any history and a demand of l, if the editor changes inputs any number of times and in the end each cell holds what was observed of it, for instance because each edit was undone, the next demand of l runs nothing.",
  "every engine state (no reachability assumed); every session with a meaning, every sequence of edits of cells that no thunk allocated",
  "the documentation checks one reuse (division in check/div); which flags an edit sequence raises and whether cleaning ends in reuse depends on the whole graph and the order of edits",
  ["src/lib.rs: Demand-driven change propagation", "src/engine.rs: DCG::force, clean_comp, ForceDep::clean, ForceMapDep::clean, set_, dirty_alloc"])
p("The list functions of the catalog, incrementally",
  "When an editor edits cells that hold lists and demands vec_of_list(f_k(... f_1(l)), limit) again and again, where each f_i is list_map_lazy, list_filter_lazy, list_map_eager, list_filter_eager, list_map_eager2 (with any body) or list_reverse and runs in a namespace of its own, the engine terminates without panic and every demand returns what these functions make of the items of the list as it is at that moment (cut at the limit), provided the names in the list are distinct.",
  "all element types and bodies, all chains of the functions (which may change between demands), all lists through any cells, all edits between demands, all limits, all hash functions, both purity settings",
  "the functions create and reuse thunks by the names found in the input; whether an edit invalidates exactly what it must depends on every history of edits, chains and partial demands",
  ["src/catalog/collections.rs: list_map_lazy, list_map_eager, list_map_eager2, list_filter_lazy, list_filter_eager, list_reverse, vec_of_list, ListElim for List", "src/macros.rs: thunk!, eager!, memo!", "src/engine.rs: cell, set, force, thunk, ns"])
p("tree_fold_up, tree_fold_seq, tree_fold_up_nm_dn and what is made with them return, after any edits, what they return from scratch",
  "When an editor edits cells that hold trees, in any way, and demands, again and again, a fold of the tree (tree_fold_up, tree_fold_seq in either direction, or tree_fold_up_nm_dn with any pure functions, among them monoid_of_tree and eager_tree_of_tree; or list_of_tree or filter_list_of_tree, demanded by vec_of_list), after any number of filter_tree_of_tree, each stage in its own namespace, then every demand terminates without panic and returns the fold of the tree as it is at that moment: for monoid_of_tree with a monoid, the sum of the leaves that the filters keep; for the list functions, those leaves in order. This holds whenever the articulations of the tree can be followed to the end and the names in it are distinct (and, if the last stage makes a list, none is made by name_fork).",
  "all trees, all edit histories and demands, all functions passed, all predicates, all chains of filters, limits and stage namespaces",
  "the trees, histories, functions and chains are unbounded; the tests of the project run a few random trees of one shape",
  ["src/catalog/collections.rs: tree_fold_up, tree_fold_seq, tree_fold_up_nm_dn, list_of_tree, filter_list_of_tree, filter_tree_of_tree, monoid_of_tree, eager_tree_of_tree, bin_arts_niltest, vec_of_list, TreeElim for Tree, ListElim for List", "src/macros.rs: memo!", "src/engine.rs: cell, set, force, thunk, ns"])
p("prune_tree_of_tree does not follow edits",
  "The expected property, that what prune_tree_of_tree makes of a tree follows the edits of the cells in the tree as everything else does, is false: prune_tree_of_tree, called in a namespace of its own on a tree with a name, allocates its cells where the fold has its thunks, and the fold's record of what it has read is lost. After any edit below the name, demands return the result for the tree as it was at the first demand.",
  "all leaf values before and after the edits, both purity settings, all bounds on recursion; one shape of tree",
  "the tests call prune_tree_of_tree once per engine and never edit",
  ["src/catalog/collections.rs: prune_tree_of_tree, bin_arts_niltest, tree_fold_up", "src/engine.rs: cell, revoke_succs, force"])
p("Pipelines of eager maps and filters are incremental",
  "After any history of edits and demands, a list is demanded through any number of list_map_eager and list_filter_eager stages; then the editor replaces any part of the list (segments A, B, C become A, B', C). The next demand returns what the stages make of the new list, and the number of thunks whose code it runs is at most 1 + (number of stages) * (length of B' + 2), however long A and C are: only the demanded thunk and, in each stage, the thunks for the names of B' and for the last two names of A run, each at most once; and a thunk of a stage records at most three dependencies.",
  "all histories of edits and demands before; all lengths of the kept and replaced parts, all chunks of elements between names, all bodies, all numbers of stages, all edits that lead to the new list, limits, both purity settings",
  "the claim is about work saved, for lists of any length; tests in the repository check results and print timings",
  ["src/catalog/collections.rs: list_map_eager, list_filter_eager, vec_of_list", "src/engine.rs: force, clean_comp, dirty_pred_observers, thunk, set, cell"])
p("Folds of trees are incremental",
  "After any history of edits and demands, a tree is folded by tree_fold_up (so also monoid_of_tree and eager_tree_of_tree); then the editor edits cells so that one subtree t, at the end of any way down the tree, becomes t'. The next demand returns the fold of the new tree, and it runs the code of the demanded thunk, of one thunk for each name on the way, and of two for each name in t', each at most once, and of no other thunk: at most 1 + (names on the way) + 2 * (names in t') runs, however large the tree is. And if the fold of the subtree below some name on the way comes out the same (and a cell lies between that name and the edited place), neither the demanded thunk nor any thunk above that name is run. Each run depends only on the cells between its subtree and the nearest names, and on the thunks at these names, so with at most B of these the runs together record at most B times their number of dependencies.",
  "all trees, all ways down, all subtrees t and t', all pure functions folded with, all histories of edits and demands before, all edits that lead to the new tree, limits, both purity settings",
  "the claim is about work saved, for trees of any size and shape; tests in the repository compare results only",
  ["src/catalog/collections.rs: tree_fold_up, monoid_of_tree, eager_tree_of_tree", "src/macros.rs: memo!", "src/engine.rs: force, clean_comp, dirty_pred_observers, thunk, set, cell"])
p("Tries follow edits, and trie_fold of a new empty trie panics",
  "In any session in which an editor edits cells that hold tries and asks, again and again, find, mem, is_empty, fold or trie_fold of a trie made of those cells, or of Trie::empty(meta), the engine terminates without panic and answers as of the trie as it is then: mem says whether the element is in the trie (if elements are where their hashes say), is_empty says true only if there is none, and both folds combine the elements from left to right. This needs, for trie_fold, that the names in the trie are distinct and that Trie::empty was called in another namespace: in the same namespace (for example both at the top level) trie_fold of Trie::empty(meta) never returns, in any state of the engine.",
  "all tries, all histories of edits and demands, all elements, hashes, functions folded with, metadata; for the violated half all engine states",
  "tries, histories and functions are unbounded; the only tests of tries insert elements, which panics",
  ["src/catalog/trie.rs: Trie, TrieElim::find, TrieElim::is_empty, TrieElim::elim, TrieElim::elim_arg, TrieElim::elim_ref, TrieIntro::empty, SetElim::mem, SetElim::fold, trie_fold", "src/macros.rs: memo!, thunk!", "src/engine.rs: cell, set, force, thunk, ns"])
p("mergesort_list_of_tree3 follows edits, and the names given to it must be independent",
  "An editor edits cells that hold trees, in any way, and demands again and again vec_of_list of mergesort_list_of_tree3 of a tree made of those cells, without a limit or with one, with or without a name for the sort, in any namespace. If at each demand the articulations of the tree can be followed to the end and the names in it, with the one given to the sort, are independent (none is made from another by forking, none occurs twice), then the engine terminates without panic and returns what sorting the current tree from scratch returns: all its leaves, sorted, no name twice, or the first items of that. The condition is needed: a name twice in the tree makes the engine panic, and a name of the tree given to the sort can make it return an endless list that repeats one element.",
  "all trees, all total orders, all names, limits and namespaces, all histories of edits and demands, all fuel, both settings of the purity optimisation",
  "trees, edits and demands are unbounded; no test of the repository calls mergesort_list_of_tree3 at all",
  ["src/catalog/collections.rs: mergesort_list_of_tree3, list_merge_wrapper, list_merge, tree_fold_up_nm_dn, vec_of_list, list_name_op, ListElim::elim_arg, TreeElim::elim_arg", "src/macros.rs: memo!, thunk!", "src/engine.rs: cell, set, force, thunk, ns"])
p("Comparisons made by the demand-driven sorts",
  "Of a tree with n leaves, mergesort_list_of_tree, mergesort_list_of_tree2 and mergesort_list_of_tree3 make at most n times the height of the tree comparisons of elements, however many elements of the result are demanded: n log n if the tree is balanced. Demanding the last element makes none. If every inner node has a name (and the second and third sort are given one), demanding the first element makes at most n-1 comparisons, and each next one at most as many as the height of the tree. The documented total, O(n log n) for a tree with n leaves, does not hold for all trees: a tree that leans to the left, even with all its nodes named, takes n(n-1)/2.",
  "all trees (named or not, of any shape, with articulations anywhere), all comparison functions, all names and hashes, all numbers of demanded elements",
  "the bounds are documented for all trees; a test can count the comparisons on one of them, and the repository has no test that counts any",
  ["src/catalog/collections.rs: mergesort_list_of_tree, mergesort_list_of_tree2, mergesort_list_of_tree3, list_merge, tree_fold_up, tree_fold_up_nm_dn, vec_of_list"])
p("Nominal memoization does what the documentation says",
  "The calls get!(thunk!([n] f; args)) of the section \"Nominal memoization\" of the documentation, with any names and arguments in any order: every call returns f of its own arguments; f is evaluated exactly for the calls that do not repeat the last call with the same name, in this order; and trace_count of the recorded trace says that the editor made one demand per call, allocated as many fresh thunks as there are different names, allocated as many without change as there are repetitions, and as many with change as there are calls with other arguments, and that the archivist allocated nothing, and nothing was dirtied or cleaned.",
  "all functions that do not use the engine, all sequences of calls (names and arguments), both purity settings, all bounds on recursion",
  "the documentation runs four calls; the claim is about every sequence of calls",
  ["src/lib.rs: Nominal memoization", "src/macros.rs: thunk!, get!", "src/engine.rs: thunk, force", "src/reflect.rs: dcg_reflect_begin, dcg_reflect_end, trace_count"])
p("force_map dirties only when the projection changes",
  "The example of the section \"Use force_map for more precise dependencies\", with any projection and any history of edits of the cell and demands of the thunk: every demand returns what follows from the projection of the current content; the thunk runs at the first demand and at those where the projection is not that of the last demand; an edit dirties the thunk exactly if it is the first since the last demand with another projection. In particular, as long as the edits do not change the projection, nothing is dirtied, nothing is cleaned and nothing runs again. The counts of trace_count are these numbers, except that reeval_nochange also counts the re-evaluations that change the result.",
  "all projections, all functions of the projection, all contents, all histories of edits and demands, both purity settings, all bounds on recursion",
  "the documentation runs one edit; the claim is about every history",
  ["src/lib.rs: Use force_map for more precise dependencies", "src/engine.rs: force_map, ForceMapDep, dirty_pred_observers, clean_comp, set", "src/reflect.rs: trace_count"])
p("Reversing a list is incremental, by nominal independence",
  "As the section \"Simple example of nominal independence\" says of rev: after any history of edits and demands, when a list is demanded through any chain of list_map_eager and list_filter_eager and then list_reverse, and some segments in the middle of it are replaced by others, the next demand returns the reversed result for the new list and runs only the demanded thunk and the thunks for the new names and for the two names before them, each at most once. The thunks for the names after the edit are not run, although their accumulators have another content.",
  "all sessions of edits and demands before, all lists and all splits of them, all replacements (including other first elements and limits), all chains of maps and filters before the reversal, all hash functions",
  "how many thunks run depends on the whole recorded graph after an arbitrary history; the repository has no test of the documented claim",
  ["src/lib.rs: Simple example of nominal independence", "src/catalog/collections.rs: list_reverse, list_map_eager, list_filter_eager, vec_of_list", "src/engine.rs: cell, thunk, force, set, clean_comp"])
p("A demand runs only what it uses",
  "After any history of edits and demands that has a meaning, every thunk that a demand of l runs is l itself or is linked to l, in the dependency graph that the demand leaves behind, by a chain of recorded observations; nothing is run speculatively, not even a thunk that l used before the last edit and does not use any more. With the purity optimisation a thunk identified structurally may be run without a recorded observation.",
  "all programs, all histories of edits and demands, both purity settings, all bounds on recursion",
  "change propagation decides from an arbitrary recorded graph which thunks to re-run; the tests count a few fixed cases (tests/engine.rs avoid_expensive_subcomp is one history)",
  ["src/engine.rs: force, clean_comp, loc_produce, change_prop_comp", "tests/engine.rs"])
p("list_map_lazy and list_filter_lazy are lazy",
  "As the comments say (\"Lazily maps / filters the list, guided by names in the input list\"): after any history of edits and demands, a demand of the first k elements of a lazily mapped or filtered list returns them and runs, besides the demanded thunk, only the thunks of those names before which fewer than k elements of the result come; what comes after the k-th element costs nothing, however long it is. This holds for one lazy stage: the output of a lazy stage has no names, so that a second lazy stage runs all of the first at any demand.",
  "all sessions of edits and demands before, all lists, all functions, all k > 0, all hash functions",
  "how many thunks run depends on the whole recorded graph after an arbitrary history; the tests demand whole lists only",
  ["src/catalog/collections.rs: list_map_lazy, list_filter_lazy, vec_of_list", "src/engine.rs: thunk, force, clean_comp"])
p("The editor may do itself what a thunk may do, and use what thunks have made",
  "Code that is right inside a demanded thunk is right when the editor (code outside of any thunk) calls it directly, again and again after edits, as the tests of the catalog do: it ends without panic with the result that evaluating it from scratch on the inputs has. More generally the editor has one store: it may allocate, use and change arts made by earlier runs at any time, also after edits that make those runs out of date; it reads then what was last stored, until the thunk that made it is demanded again.",
  "all programs, all sessions of editor programs, all stores at their beginning that contain the inputs of the code, both purity settings, all lists, trees and tries of the catalog",
  "the results depend on what earlier runs left in the engine; the tests run one fixed sequence (test_engine_alternation)",
  ["src/engine.rs: cell, set, thunk, force, force_map, force_abs, ns", "src/catalog/collections.rs: test_engine_alternation", "src/catalog/trie.rs"])
p("The folds of the documentation's level trees are right after every edit",
  "The level trees of the documentation (\"Incremental sequences\": trees with binary nodes, leaves, names and articulations) may be held in cells that the editor edits in any way, again and again. If at each demand the articulations can be followed to the end and each binary node has a name of its own just above it, then fold_up_namebin terminates without panic and returns the fold of the tree as it is then; fold_monoid with an associative operation and its unit returns the combination of all elements from left to right. (A binary node without a name, or two with the same name, make the fold panic.)",
  "all level trees, all sessions of edits and demands, all functions passed, all hash functions of names, both purity settings",
  "the engine's graph at a demand depends on the whole history; the code is in a documentation test that is only compiled, never run",
  ["src/lib.rs: Incremental sequences, Rec, fold_up_namebin, fold_monoid", "src/macros.rs: memo, forko, get", "src/engine.rs: thunk, force, ns"])
p("The folds of the documentation's level trees are incremental",
  "After any history of edits and demands: if between two demands of the fold of a level tree the tree changes at one place only, then the second demand returns the fold of the new tree and runs the code of the demanded thunk, of the thunks for the binary nodes on the way to that place, and of those for the binary nodes in the new subtree, each at most once, and of no other thunk, however large the tree is; each run reads only the cells down to the nearest binary node and the two thunks of that node. If the fold of the subtree below some binary node on the way is the same as before (and the change was made through a cell below it), nothing above that node is run.",
  "all level trees with a name of its own for each binary node, all ways into them, all old and new subtrees, all sessions of edits and demands before, all functions, all hash functions of names",
  "which thunks run depends on the whole recorded graph after an arbitrary history; the code is in a documentation test that is only compiled",
  ["src/lib.rs: Incremental sequences, Rec, fold_up_namebin", "src/macros.rs: memo, forko", "src/engine.rs: thunk, force, clean_comp, change_prop_comp"])
p("The total cost of dirtying is paid for",
  "One edit may dirty many dependencies, but over a whole history the cost adds up: from any state, after any sequence of editor programs, also one that ends in a panic, the number of dependencies walked over by dirtying (as the trace reports them) is at most the number of dependencies that were clean at the start, plus the forces and allocations made by thunks since then, plus the dependencies that a demand found unchanged and marked clean, plus the new structurally named locations. In particular a batch of any number of sets, of any cells, walks altogether over no more dependencies than were clean when it began.",
  "all programs, all histories, all states, also ill-formed and cyclic graphs, and sessions that panic",
  "A sum over unboundedly many edits and demands.",
  ["src/engine.rs:dirty_pred_observers", "src/engine.rs:dirty_alloc", "src/engine.rs:clean_comp", "src/engine.rs:loc_produce", "src/engine.rs:force", "src/engine.rs:thunk", "src/engine.rs:cell"])
p("The engine does not depend on how names, hashes and values are represented",
  "The engine uses names, hashes, program points, type tags, locations and values only by comparing them. If two sessions correspond call by call under a change of representation that keeps equal things equal and different things different, then they end in the same way (corresponding results, or the same panic), with the same trace and the same thunks evaluated in the same order, up to the change of representation; in particular they cost the same. So choosing other names with the same coincidences, other program points, or another hash function for names, however bad, changes nothing.",
  "all programs, all histories, all one-to-one correspondences of names, hashes, type tags and program points, all correspondences of values that respect the user's equality, both engine flags, sessions that panic included",
  "A relation between two runs of every program under every change of representation.",
  ["src/engine.rs: Loc, ArtId, Name, Path, thunk, cell, force, set, clean_comp, dirty_alloc", "src/engine.rs: name_fork, name_pair, name_of_string", "src/macros.rs: ProgPt"])
p("Cleaning examines each dirty dependency once",
  "Before a demand trusts or re-runs a thunk it examines dependencies. In every history that has a meaning, during any part of it, the dependencies examined by cleaning (as the trace reports them) are at most those that were dirty when the part began plus those that dirtying walked over meanwhile, less those that are still dirty at the end: each is examined once and is then clean or gone. So from a new engine cleaning never examines more dependencies than dirtying has walked over; if no dependency is dirty and none is made dirty, a demand examines none; and dirtying and cleaning together cost at most twice the forces and allocations made by thunks, the dependencies found unchanged, and the new structurally named locations. (For programs that make a cycle the bound fails.)",
  "all programs and all histories that have a meaning, all ways to cut a history in two, both engine flags, all numbers of edits and demands",
  "A sum over unboundedly many demands of the recursive cleaning, which runs user code and dirties in the middle.",
  ["src/engine.rs:clean_comp", "src/engine.rs:change_prop_comp", "src/engine.rs:loc_produce", "src/engine.rs:dirty_pred_observers", "src/engine.rs:dirty_alloc", "src/engine.rs:force"])
p("The graph does not grow with the history",
  "How much the engine stores depends on which locations exist and on the code, not on how many edits, demands and re-runs there have been. In every history (also one that panics): no location has two nodes, and a thunk keeps at most as many dependencies as its code makes forces and allocations in one run, so with W such demands per run there are at most W times as many dependencies as locations. In every history that has a meaning, moreover, a location keeps exactly as many records of a thunk that depends on it as that thunk has dependencies on the location: re-running a thunk leaves no record of the earlier run behind, and none is missing; so nodes, dependencies and records together are at most (1 + 2W) times the number of locations. (Without a meaning records can be left behind: shown.)",
  "all programs whose thunks make at most W forces and allocations per run, all W, all histories, all lists of locations, both engine flags",
  "A leak shows only as growth over unboundedly long histories.",
  ["src/engine.rs:revoke_succs", "src/engine.rs:loc_produce", "src/engine.rs:preds_remove", "src/engine.rs:preds_insert", "src/engine.rs:cell", "src/engine.rs:thunk", "src/engine.rs:force"])
p("Every run of a thunk is paid for, once",
  "Over a whole history, the number of times that user code is run by the engine is bounded by what the user did. In every history that has a meaning, during any part of it, the runs of thunks plus the dependencies found unchanged are at most the dependencies examined, plus the thunks allocated that are new or have another argument than before, plus the new structurally named locations, plus the thunks that had no result when the part began. With the bound on cleaning (C93): from a new engine, the runs, the dependencies found unchanged and those still dirty are together at most the new or changed thunks allocated, the structurally named locations, and the dependencies that dirtying walked over; so each run beyond the first of a thunk with its argument is due to a dependency that an edit made dirty, and one such dependency pays for one run only. If nothing is dirty, all thunks have results and nothing new is allocated, then nothing is run. (A cyclic program breaks the bound.)",
  "all programs and all histories that have a meaning, all ways to cut a history in two, both engine flags, all numbers of edits and demands",
  "A sum over unboundedly many demands of recursive cleaning and re-execution.",
  ["src/engine.rs:loc_produce", "src/engine.rs:clean_comp", "src/engine.rs:change_prop_comp", "src/engine.rs:force", "src/engine.rs:thunk", "src/engine.rs:dirty_alloc"])
p("Maps and sets as association lists, on the engine",
  "The editor edits cells that hold lists of entries, in any way, and demands find, is_mem, fold or inter of lists made of those cells, again and again, under one name. If at each demand the list can be followed to its end (for find and is_mem: to the first entry for the key), the engine terminates without panic and returns what the function returns for the lists as they are then: the content of the first entry for the key; whether there is one; the fold of the entries from the last to the first; the elements of the one set, in their order, that are in the other. An update is found at once. remove, append, union and diff panic for all arguments, and so do the others at a List::Tree.",
  "all lists over all types of keys and contents, all layouts of names and cells in them, all histories of edits and demands, all fold functions, both settings of the purity flag",
  "Results after an arbitrary history of edits of a structure of arbitrary size; there is no test of the map and set traits.",
  ["src/catalog/collections.rs: MapElim::find, MapElim::fold, MapIntro::update, MapElim::remove, MapElim::append, SetIntro::inter, SetIntro::diff, SetElim::is_mem, ListElim::elim_arg, list_fold", "src/engine.rs: force, thunk, cell, set"])
p("A look-up depends on the cells before the first match only",
  "After any session, a demand of find, is_mem, fold or inter, some edits of cells, and the same demand again: the demanded thunk is run again, once, if one of the cells that the function read holds another list now, and otherwise nothing is run. The recorded dependencies are exactly the cells read. For find and is_mem these are the cells before the first entry for the key: whatever is edited behind it (the rest may be cut off or become endless), the same look-up returns the same and runs nothing.",
  "all lists, all keys, all histories before, all edits in between, both settings of the purity flag",
  "Which thunks run depends on the graph recorded in an arbitrary history.",
  ["src/catalog/collections.rs: MapElim::find, MapElim::fold, SetIntro::inter, SetElim::is_mem", "src/engine.rs: force, thunk, clean_comp, change_prop_comp, dirty_alloc"])
p("Lists made by list_of_vec: as the vector says, or endless",
  "After any session of edits and demands, list_of_vec of a vector with distinct names (cells of those names may exist) and a demand for the list it returns: the engine terminates without panic, find returns the content of the first entry of the vector for the key, is_mem whether there is one, fold the fold of the vector's entries. If a name occurs twice in the vector, the list made in a new engine is endless: behind the first name that has occurred before, the list goes on where that name was first. The entries before that place are found; a look-up of any other key (also of one the vector has an entry for further on) and every fold never return, whereas in the naive engine the same look-up returns the vector's first entry for the key.",
  "all vectors of names and entries over all types, all keys and fold functions, all histories before (distinct names), every recursion depth (repeated name)",
  "Divergence for every depth and correctness for every vector and history; the tests use vectors with distinct names.",
  ["src/catalog/collections.rs: list_of_vec, MapElim::find, MapElim::fold", "src/engine.rs: cell, set_, force"])
p("A look-up in a trie depends on the cells on its way only",
  "Tries made of cells by the editor. After any session of edits and demands of find, mem, is_empty and fold, a demand, some edits of cells, and the same demand again: the demanded thunk is run again, once, if one of the cells that the function read holds another trie now, and otherwise nothing is run. The recorded dependencies are exactly the cells read. For find and mem these are the cells on the way down given by the bits of the position (of the hash), for is_empty those before the first node, for fold all cells. Whatever is edited in other branches (they may be cut off or become endless), the same look-up returns the same and runs nothing. In a trie that can be followed everywhere, a look-up reads at most as many cells as there are on a longest way down, and returns what the trie as a set says.",
  "all tries over all element types with all hash functions, all queries, all histories before, all edits in between, both settings of the purity flag",
  "Which thunks run depends on the graph recorded in an arbitrary history.",
  ["src/catalog/trie.rs: TrieElim::find, TrieElim::is_empty, TrieElim::elim, SetElim::mem, SetElim::fold", "src/engine.rs: force, thunk, clean_comp, change_prop_comp, dirty_alloc"])
p("A demand for the first items of a list depends on the cells before the last of them only",
  "Lists made of cells by the editor. vec_of_list(l, Some(k)) and list_demand(l, k) with k > 0 return the first k elements and names of every list of which as many can be reached, also of an endless one, and read just the cells before the k-th. After any session of edits and demands, a demand, some edits of cells, and the same demand again: the demanded thunk is run again, once, if one of the cells that were read holds another list now, and otherwise nothing is run. The recorded dependencies are exactly the cells read. Whatever is edited behind the last item demanded (the rest may be cut off or become endless), the same demand returns the same and runs nothing.",
  "all lists over all element types, all limits, all histories before, all edits in between, both settings of the purity flag",
  "Which thunks run depends on the graph recorded in an arbitrary history.",
  ["src/catalog/collections.rs: vec_of_list, list_demand, ListElim::elim_arg", "src/engine.rs: force, thunk, clean_comp, change_prop_comp, dirty_alloc"])
p("Changing what a thunk has made makes it run again",
  "In every state (consistent or not): if the last run of a thunk has allocated a cell or a thunk under a name, and the editor gives it another content by set, cell or thunk, then, whatever the editor runs after that, the thunk has been run again when its next demand returns, even if the old content has been put back before. (For cells of the editor's own, an edit that is undone costs nothing, C74.) In consequence such edits do not last, and two thunks that allocate the same name with different contents never agree: every demand of either runs it again, for ever, though the editor changes nothing, and what the cell contains depends on which has been demanded last.",
  "all states of the engine, all user code, all sessions after the change; all numbers of demands",
  "The flag must survive everything that the engine may do between the change and the demand, in an arbitrary graph.",
  ["src/engine.rs: set, cell, thunk, dirty_alloc, clean_comp, AllocCell, AllocNominalThunk, loc_produce"])
p("Demands do not influence each other",
  "Sessions of edits (cell, thunk, set, in any namespaces and modes) and demands, in any order. If each demand has an answer in the session in which just the edits before it are made and nothing else is ever demanded, then the whole session, with all demands, runs to the end without panic and each demand returns the answer that it has alone: which other thunks are demanded, how often and in which order makes no difference, although thunks share sub-thunks, allocate, and overwrite each other's cells. (Contents of structural locations must not collide between these sessions. The condition is needed: a thunk that reads a cell which only other thunks allocate returns what the last of them wrote, see C101.)",
  "all code, all sequences of edits and demands, both settings of the purity flag, both naming modes",
  "It quantifies over all interleavings of demands and all programs.",
  ["src/engine.rs: force, cell, thunk, set, ns, structural", "src/lib.rs: documentation of demand-driven change propagation"])
p("Arithmetic expressions: from tokens to the value",
 "The arithmetic expressions of catalog/arith_parse.rs (a file of the repository that the crate does not include). (1) A list of tokens that reads as an infix expression, by the usual grammar (products before sums, both associating to the left, parentheses), with any names between the tokens, goes through tree_of_list, postfix_of_infix, tree_of_list and evaluate_postfix without panic and gives the value of the expression on isize; there is a panic exactly if the expression has no value (overflow, division by 0). (2) postfix_of_infix alone returns the expression in postfix, last token first. (3) For arbitrary tokens it panics exactly if some `)` has no `(` before it; its assertion check_ops never fails. (4) It does not reject what is not infix: `a b +` and `+ a b` give the same as `a + b`.",
 "all token sequences, all expressions, all names between tokens, all hash functions", "It quantifies over all expressions and all token sequences; the test file checks three of them.",
 ["src/catalog/arith_parse.rs: precedence_check, check_ops, postfix_of_infix, evaluate_postfix"])
p("Arithmetic expressions: numbers in strings are misread",
 "tok_of_char of catalog/arith_parse.rs (not included in the crate) turns a string into tokens. One expects that the digits of a number are read as the decimal number. VIOLATED: digits are read as the last digit that is not 0 plus ten times the sum of all digits before it (`10` is 1, `100` is 1, `123` is 33). A spelling of tokens is read as these tokens exactly if each number in it is 0, or below 100 and not a multiple of 10; a misread number is always too small; there is no panic. Strings whose numbers are of this kind, and that spell an infix expression, are evaluated to the value of the expression.",
 "all strings that spell tokens, with any names between the characters, all hash functions", "It quantifies over all strings; the only test uses one string, with the numbers 2, 23 and 3, which happen to be read correctly.",
 ["src/catalog/arith_parse.rs: tok_of_char, num_of_digits_rec"])
p("Exactly which thunks a demand runs",
 "Of the thunks that a demand uses (the demanded thunk, and everything linked to it by the observations recorded after the demand), exactly those are run that had no cached result, or were allocated again with another argument, or in their last run observed a value (or the image of one) that is another one now, or in their last run allocated a cell or a named thunk that was overwritten with another content. So each of the causes of C66 is not only necessary but sufficient: the engine never reuses a result of which an input has changed. Moreover, whatever the program and the state, a cached result comes from a run: a thunk that holds a result after an execution in which it was not run had the same function, argument, result and recorded dependencies before.",
 "all sessions with a meaning followed by a demand, all thunks used by the demand; the equivalence for thunks whose last run allocated only cells and thunks with names (for the others, that the causes are sufficient); the last sentence for all programs and all states, well-formed or not", "It quantifies over all programs, histories and dependency graphs; tests look at the trace of a few demands.",
 ["src/engine.rs: loc_produce, clean_comp, ForceDep::clean, DCG::force, DCG::thunk, DCG::cell, dirty_alloc, dirty_pred_observers"])
open('/verif/properties.jsonl','w').write("".join(json.dumps(x,ensure_ascii=False)+"\n" for x in P))
print(len(P))
