HEAD = r'''# Formal model of adapton.rust: design, trusted base, coverage

Source: `/repo` (adapton.rust at the pinned commit), read as text; it was neither built nor run.
Proof assistant: Lean 4.33.0, core library only (no Mathlib module is imported); project in `/verif/lean`, modules under `lean/Verif/`.
`properties.jsonl`, `MANIFEST.json` and sections 5 and 6 of this file are generated by the scripts in `tools/`.

## 1. How the code is modelled

* **Values.** All user values live in one type `V`. Rust's `PartialEq` of the user's type is the parameter `UEq V` (`≈ᵤ`), any
  decidable relation. Theorems about engine states hold for every such relation. Theorems that compare with the
  reference semantics (C01, C02, C09, C10, …) are for the derived equality (`=`), and C60 carries them over to every equivalence that the
  program respects. `TypeId`s of results are an explicit tag `Ty` on nodes and operations.
* **User programs** are an inductive type `Prog V` of engine calls with Lean continuations (`force`, `force_cycle`, `force_map`,
  `force_abs`, `cell`, `thunk`, `set`, `ns`, `structural`, calls, panic). Closures (function plus spurious arguments) are named by a `FnId`;
  an environment `code : FnId → V → Prog V` gives their code, so all user code, recursive or not, is quantified over.
* **Engine** (`Engine/Model.lean`). State: table, stack of frames, current path, flags, name counter, and a log of the events that
  `dcg_effect!` would record. Every function of `engine.rs` on the path of the public operations is one Lean function with the same
  control flow. A panic is a result that carries the state at the point of the panic. The recursion `loc_produce` ↔ user code ↔ `force` ↔
  `clean_comp` is open recursion with a depth index: running out of depth is a third kind of result, never counted as an answer.
* **Reference semantics** (`Engine/Spec.lean`): an evaluator over a plain store with no cache, no graph, no dirty bits. It is
  the independent specification behind C01, C02, C09, C10, C49, C56, C57, C59, C60. It follows the documentation, not the code. Named and structural allocation, `structural` mode and ADAPTON_STRUCTURAL are all covered: a signature fixes the kind of each
  location, the naming mode of the engine, and whether structural thunks must be pure (required only when the purity optimisation is on:
  `hp : purity = true → sig.pu = true` in the theorems). It gives no
  meaning to the uses listed there (each with the finding that explains why it must be excluded); the uses that are excluded are the
  subject of separate theorems about the engine (C15–C22, C30, C50, C55, C65).
* **Trace and counting** (`Trace/*`): the recorder `dcg_reflect_begin/end`, trace trees, `trace_count`.
* **Names** (`Names/Model.lean`): name constructors and hashes; hash functions are parameters (`NameHash`), so no theorem uses a
  property of SipHash unless it is a hypothesis.
* **Collections** (`Collections/*`): lists, trees, folds, sorts, maps and sets of `catalog/collections.rs`; an articulation is modelled by
  its content (forcing it yields the content, by C01). The names at which thunks are allocated are modelled where C62 speaks of them. For C63 and C68 sorting and `tree_of_list` are modelled a second time, as programs of the engine model in which articulations are locations (`SortProg.lean`), and for C81 `mergesort_list_of_tree3` (`MergeProg.lean`).
* **Bit strings and tries** (`Catalog/*`): `i64` arithmetic with overflow as a panic (debug build).
* **Reflection** (`Reflect/*`): the `Debug` printer of Rust's standard library for the values concerned, the lexer and parser of
  `parse_val.rs`, and the conversion to `reflect::Val`.
* **The naive engine** (`Engine/Naive.lean`), **engine switching** (`Engine/Manage.lean`), **the checker** `check_dcg`/`reflect::wf`
  (`Engine/Wf.lean`), **the reflected DCG** `dcg_reflect_now` (`Engine/Reflect.lean`).

## 2. Proof methods

| Properties | Method |
|---|---|
| C01, C02, C05, C09, C10, C49, C56, C57 (first part) | simulation invariant between engine and reference semantics (`Engine/{Inv,State,Ops,Produce,Clean,Lockstep,Force,Main,Run,Editor}.lean`): induction on the recursion depth, inside it on the program and on the recorded edges |
| C03, C04, C06, C11–C14, C20, C21, C23–C26, C29 | symbolic execution of the model functions from an arbitrary state |
| C07, C08 | induction with the number of clean edges as measure |
| C27, C28, C30, C31, C48, C54, C55 | invariants of every operation and every program (`Engine/General*.lean`), by induction on depth and program; panicking runs included |
| C15–C19, C22, C50, C61, C65 | the expected property is false; the theorem gives, for all values and functions, a session on which the engine returns a stale or wrong value |
| C32 | case analysis on the command machine |
| C33–C35, C58, C67 | structural induction on names, for all hash functions |
| C36–C44, C51, C62 | structural induction on lists and trees |
| C45, C46, C52 | bit arithmetic; structural induction on tries |
| C47, C53 | round trip printer → lexer → parser by induction on values |
| C64 | induction over the iteration order; invariants carried over from C09, C10, C49 |
| C59 | the naive engine refines the reference semantics; composed with C01 |
| C63, C68 | rules for convergence in the reference semantics (`Engine/Conv.lean`), with the final store ("world") of a demand given in advance and a rank on its thunks; refinement to the list model; composed with C01, C02 and C39 |
| C69 | the signature of the reference semantics says which thunks may be evaluated; the invariant of C01 does not depend on it, and the simulation shows that every thunk run is allowed; instantiated with the thunks that the demand needs |
| C70 | the macros are modelled as the programs they expand to; the state in which a name has a thunk; the history theorem by the simulation of C01 and the settledness of the demanded thunk |
| C71 | by computation in an arbitrary state |
| C72 | the state after any history is one of a family of states, given by the content, the content last seen, one bit for dirtiness and one for the order of two edges; every operation is computed from every member of the family |
| C73 | a simulation: the table, the stack and the edges of the running frames agree with the state of a memoised depth-first search (induction on its depth); termination by counting the nodes not on the path; completeness by closure of the visited set |
| C74 | an inductive predicate `StillCurrent` on the recorded graph; induction on it shows that cleaning lowers flags and runs nothing (every state); after a demand the invariant of C01 gives `StillCurrent` for the settled thunks, by induction along the acyclic observation graph |
| C75 | the functions as programs of the engine (Collections/ListProg.lean); a logical relation `Live` (forcing an articulation in any larger store yields its annotation) shows that they converge in the reference semantics of C01 from every store a session can leave (Engine/EditSession.lean, for any demanded program); then C01 and C02 |
| C76 | the three folds as programs of the engine, over records of the functions passed (Collections/FoldProg.lean); for each fold one theorem that it converges if the functions passed do (`foldUpOk`, `foldSeqOk`, `foldNmOk`), and one that what it allocates is distinct (`aUp_owned` …); instances for pure functions, `list_of_tree`, `filter_list_of_tree`, `filter_tree_of_tree`; then Engine/EditSession.lean, C01 and C02 |
| C77 | symbolic runs of the engine, the numbers being variables: the kernel computes them (`kernel_rfl` makes the term `Eq.refl`, which the kernel checks) |
| C78 | what a demand leaves behind is read off the recorded dependencies: the code of every thunk that is up to date is replayed on them (`Seen`, Engine/Settled.lean), stage by stage, before and after the edits (`root_replay`); a thunk whose argument, observations and allocations agree is not run (`not_run`, from the causes of C66; Engine/EditRun.lean carries them through the edits); counting |
| C79 | as C78: the recorded dependencies of every thunk of the fold are recovered by replaying its code (`fold_replay`); a thunk for a subtree that is the same in both trees is not run (`fold_not_run`); the others are on the way or below its end (`occ_plug`); for the early cutoff, subtrees that differ but look the same to the thunk that folds them (`Alike`, `occ_cut`); the number of dependencies by counting in the same replay (`fold_count`) |
| C80 | the trie functions as engine programs (Catalog/TrieProg.lean), then the method of C76: every session has a meaning in the reference semantics (`trie_session_means`), whose answers are those of the functions of Catalog/Trie.lean; for the violation, what `Trie::empty` leaves at the location of its first name (`thunk_at`) makes the `memo!` of `trie_fold` panic |
| C81 | `mergesort_list_of_tree3` and what it calls as engine programs (Collections/MergeProg.lean), then the method of C76; the thunks of the fold and of the merges are in two namespaces, and in each one their names are distinct by C62; a merge forces only merges of smaller rank (`Live`), by strong induction on the rank (`mergeOk`, `viewOk`) |
| C82 | the sorts a third time (Collections/CostModel.lean), an articulation carrying the comparisons made when it is first forced; by functional induction on the merge: the total is at most the elements merged, nothing is left for the last element, and a merge of lists that are lazy throughout (an inductive predicate with the comparisons before the first and between any two elements) is one of the same kind with one comparison more; erasing the costs gives the sorts of C39 |
| C83, C84 | the programs of two examples of lib.rs with the engine's state after a history written down as a function of the history (C83: the node of each name by the last call with it; C84: content, projection seen, dirty bit), one lemma per operation by computation with symbolic values, induction on the history; the recorded events parse to explicit trees, counted by induction |
| C85 | as C78, for `list_reverse`: the code of its thunks is replayed on the recorded dependencies (`rev_replay`), after the stages of maps and filters (`root_replay'`); a thunk is not run if the segment and the next name are the same: the cell that it has allocated for the next accumulator then has the same content, although its own accumulator may not (`rev_not_run`) |
| C86 | induction over the engine's demand, with the recorded dependencies of the final state: a thunk is run because another thunk that is being run or cleaned observes it, and the edge by which it does is in the final graph (`frc_final`, `replay_final`), as cleaning stops at the first changed dependency and follows only the order of the recorded run |
| C87 | C86 after any session (`EditSession.one_step`), and the recorded dependencies of the demanded thunk and of the thunks of the stage, read off by replaying their code on them (`lazy_root`, `lazy_thunk`) |
| C88 | the engine invariant holds for any part of the store (`Inv.shrink`), so every rule of the permissive editor semantics `Act` is a step that keeps it (`Act.engine`); code evaluated from scratch is an `Act` (`eval_act`); instances for the `Lawful` programs of the catalog |
| C89 | `fold_up_namebin` as a `Lawful` program of `EditSession` over any level tree: induction over the tree with its articulations (`foldOk`), the thunks of a binary node distinguished by its name |
| C90 | as C79: the recorded dependencies of each thunk read off by replaying its code (`fold_replay`), equal for subtrees that look the same (`Alike`), so these thunks are not run (`not_run`) |
| C91 | amortised potential (clean edges plus edges on the frames of running thunks) for every program, by induction on the recursion depth; each operation starts and ends with a number of edges paid in advance |
| C92 | logical relation between two runs (binary parametricity), for every program, by induction on the recursion depth; the relations on names, hashes, type tags and program points are one-to-one, the one on values respects the user's equality |
| C93 | a cost inequality (cleaning events + dirty edges left ≤ dirty edges before + dirtying events) in the postcondition of every operation in the C01 proof; strict where a re-run drops its old dirty edges; then sums over sessions |
| C94 | for all programs: an induction over the engine in the style of C91 (one node per location; edges on the running frame at most the demands made so far); for sessions with a meaning: multiplicities of edges and predecessor records agree (part of the graph invariant), then double counting |
| C95 | for all programs: potential argument (thunks without a result that are not running), valid while no thunk is run twice; that no thunk is run twice in a demand comes from the C01 proof; then sums over sessions |
| C96, C97 | functions that only read cells are described by a big-step relation (result and cells read); one generic argument gives the reference meaning of sessions and, by replaying the recorded edges against the relation, when the thunk is run again (Engine/Query.lean); `Walk`/`Finds` describe the lists |
| C98 | `list_of_vec` is shown to run as a sequence of edits of C96; distinct names: the list is followed to its end; a repeated name: a set of lists closed under going on (`Endless`) on which `find` and `fold` exceed every depth, by induction on the depth |
| C99 | the look-ups are described by a big-step relation on the contents of cells (`Down`, `Top`, `Elems`); each is shown to be the reading relation of Engine/Query.lean, whose theorem about a repeated demand applies |
| C100 | as C99, for the loop of `vec_of_list`: `Passes` describes the walk along the list, `Takes` where it stops |
| C101 | for every state, thunk and location, "the flag of the allocation survives until the thunk is run" is shown for every operation of the engine, without any invariant; cleaning a flagged allocation always says "changed" |
| C102 | simulation between the reference session of the edits alone and that with demands (`Rel`: the editor's own allocations agree, everything else is more); a demand in the larger store gives the same value because evaluations in compatible stores join; if the larger store is contradictory, the editor's own allocations do; then C01 and C02 |
| C103 | the functions on lists with names are those on plain lists of elements; induction on the derivation in the grammar, with what an expression of each level may find and may leave on the stack of operators; postfix by induction on the expression; the assertion by the invariant that neighbours on the stack are in order of precedence, and the number of open parentheses on the stack |
| C104 | what is read, by induction on the digits from the last one; the spelling relation carries the function that reads a number, so that the same string spells tokens with right and with misread numbers; the exact condition by induction on the digits |
| C105 | an operational relation (`ReKept`, Engine/Reuse.lean) that every successful operation keeps, for every program and state: what is not run and has a result is as before, and an allocation once flagged stays flagged; at the end a used thunk is settled (C01), so that a thunk with a cause that was not run contradicts its own recorded edges; the other direction from the witnesses of C66 |
| C66 | the invariant of C01 extended by the list of thunks run: each is settled when it ends, and each run has a witness among its recorded edges; causes by well-founded induction on the acyclic graph |
| C60 | simulation between the engine over `V` and over the quotient of `V` by the user's equality |

## 3. Trusted base

* Lean's kernel. The axioms of each theorem of MANIFEST.json are listed in section 6: at most `propext`, `Classical.choice`, `Quot.sound`.
  There are no axioms of our own, no unproved goals, nothing rests on compiled code (`decide` is always evaluated by the kernel).
* That the Lean definitions say what the Rust code does. Each definition cites the lines it models.
  Evidence: `Verif/Validation.lean` runs the repository's own tests (`tests/engine.rs`, `src/macros.rs`, `src/catalog/bitstring.rs`) on the model, by kernel evaluation; these are tests, not claims.
* That the statements of `properties.jsonl` are what the theorems say. The theorems are stated with the model's operations and with the
  specifications in `Engine/Spec.lean`, `Collections/Spec.lean` and the first section of each file in `Props/`.

### Modelled, function by function

`engine.rs`: names, paths, locations; `cell`, `set`, `thunk`, `force`, `force_map`, `force_abs`, `force_cycle`, `ns`, `structural`/`nominal` flags,
`loc_produce`, `clean_comp`, `dirty_alloc`, `dirty_pred_observers`, `revoke_succs`, edge bookkeeping, `thunk_map`, equality of articulations, `use_engine`/
`init_engine`, `new` with the environment variables, `check_dcg`, the trace recorder, `dcg_reflect_now`; `reflect.rs`: traces, `trace_count`, values, names, `wf`; `parse_val.rs`: all;
`catalog/collections.rs`, `bitstring.rs`, `trie.rs`: the functions named in the Lean files.  `lib.rs`: the examples of the documentation named in the Lean files (level trees: `Catalog/RecProg.lean`).
`catalog/arith_parse.rs` (not compiled by the crate: it is not in `catalog/mod.rs`): all functions but one, on contents (`Catalog/ArithParse.lean`).

### Simplifications

* `usize`, `isize` are unbounded (`Nat`, `Int`) except where overflow is the subject; `u64` hashes are `UInt64`. Strings are lists of characters, or bytes in the lexer.
* `Rc`/`Box`/lifetimes are not modelled. `RefCell` is: a borrowed cell is met through the public operations by a thunk made with
  `ArtIdChoice::Eager`, whose body runs while the engine is mutably borrowed and which ends in `unreachable!` (the model panics at once), and by switching engines inside a thunk (C32). The function given to
  `force_map` also runs while the engine is borrowed; it is a pure function in the model, as its type `Fn(&Art<T>, T) -> S` is meant, so a map function that calls the engine is outside the model.
* When a thunk is re-allocated at the same program point with a closure of another argument type, the code transmutes. This is undefined
  behaviour and outside the model (all arguments have type `V`).
* The debug flags (`ADAPTON_CHECK_DCG`, `ADAPTON_WRITE_DCG`, …): the checker is modelled as a function on states and proved not to fail (C57); it is not
  interleaved with the operations. Writing `.dot` files is not modelled.
* Articulations inside collections are represented by their contents; `List::Tree` is omitted.
* The name counter behind unnamed `cell!`/`thunk!` (`macros.rs`) is modelled (C35); the macros `thunk!`, `get!`, `memo!`, `cell!`, `let_cell!`, `let_thunk!`, `let_memo!` are modelled as the programs they expand to (Verif/Macros/Model.lean, C70-C72); elsewhere the macros are taken as notation for the functions they expand to.
* Statistics (`cnt`) are not modelled; in the source, all code that counts is commented out.

### Not modelled

`catalog/fixpoints.rs` (stubs that panic; not in `catalog/mod.rs`), `generate_balanced_string` in `catalog/arith_parse.rs` (builds a string and drops it). `lib.rs` is documentation and tests.
Output to files (`write_next_dcg`, `write_dcg_file`), timing, file system, the stack size of the process.

## 4. Findings

Violations of a stated or documented property, each proved for all values concerned in the theorem named.

'''
FINDINGS = [
("C15","`force_map` followed by `force` (or a second `force_map`) of the same cell in one run: the later observation is not recorded, so the thunk is stale after an edit."),
("C16","With the purity optimisation (the default), a nominal thunk that forces a structural thunk keeps no edge to it and is stale when a cell below it is edited."),
("C17","An observation through `force_abs` is never dirtied."),
("C18","`cell` at the location of a thunk keeps the thunk and loses the value."),
("C19","`thunk` at the location of a cell drops the cell's observers: they are stale."),
("C22","A thunk that observes itself through `force_cycle` makes a later edit panic."),
("C30","A panic inside a thunk leaves stack, path and flags as they were inside it: the engine is poisoned."),
("C42","`list_gen` always returns the empty list for lengths of at least one (and underflows at zero)."),
("C43","`ListElim::is_name` is swapped, so `filter_list_of_tree` keeps no name between elements, and all trailing names."),
("C45","`BS::pow` with a negative exponent is the power of the absolute value."),
("C50","A cycle made by an edit is not reported: a stale value is returned."),
("C51","`filter_tree_of_tree` drops names, contrary to its documentation."),
("C52","Extending a trie always panics; `remove`, `append` of `MapElim` and `diff` of `SetIntro` are `unimplemented!`."),
("C53","`parse_val`: strings with escapes or non-ASCII characters are mangled, strings with a quote panic or split; structural articulations and `isize` names panic; the hash of `Hash64` names is lost; user constructors named like name symbols are read as names; numbers of more than 64 bits panic."),
("C54","Effects inside `Debug` extents other than dirtying are not counted by `trace_count`."),
("C55","A structural cell is identified by the hash of its value only: a colliding value is lost."),
("C58","`name_of_usize(n)` and `name_of_isize(n)` have the same hash, so they are the same location in structural mode."),
("C61","Articulations made by `thunk_map` from one articulation are equal whatever their maps are, so storing another one in a cell, or using it as an argument, is taken for no change: stale."),
("C62","`mergesort_list_of_tree2` uses every node name twice, against the documentation of `tree_fold_up_nm_dn`: repeated names in its result and two thunks at one name."),
("C63","On the DCG engine `mergesort_list_of_tree2` can return a cyclic list: elements are lost, others repeat for ever, `vec_of_list` does not return."),
("C64","Reflected edges never carry their value; duplicate `Alloc` edges are stored, unmarked, and their dirty bits can differ, contrary to the documentation of `reflect::Succ`."),
("C65","The naming mode (`structural`) is not stored with a thunk: re-evaluation during cleaning runs the thunk in the mode of the outermost demand, so ignored names begin to count and results differ from a from-scratch run."),
("C67","`string_of_name` and `string_of_loc` give one string to different names (`name_of_usize(1)`, `name_of_isize(1)`, `name_of_str(\"1\")`; differently grouped pairs; forks and pairs) and to all structural locations of a namespace."),
("C68","A name that occurs twice in a list makes `tree_of_list` panic on the DCG engine (\"unexpected cycle\"); nothing in the API says that names must be distinct."),
("C75","Two list functions called in the same namespace on lists with the same names allocate the same thunks: `list_filter_eager(list_filter_eager(l))` without `ns` panics (`assert_eq!(is_dup,false)`, engine.rs:2029). A name that occurs twice in a list makes the eager functions panic (\"unexpected cycle\")."),
("C76","`list_of_tree` (and `filter_list_of_tree`) allocate their cells under the names of the tree in the namespace in which `tree_fold_seq` allocates its thunks under forks of those names: on a tree with the names `n` and `name_fork(n).0`, all distinct, `list_of_tree` loses a leaf (`C76_fork_name_loses_leaf`)."),
("C77","`prune_tree_of_tree` (collections.rs:832-849) lacks the `ns(name_unit(), …)` that `filter_tree_of_tree` has around `bin_arts_niltest`: its cells have the locations of the thunks of `tree_fold_up`, `cell` takes their edges away (C18), and all later demands return the result of the first one, whatever is edited."),
("C80","`Trie::empty` (trie.rs:242-260) allocates the thunk of the root under the name `nm1` that it also puts into the trie; `trie_fold` (476-487) finds that name and allocates a thunk of its own under it: called in the same namespace, for example at the top level, on the trie that `Trie::empty` has just returned, it panics (type error, or \"Memozied functions not equal!\" if the result type is that of tries)."),
("C81","`mergesort_list_of_tree3(tree, nm)` with a name `nm` that is also in the tree (nothing in its documentation forbids it): two merges get the same thunk, and a merge can become part of its own rest; `vec_of_list` of the result then never ends (3, 4, 4, 4, … for the leaves 4, 9, 3, 7)."),
("C82","The documentation of the sorts promises `O(n log n)` comparisons in total for a tree with `n` leaves; that is so only for trees of logarithmic height (`n` times the height in general): a tree that leans to one side takes `n(n-1)/2`. The trees of `tree_of_list` have logarithmic height only with high probability, and not at all if the names or elements hash to levels that descend."),
("C84","`trace_count` counts a re-evaluation that changes the result as `reeval_nochange` if the thunk only reads cells (a comment in the source says \"undercounting?\"): in the whole example `reeval_change` stays 0."),
("C89","In the documentation's level trees (lib.rs:1040-1250) a binary node without a name just above it makes `fold_up_namebin`, and so `fold_monoid`, panic in the DCG engine: `memo!([None]? …)` is `ArtIdChoice::Eager` (C71); nothing in the text or the types demands the name (`C89_unnamed_panics`)."),
("C96","Of the map and set traits, `remove`, `append` (hence `union`) and `diff` are `unimplemented!()` for lists (collections.rs:465-482, 1195-1205): they compile and panic for all arguments; so do `find`, `fold`, `is_mem` and `inter` when they come to a `List::Tree`."),
("C98","`list_of_vec` (collections.rs:882-896) allocates the cell of a name under that name, so a vector in which a name occurs twice gives an endless list: the second allocation overwrites the cell, and the list behind the second occurrence goes back to the first.  Look-ups of later entries, and folds, then never return (stack overflow); in the naive engine the list is as the vector."),
("C101","Two thunks that allocate one name with different contents undo each other's work: each demand of one dirties the other (`dirty_alloc`, engine.rs:1330-1351), and `clean` of an allocation always reports a change (engine.rs:1037-1051), so that both are run again at every demand, for ever, without any edit; what the cell contains is what the thunk demanded last has written.  Symbols are said to be globally unique (engine.rs:433-438), so such a program may be called wrong, but nothing detects it."),
("C103","`postfix_of_infix` accepts what is not infix: `a b +` and `+ a b` are the same as `a + b`."),
("C104","`tok_of_char` misreads numbers: `10` is 1, `100` is 1, `123` is 33; right are exactly 0 and the numbers below 100 that are not multiples of 10."),
("C87","Two lazy list stages in a row are not lazy: `list_map_lazy` and `list_filter_lazy` drop the names, so the output of the first has none, and the second stage runs all of it when it is built (`C87_two_stages_not_lazy`)."),
("C70","A memoization point whose code captures a variable, or whose code has changed, keeps the old value: only program point and argument are compared. `thunk![[name] body]` and `let_memo!` write `stringify!($fun)` in a rule that binds `$body` (macros.rs:416), so that all their bodies have the program point `$fun`."),
("C71","`memo!([None]? ..)` and `thunk!([None]? ..)`, documented as ordinary calls, always panic (`unreachable!()`, engine.rs:2440) in the DCG engine."),
("C72","The documentation (lib.rs:995-998) says that without the firewall the formatting step \"would have been re-executed\" when the square stays the same; the engine does not re-execute it."),
("C73","A thunk on a cycle keeps the value computed while the cycle was cut elsewhere: after demanding node 0 of the documentation's graph, demanding node 3 answers [3], a new engine answers [3,1,2,0]. From-scratch consistency does not hold for programs with cycle values."),
("C36","`list_demand(0)` and a limit of `Some(0)` mean no limit; the limit counts names as well as elements."),
("C37","`list_append` drops the names of the first list, `list_reverse` moves all names to the front, `list_map_lazy` keeps no names."),
]
TAIL = r'''
Also seen while modelling (no theorem of their own): `thunk` with `ArtIdChoice::Eager` always panics; unnamed cells and thunks take the names
`name_of_usize(counter)` and collide with user names of that form (`C35_counter_names_are_usize_names`); `thunk!([name] body)` uses a constant program point; the `wf`
panic message lacks a format argument; `wf::dirty` does not mark visited nodes, so it is exponential; `is_empty` of a trie is false for a node
with two empty children; the constructor branches of `name_of_val` are dead code.
'''
