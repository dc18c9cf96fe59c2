# Formal model of adapton.rust: design, trusted base, coverage

Source: `/repo` (adapton.rust at the pinned commit), read as text; it was neither built nor run.
Proof assistant: Lean 4.33.0, core library only (no Mathlib module is imported); project in `/verif/lean`, modules under `lean/Verif/`.
`properties.jsonl`, `MANIFEST.json` and sections 5 and 6 of this file are generated by the scripts in `tools/`.

## 1. How the code is modelled

* **Values.** All user values live in one type `V`. Rust's `PartialEq` of the user's type is the parameter `UEq V` (`≈ᵤ`), any
  decidable relation. Theorems about engine states hold for every such relation. Theorems that compare with the
  reference semantics (C01, C02, C09, C10, …) are for the derived equality (`=`), and C60 carries them over to every equivalence that the
  program respects. `TypeId`s of results are an explicit tag `Ty` on nodes and operations.
* **User programs** are an inductive type `Prog V` of engine calls with Lean continuations (`force`, `force_cycle`, `force_map`,
  `force_abs`, `cell`, `thunk`, `set`, `ns`, `structural`, calls, panic). Closures (function plus spurious arguments) are named by a `FnId`;
  an environment `code : FnId → V → Prog V` gives their code, so all user code, recursive or not, is quantified over.
* **Engine** (`Engine/Model.lean`). State: table, stack of frames, current path, flags, name counter, and a log of the events that
  `dcg_effect!` would record. Every function of `engine.rs` on the path of the public operations is one Lean function with the same
  control flow. A panic is a result that carries the state at the point of the panic. The recursion `loc_produce` ↔ user code ↔ `force` ↔
  `clean_comp` is open recursion with a depth index: running out of depth is a third kind of result, never counted as an answer.
* **Reference semantics** (`Engine/Spec.lean`): an evaluator over a plain store with no cache, no graph, no dirty bits. It is
  the independent specification behind C01, C02, C09, C10, C49, C56, C57, C59, C60. It follows the documentation, not the code. Named and structural allocation, `structural` mode and ADAPTON_STRUCTURAL are all covered: a signature fixes the kind of each
  location, the naming mode of the engine, and whether structural thunks must be pure (required only when the purity optimisation is on:
  `hp : purity = true → sig.pu = true` in the theorems). It gives no
  meaning to the uses listed there (each with the finding that explains why it must be excluded); the uses that are excluded are the
  subject of separate theorems about the engine (C15–C22, C30, C50, C55, C65).
* **Trace and counting** (`Trace/*`): the recorder `dcg_reflect_begin/end`, trace trees, `trace_count`.
* **Names** (`Names/Model.lean`): name constructors and hashes; hash functions are parameters (`NameHash`), so no theorem uses a
  property of SipHash unless it is a hypothesis.
* **Collections** (`Collections/*`): lists, trees, folds, sorts, maps and sets of `catalog/collections.rs`; an articulation is modelled by
  its content (forcing it yields the content, by C01). The names at which thunks are allocated are modelled where C62 speaks of them. For C63 and C68 sorting and `tree_of_list` are modelled a second time, as programs of the engine model in which articulations are locations (`SortProg.lean`), and for C81 `mergesort_list_of_tree3` (`MergeProg.lean`).
* **Bit strings and tries** (`Catalog/*`): `i64` arithmetic with overflow as a panic (debug build).
* **Reflection** (`Reflect/*`): the `Debug` printer of Rust's standard library for the values concerned, the lexer and parser of
  `parse_val.rs`, and the conversion to `reflect::Val`.
* **The naive engine** (`Engine/Naive.lean`), **engine switching** (`Engine/Manage.lean`), **the checker** `check_dcg`/`reflect::wf`
  (`Engine/Wf.lean`), **the reflected DCG** `dcg_reflect_now` (`Engine/Reflect.lean`).

## 2. Proof methods

| Properties | Method |
|---|---|
| C01, C02, C05, C09, C10, C49, C56, C57 (first part) | simulation invariant between engine and reference semantics (`Engine/{Inv,State,Ops,Produce,Clean,Lockstep,Force,Main,Run,Editor}.lean`): induction on the recursion depth, inside it on the program and on the recorded edges |
| C03, C04, C06, C11–C14, C20, C21, C23–C26, C29 | symbolic execution of the model functions from an arbitrary state |
| C07, C08 | induction with the number of clean edges as measure |
| C27, C28, C30, C31, C48, C54, C55 | invariants of every operation and every program (`Engine/General*.lean`), by induction on depth and program; panicking runs included |
| C15–C19, C22, C50, C61, C65 | the expected property is false; the theorem gives, for all values and functions, a session on which the engine returns a stale or wrong value |
| C32 | case analysis on the command machine |
| C33–C35, C58, C67 | structural induction on names, for all hash functions |
| C36–C44, C51, C62 | structural induction on lists and trees |
| C45, C46, C52 | bit arithmetic; structural induction on tries |
| C47, C53 | round trip printer → lexer → parser by induction on values |
| C64 | induction over the iteration order; invariants carried over from C09, C10, C49 |
| C59 | the naive engine refines the reference semantics; composed with C01 |
| C63, C68 | rules for convergence in the reference semantics (`Engine/Conv.lean`), with the final store ("world") of a demand given in advance and a rank on its thunks; refinement to the list model; composed with C01, C02 and C39 |
| C69 | the signature of the reference semantics says which thunks may be evaluated; the invariant of C01 does not depend on it, and the simulation shows that every thunk run is allowed; instantiated with the thunks that the demand needs |
| C70 | the macros are modelled as the programs they expand to; the state in which a name has a thunk; the history theorem by the simulation of C01 and the settledness of the demanded thunk |
| C71 | by computation in an arbitrary state |
| C72 | the state after any history is one of a family of states, given by the content, the content last seen, one bit for dirtiness and one for the order of two edges; every operation is computed from every member of the family |
| C73 | a simulation: the table, the stack and the edges of the running frames agree with the state of a memoised depth-first search (induction on its depth); termination by counting the nodes not on the path; completeness by closure of the visited set |
| C74 | an inductive predicate `StillCurrent` on the recorded graph; induction on it shows that cleaning lowers flags and runs nothing (every state); after a demand the invariant of C01 gives `StillCurrent` for the settled thunks, by induction along the acyclic observation graph |
| C75 | the functions as programs of the engine (Collections/ListProg.lean); a logical relation `Live` (forcing an articulation in any larger store yields its annotation) shows that they converge in the reference semantics of C01 from every store a session can leave (Engine/EditSession.lean, for any demanded program); then C01 and C02 |
| C76 | the three folds as programs of the engine, over records of the functions passed (Collections/FoldProg.lean); for each fold one theorem that it converges if the functions passed do (`foldUpOk`, `foldSeqOk`, `foldNmOk`), and one that what it allocates is distinct (`aUp_owned` …); instances for pure functions, `list_of_tree`, `filter_list_of_tree`, `filter_tree_of_tree`; then Engine/EditSession.lean, C01 and C02 |
| C77 | symbolic runs of the engine, the numbers being variables: the kernel computes them (`kernel_rfl` makes the term `Eq.refl`, which the kernel checks) |
| C78 | what a demand leaves behind is read off the recorded dependencies: the code of every thunk that is up to date is replayed on them (`Seen`, Engine/Settled.lean), stage by stage, before and after the edits (`root_replay`); a thunk whose argument, observations and allocations agree is not run (`not_run`, from the causes of C66; Engine/EditRun.lean carries them through the edits); counting |
| C79 | as C78: the recorded dependencies of every thunk of the fold are recovered by replaying its code (`fold_replay`); a thunk for a subtree that is the same in both trees is not run (`fold_not_run`); the others are on the way or below its end (`occ_plug`); for the early cutoff, subtrees that differ but look the same to the thunk that folds them (`Alike`, `occ_cut`); the number of dependencies by counting in the same replay (`fold_count`) |
| C80 | the trie functions as engine programs (Catalog/TrieProg.lean), then the method of C76: every session has a meaning in the reference semantics (`trie_session_means`), whose answers are those of the functions of Catalog/Trie.lean; for the violation, what `Trie::empty` leaves at the location of its first name (`thunk_at`) makes the `memo!` of `trie_fold` panic |
| C81 | `mergesort_list_of_tree3` and what it calls as engine programs (Collections/MergeProg.lean), then the method of C76; the thunks of the fold and of the merges are in two namespaces, and in each one their names are distinct by C62; a merge forces only merges of smaller rank (`Live`), by strong induction on the rank (`mergeOk`, `viewOk`) |
| C82 | the sorts a third time (Collections/CostModel.lean), an articulation carrying the comparisons made when it is first forced; by functional induction on the merge: the total is at most the elements merged, nothing is left for the last element, and a merge of lists that are lazy throughout (an inductive predicate with the comparisons before the first and between any two elements) is one of the same kind with one comparison more; erasing the costs gives the sorts of C39 |
| C83, C84 | the programs of two examples of lib.rs with the engine's state after a history written down as a function of the history (C83: the node of each name by the last call with it; C84: content, projection seen, dirty bit), one lemma per operation by computation with symbolic values, induction on the history; the recorded events parse to explicit trees, counted by induction |
| C85 | as C78, for `list_reverse`: the code of its thunks is replayed on the recorded dependencies (`rev_replay`), after the stages of maps and filters (`root_replay'`); a thunk is not run if the segment and the next name are the same: the cell that it has allocated for the next accumulator then has the same content, although its own accumulator may not (`rev_not_run`) |
| C86 | induction over the engine's demand, with the recorded dependencies of the final state: a thunk is run because another thunk that is being run or cleaned observes it, and the edge by which it does is in the final graph (`frc_final`, `replay_final`), as cleaning stops at the first changed dependency and follows only the order of the recorded run |
| C87 | C86 after any session (`EditSession.one_step`), and the recorded dependencies of the demanded thunk and of the thunks of the stage, read off by replaying their code on them (`lazy_root`, `lazy_thunk`) |
| C88 | the engine invariant holds for any part of the store (`Inv.shrink`), so every rule of the permissive editor semantics `Act` is a step that keeps it (`Act.engine`); code evaluated from scratch is an `Act` (`eval_act`); instances for the `Lawful` programs of the catalog |
| C89 | `fold_up_namebin` as a `Lawful` program of `EditSession` over any level tree: induction over the tree with its articulations (`foldOk`), the thunks of a binary node distinguished by its name |
| C90 | as C79: the recorded dependencies of each thunk read off by replaying its code (`fold_replay`), equal for subtrees that look the same (`Alike`), so these thunks are not run (`not_run`) |
| C91 | amortised potential (clean edges plus edges on the frames of running thunks) for every program, by induction on the recursion depth; each operation starts and ends with a number of edges paid in advance |
| C92 | logical relation between two runs (binary parametricity), for every program, by induction on the recursion depth; the relations on names, hashes, type tags and program points are one-to-one, the one on values respects the user's equality |
| C93 | a cost inequality (cleaning events + dirty edges left ≤ dirty edges before + dirtying events) in the postcondition of every operation in the C01 proof; strict where a re-run drops its old dirty edges; then sums over sessions |
| C94 | for all programs: an induction over the engine in the style of C91 (one node per location; edges on the running frame at most the demands made so far); for sessions with a meaning: multiplicities of edges and predecessor records agree (part of the graph invariant), then double counting |
| C95 | for all programs: potential argument (thunks without a result that are not running), valid while no thunk is run twice; that no thunk is run twice in a demand comes from the C01 proof; then sums over sessions |
| C96, C97 | functions that only read cells are described by a big-step relation (result and cells read); one generic argument gives the reference meaning of sessions and, by replaying the recorded edges against the relation, when the thunk is run again (Engine/Query.lean); `Walk`/`Finds` describe the lists |
| C98 | `list_of_vec` is shown to run as a sequence of edits of C96; distinct names: the list is followed to its end; a repeated name: a set of lists closed under going on (`Endless`) on which `find` and `fold` exceed every depth, by induction on the depth |
| C99 | the look-ups are described by a big-step relation on the contents of cells (`Down`, `Top`, `Elems`); each is shown to be the reading relation of Engine/Query.lean, whose theorem about a repeated demand applies |
| C100 | as C99, for the loop of `vec_of_list`: `Passes` describes the walk along the list, `Takes` where it stops |
| C101 | for every state, thunk and location, "the flag of the allocation survives until the thunk is run" is shown for every operation of the engine, without any invariant; cleaning a flagged allocation always says "changed" |
| C102 | simulation between the reference session of the edits alone and that with demands (`Rel`: the editor's own allocations agree, everything else is more); a demand in the larger store gives the same value because evaluations in compatible stores join; if the larger store is contradictory, the editor's own allocations do; then C01 and C02 |
| C103 | the functions on lists with names are those on plain lists of elements; induction on the derivation in the grammar, with what an expression of each level may find and may leave on the stack of operators; postfix by induction on the expression; the assertion by the invariant that neighbours on the stack are in order of precedence, and the number of open parentheses on the stack |
| C104 | what is read, by induction on the digits from the last one; the spelling relation carries the function that reads a number, so that the same string spells tokens with right and with misread numbers; the exact condition by induction on the digits |
| C105 | an operational relation (`ReKept`, Engine/Reuse.lean) that every successful operation keeps, for every program and state: what is not run and has a result is as before, and an allocation once flagged stays flagged; at the end a used thunk is settled (C01), so that a thunk with a cause that was not run contradicts its own recorded edges; the other direction from the witnesses of C66 |
| C66 | the invariant of C01 extended by the list of thunks run: each is settled when it ends, and each run has a witness among its recorded edges; causes by well-founded induction on the acyclic graph |
| C60 | simulation between the engine over `V` and over the quotient of `V` by the user's equality |

## 3. Trusted base

* Lean's kernel. The axioms of each theorem of MANIFEST.json are listed in section 6: at most `propext`, `Classical.choice`, `Quot.sound`.
  There are no axioms of our own, no unproved goals, nothing rests on compiled code (`decide` is always evaluated by the kernel).
* That the Lean definitions say what the Rust code does. Each definition cites the lines it models.
  Evidence: `Verif/Validation.lean` runs the repository's own tests (`tests/engine.rs`, `src/macros.rs`, `src/catalog/bitstring.rs`) on the model, by kernel evaluation; these are tests, not claims.
* That the statements of `properties.jsonl` are what the theorems say. The theorems are stated with the model's operations and with the
  specifications in `Engine/Spec.lean`, `Collections/Spec.lean` and the first section of each file in `Props/`.

### Modelled, function by function

`engine.rs`: names, paths, locations; `cell`, `set`, `thunk`, `force`, `force_map`, `force_abs`, `force_cycle`, `ns`, `structural`/`nominal` flags,
`loc_produce`, `clean_comp`, `dirty_alloc`, `dirty_pred_observers`, `revoke_succs`, edge bookkeeping, `thunk_map`, equality of articulations, `use_engine`/
`init_engine`, `new` with the environment variables, `check_dcg`, the trace recorder, `dcg_reflect_now`; `reflect.rs`: traces, `trace_count`, values, names, `wf`; `parse_val.rs`: all;
`catalog/collections.rs`, `bitstring.rs`, `trie.rs`: the functions named in the Lean files.  `lib.rs`: the examples of the documentation named in the Lean files (level trees: `Catalog/RecProg.lean`).
`catalog/arith_parse.rs` (not compiled by the crate: it is not in `catalog/mod.rs`): all functions but one, on contents (`Catalog/ArithParse.lean`).

### Simplifications

* `usize`, `isize` are unbounded (`Nat`, `Int`) except where overflow is the subject; `u64` hashes are `UInt64`. Strings are lists of characters, or bytes in the lexer.
* `Rc`/`Box`/lifetimes are not modelled. `RefCell` is: a borrowed cell is met through the public operations by a thunk made with
  `ArtIdChoice::Eager`, whose body runs while the engine is mutably borrowed and which ends in `unreachable!` (the model panics at once), and by switching engines inside a thunk (C32). The function given to
  `force_map` also runs while the engine is borrowed; it is a pure function in the model, as its type `Fn(&Art<T>, T) -> S` is meant, so a map function that calls the engine is outside the model.
* When a thunk is re-allocated at the same program point with a closure of another argument type, the code transmutes. This is undefined
  behaviour and outside the model (all arguments have type `V`).
* The debug flags (`ADAPTON_CHECK_DCG`, `ADAPTON_WRITE_DCG`, …): the checker is modelled as a function on states and proved not to fail (C57); it is not
  interleaved with the operations. Writing `.dot` files is not modelled.
* Articulations inside collections are represented by their contents; `List::Tree` is omitted.
* The name counter behind unnamed `cell!`/`thunk!` (`macros.rs`) is modelled (C35); the macros `thunk!`, `get!`, `memo!`, `cell!`, `let_cell!`, `let_thunk!`, `let_memo!` are modelled as the programs they expand to (Verif/Macros/Model.lean, C70-C72); elsewhere the macros are taken as notation for the functions they expand to.
* Statistics (`cnt`) are not modelled; in the source, all code that counts is commented out.

### Not modelled

`catalog/fixpoints.rs` (stubs that panic; not in `catalog/mod.rs`), `generate_balanced_string` in `catalog/arith_parse.rs` (builds a string and drops it). `lib.rs` is documentation and tests.
Output to files (`write_next_dcg`, `write_dcg_file`), timing, file system, the stack size of the process.

## 4. Findings

Violations of a stated or documented property, each proved for all values concerned in the theorem named.

* **C15.** `force_map` followed by `force` (or a second `force_map`) of the same cell in one run: the later observation is not recorded, so the thunk is stale after an edit.
* **C16.** With the purity optimisation (the default), a nominal thunk that forces a structural thunk keeps no edge to it and is stale when a cell below it is edited.
* **C17.** An observation through `force_abs` is never dirtied.
* **C18.** `cell` at the location of a thunk keeps the thunk and loses the value.
* **C19.** `thunk` at the location of a cell drops the cell's observers: they are stale.
* **C22.** A thunk that observes itself through `force_cycle` makes a later edit panic.
* **C30.** A panic inside a thunk leaves stack, path and flags as they were inside it: the engine is poisoned.
* **C42.** `list_gen` always returns the empty list for lengths of at least one (and underflows at zero).
* **C43.** `ListElim::is_name` is swapped, so `filter_list_of_tree` keeps no name between elements, and all trailing names.
* **C45.** `BS::pow` with a negative exponent is the power of the absolute value.
* **C50.** A cycle made by an edit is not reported: a stale value is returned.
* **C51.** `filter_tree_of_tree` drops names, contrary to its documentation.
* **C52.** Extending a trie always panics; `remove`, `append` of `MapElim` and `diff` of `SetIntro` are `unimplemented!`.
* **C53.** `parse_val`: strings with escapes or non-ASCII characters are mangled, strings with a quote panic or split; structural articulations and `isize` names panic; the hash of `Hash64` names is lost; user constructors named like name symbols are read as names; numbers of more than 64 bits panic.
* **C54.** Effects inside `Debug` extents other than dirtying are not counted by `trace_count`.
* **C55.** A structural cell is identified by the hash of its value only: a colliding value is lost.
* **C58.** `name_of_usize(n)` and `name_of_isize(n)` have the same hash, so they are the same location in structural mode.
* **C61.** Articulations made by `thunk_map` from one articulation are equal whatever their maps are, so storing another one in a cell, or using it as an argument, is taken for no change: stale.
* **C62.** `mergesort_list_of_tree2` uses every node name twice, against the documentation of `tree_fold_up_nm_dn`: repeated names in its result and two thunks at one name.
* **C63.** On the DCG engine `mergesort_list_of_tree2` can return a cyclic list: elements are lost, others repeat for ever, `vec_of_list` does not return.
* **C64.** Reflected edges never carry their value; duplicate `Alloc` edges are stored, unmarked, and their dirty bits can differ, contrary to the documentation of `reflect::Succ`.
* **C65.** The naming mode (`structural`) is not stored with a thunk: re-evaluation during cleaning runs the thunk in the mode of the outermost demand, so ignored names begin to count and results differ from a from-scratch run.
* **C67.** `string_of_name` and `string_of_loc` give one string to different names (`name_of_usize(1)`, `name_of_isize(1)`, `name_of_str("1")`; differently grouped pairs; forks and pairs) and to all structural locations of a namespace.
* **C68.** A name that occurs twice in a list makes `tree_of_list` panic on the DCG engine ("unexpected cycle"); nothing in the API says that names must be distinct.
* **C75.** Two list functions called in the same namespace on lists with the same names allocate the same thunks: `list_filter_eager(list_filter_eager(l))` without `ns` panics (`assert_eq!(is_dup,false)`, engine.rs:2029). A name that occurs twice in a list makes the eager functions panic ("unexpected cycle").
* **C76.** `list_of_tree` (and `filter_list_of_tree`) allocate their cells under the names of the tree in the namespace in which `tree_fold_seq` allocates its thunks under forks of those names: on a tree with the names `n` and `name_fork(n).0`, all distinct, `list_of_tree` loses a leaf (`C76_fork_name_loses_leaf`).
* **C77.** `prune_tree_of_tree` (collections.rs:832-849) lacks the `ns(name_unit(), …)` that `filter_tree_of_tree` has around `bin_arts_niltest`: its cells have the locations of the thunks of `tree_fold_up`, `cell` takes their edges away (C18), and all later demands return the result of the first one, whatever is edited.
* **C80.** `Trie::empty` (trie.rs:242-260) allocates the thunk of the root under the name `nm1` that it also puts into the trie; `trie_fold` (476-487) finds that name and allocates a thunk of its own under it: called in the same namespace, for example at the top level, on the trie that `Trie::empty` has just returned, it panics (type error, or "Memozied functions not equal!" if the result type is that of tries).
* **C81.** `mergesort_list_of_tree3(tree, nm)` with a name `nm` that is also in the tree (nothing in its documentation forbids it): two merges get the same thunk, and a merge can become part of its own rest; `vec_of_list` of the result then never ends (3, 4, 4, 4, … for the leaves 4, 9, 3, 7).
* **C82.** The documentation of the sorts promises `O(n log n)` comparisons in total for a tree with `n` leaves; that is so only for trees of logarithmic height (`n` times the height in general): a tree that leans to one side takes `n(n-1)/2`. The trees of `tree_of_list` have logarithmic height only with high probability, and not at all if the names or elements hash to levels that descend.
* **C84.** `trace_count` counts a re-evaluation that changes the result as `reeval_nochange` if the thunk only reads cells (a comment in the source says "undercounting?"): in the whole example `reeval_change` stays 0.
* **C89.** In the documentation's level trees (lib.rs:1040-1250) a binary node without a name just above it makes `fold_up_namebin`, and so `fold_monoid`, panic in the DCG engine: `memo!([None]? …)` is `ArtIdChoice::Eager` (C71); nothing in the text or the types demands the name (`C89_unnamed_panics`).
* **C96.** Of the map and set traits, `remove`, `append` (hence `union`) and `diff` are `unimplemented!()` for lists (collections.rs:465-482, 1195-1205): they compile and panic for all arguments; so do `find`, `fold`, `is_mem` and `inter` when they come to a `List::Tree`.
* **C98.** `list_of_vec` (collections.rs:882-896) allocates the cell of a name under that name, so a vector in which a name occurs twice gives an endless list: the second allocation overwrites the cell, and the list behind the second occurrence goes back to the first.  Look-ups of later entries, and folds, then never return (stack overflow); in the naive engine the list is as the vector.
* **C101.** Two thunks that allocate one name with different contents undo each other's work: each demand of one dirties the other (`dirty_alloc`, engine.rs:1330-1351), and `clean` of an allocation always reports a change (engine.rs:1037-1051), so that both are run again at every demand, for ever, without any edit; what the cell contains is what the thunk demanded last has written.  Symbols are said to be globally unique (engine.rs:433-438), so such a program may be called wrong, but nothing detects it.
* **C103.** `postfix_of_infix` accepts what is not infix: `a b +` and `+ a b` are the same as `a + b`.
* **C104.** `tok_of_char` misreads numbers: `10` is 1, `100` is 1, `123` is 33; right are exactly 0 and the numbers below 100 that are not multiples of 10.
* **C87.** Two lazy list stages in a row are not lazy: `list_map_lazy` and `list_filter_lazy` drop the names, so the output of the first has none, and the second stage runs all of it when it is built (`C87_two_stages_not_lazy`).
* **C70.** A memoization point whose code captures a variable, or whose code has changed, keeps the old value: only program point and argument are compared. `thunk![[name] body]` and `let_memo!` write `stringify!($fun)` in a rule that binds `$body` (macros.rs:416), so that all their bodies have the program point `$fun`.
* **C71.** `memo!([None]? ..)` and `thunk!([None]? ..)`, documented as ordinary calls, always panic (`unreachable!()`, engine.rs:2440) in the DCG engine.
* **C72.** The documentation (lib.rs:995-998) says that without the firewall the formatting step "would have been re-executed" when the square stays the same; the engine does not re-execute it.
* **C73.** A thunk on a cycle keeps the value computed while the cycle was cut elsewhere: after demanding node 0 of the documentation's graph, demanding node 3 answers [3], a new engine answers [3,1,2,0]. From-scratch consistency does not hold for programs with cycle values.
* **C36.** `list_demand(0)` and a limit of `Some(0)` mean no limit; the limit counts names as well as elements.
* **C37.** `list_append` drops the names of the first list, `list_reverse` moves all names to the front, `list_map_lazy` keeps no names.

Also seen while modelling (no theorem of their own): `thunk` with `ArtIdChoice::Eager` always panics; unnamed cells and thunks take the names
`name_of_usize(counter)` and collide with user names of that form (`C35_counter_names_are_usize_names`); `thunk!([name] body)` uses a constant program point; the `wf`
panic message lacks a format argument; `wf::dirty` does not mark visited nodes, so it is exponential; `is_empty` of a trie is false for a node
with two empty children; the constructor branches of `name_of_val` are dead code.

## 5. Properties

| Id | Property | Status | Modelled and proved |
|---|---|---|---|
| C01 | From-scratch consistency | proved | simulation against the cache-free reference semantics Verif/Engine/Spec.lean; all sessions, all depths, nominal and structural naming, both purity settings Theorems: `Adapton.C01_from_scratch_consistency`, `Adapton.Means_unique` |
| C02 | Incremental re-evaluation terminates without engine panics | proved | same simulation: termination and absence of panics Theorems: `Adapton.C02_terminates_without_panic` |
| C03 | Reuse of clean cached results | proved | all states Theorems: `Adapton.C03_clean_reuse` |
| C04 | Unchanged set/cell is invisible | proved | all states Theorems: `Adapton.C04_set_same`, `Adapton.C04_cell_same` |
| C05 | Read your writes | proved | all states and intervening programs Theorems: `Adapton.C05_set_then_force`, `Adapton.C05_cell_then_force`, `Adapton.C05_until_next_mutation`, `Adapton.C05_set_then_force_upto`, `Adapton.C05_cell_then_force_upto` |
| C06 | Edits are lazy | proved | all states Theorems: `Adapton.C06_edits_are_lazy` |
| C07 | Dirtying terminates | proved | all states, all graphs; visits bounded by the clean edges Theorems: `Adapton.C07_dirtying_terminates` |
| C08 | Dirtying only sets dirty bits | proved | all states, normal return and panic Theorems: `Adapton.C08_only_dirty_bits` |
| C09 | Transitive dirtying invariant | proved | all meaningful sessions, all depths Theorems: `Adapton.C09_dirty_is_transitive` |
| C10 | Edge symmetry | proved | all meaningful sessions, all depths Theorems: `Adapton.C10_edge_symmetry` |
| C11 | Early cutoff | proved | all states and dependency trees Theorems: `Adapton.C11_early_cutoff` |
| C12 | Dependencies follow the last run | proved | all states, all runs Theorems: `Adapton.C12_deps_of_last_run`, `Adapton.C12_edit_reaches_dependents_only`, `Adapton.C12_unread_inputs_do_not_trigger` |
| C13 | force_map equals map after force | proved | all states Theorems: `Adapton.C13_force_map_is_map` |
| C14 | force_map prunes dirtying | proved | all states Theorems: `Adapton.C14_force_map_prunes` |
| C15 | Mixed observations of one cell: what is tracked and what is not | proved | the expected property is refuted; the statement says what the code does; all values, maps, depths Theorems: `Adapton.Dev.C15_map_then_force_is_stale`, `Adapton.Dev.C15_two_maps_are_stale`, `Adapton.Dev.C15_force_then_map_is_tracked` |
| C16 | The purity optimisation loses changes below structural thunks | proved | the expected property is refuted for the default setting, for all values Theorems: `Adapton.Dev.C16_structural_caller_is_stale` |
| C17 | force_abs observations are never dirtied | proved | the expected property is refuted, for all states and values Theorems: `Adapton.C17_force_abs_never_dirtied`, `Adapton.Dev.C17_force_abs_is_stale` |
| C18 | A cell allocated over a thunk is lost | proved | the expected property is refuted, for all states and values Theorems: `Adapton.C18_cell_over_thunk_keeps_thunk`, `Adapton.Dev.C18_cell_over_thunk_is_lost` |
| C19 | A thunk allocated over a cell forgets the observers | proved | the expected property is refuted, for all states and values Theorems: `Adapton.C19_thunk_over_cell_forgets_observers`, `Adapton.Dev.C19_thunk_over_cell_loses_observers` |
| C20 | Unexpected cycles are reported | proved | all states in which the thunk is being evaluated Theorems: `Adapton.C20_unexpected_cycle` |
| C21 | Expected cycles return the given value | proved | all states Theorems: `Adapton.C21_expected_cycle`, `Adapton.C21_no_cycle` |
| C22 | A self-cycle makes later edits panic | proved | the expected property is refuted, for all values Theorems: `Adapton.Dev.C22_self_cycle_poisons_edits` |
| C23 | set is editor-only | proved | all states Theorems: `Adapton.C23_set_is_editor_only` |
| C24 | Dynamic type errors are detected | proved | all states Theorems: `Adapton.C24_type_errors_detected` |
| C25 | Program-point mismatch is detected | proved | all states Theorems: `Adapton.C25_prog_pt_mismatch` |
| C26 | Memo match | proved | all states Theorems: `Adapton.C26_memo_match`, `Adapton.C26_memo_mismatch` |
| C27 | Namespaces and modes are scoped | proved | all programs, states, depths Theorems: `Adapton.C27_scoped`, `Adapton.C27_session_scoped` |
| C28 | Locations persist | proved | all programs, including panicking ones Theorems: `Adapton.C28_locations_persist`, `Adapton.C28_cell_exists`, `Adapton.C28_thunk_exists` |
| C29 | Art identity | proved | all states Theorems: `Adapton.C29_art_identity`, `Adapton.C29_structural_identity`, `Adapton.C29_structural_thunk_identity` |
| C30 | A panic inside a thunk poisons the engine | proved | the expected property is refuted, for all states and all later programs Theorems: `Adapton.C30_panic_leaves_thunk_running`, `Adapton.C30_poisoned_for_ever` |
| C31 | Trace is well bracketed | proved | all programs; recorder modelled in Verif/Trace/Model.lean Theorems: `Adapton.C31_trace_bracketed`, `Adapton.C31_no_nesting` |
| C32 | Engine switching | proved | all engines and command sequences Theorems: `Adapton.C32_use_engine`, `Adapton.C32_new_engine_flags`, `Adapton.C32_switch_back`, `Adapton.C32_no_switch_inside` |
| C33 | Name forking is injective and disjoint | proved | all names, all hash functions Theorems: `Adapton.C33_fork`, `Adapton.C33_fork3`, `Adapton.C33_fork4`, `Adapton.C33_fork_tree`, `Adapton.C33_forko` |
| C34 | Name pairing and leaf names are injective | proved | all names, all hash functions; usize/isize/String abstracted to Nat/Int/String Theorems: `Adapton.C34_pair`, `Adapton.C34_leaves` |
| C35 | The name counter never repeats | proved | all counts up to 2^64 Theorems: `Adapton.C35_counter_names_distinct`, `Adapton.C35_counter_arts_distinct`, `Adapton.C35_counter_names_are_usize_names` |
| C36 | List round trip | proved | all vectors and lists; articulations by their contents Theorems: `Adapton.Coll.vec_list_round_trip`, `Adapton.Coll.vec_of_list_items`, `Adapton.Coll.list_demand_zero` |
| C37 | List functions agree with their sequence meaning | proved | all lists, all functions; articulations by their contents Theorems: `Adapton.Coll.list_map_elems`, `Adapton.Coll.list_map_lazy_items`, `Adapton.Coll.list_map_eager_items`, `Adapton.Coll.list_map_eager2_items`, `Adapton.Coll.list_filter_elems`, `Adapton.Coll.list_filter_eager_items`, `Adapton.Coll.list_reverse_elems`, `Adapton.Coll.list_reverse_items`, `Adapton.Coll.list_fold_eq`, `Adapton.Coll.list_append_elems`, `Adapton.Coll.list_append_items`, `Adapton.Coll.list_is_empty_iff`, `Adapton.Coll.list_pop_push` |
| C38 | Merge of sorted lists | proved | all lists, orders and names; articulations by their contents Theorems: `Adapton.Coll.list_merge_elems`, `Adapton.Coll.list_merge_perm`, `Adapton.Coll.list_merge_ascending` |
| C39 | Mergesort sorts | proved | all trees and total orders; stability included Theorems: `Adapton.Coll.mergesort1_sorts`, `Adapton.Coll.mergesort2_sorts`, `Adapton.Coll.mergesort3_sorts` |
| C40 | Tree of list and back | proved | all lists, all hash functions Theorems: `Adapton.Coll.tree_of_list_items`, `Adapton.Coll.list_of_tree_items`, `Adapton.Coll.list_tree_round_trip`, `Adapton.Coll.tree_of_list_canonical` |
| C41 | Tree folds | proved | all trees, monoids and predicates Theorems: `Adapton.Coll.monoid_of_tree_eq`, `Adapton.Coll.tree_fold_seq_order`, `Adapton.Coll.filter_tree_leaves`, `Adapton.Coll.eager_tree_eq`, `Adapton.Coll.prune_tree_spec`, `Adapton.Coll.tree_is_empty_iff` |
| C42 | list_gen generates its elements | proved | the expected property is refuted for every length at least one Theorems: `Adapton.Coll.list_gen_empty`, `Adapton.Coll.list_gen_not_generating` |
| C43 | filter_list_of_tree keeps one separating name | proved | elements: proved; names: the expected property is refuted and the exact result given; all trees and predicates Theorems: `Adapton.Coll.filter_list_of_tree_elems`, `Adapton.Coll.filter_list_of_tree_items`, `Adapton.Coll.is_name_swapped`, `Adapton.Coll.filter_list_of_tree_no_name` |
| C44 | Association-list maps | proved | all maps and keys Theorems: `Adapton.Coll.map_find_update`, `Adapton.Coll.map_find_eq`, `Adapton.Coll.map_find_empty`, `Adapton.Coll.map_fold_eq`, `Adapton.Coll.set_is_mem_iff`, `Adapton.Coll.set_add_iff`, `Adapton.Coll.set_inter_iff` |
| C45 | Bit strings | proved | all lengths up to the limit, all i64 values; i64 overflow is a panic of the model Theorems: `Adapton.Bits.pow_eq`, `Adapton.Bits.flip_toggles`, `Adapton.Bits.is_set_reads`, `Adapton.Bits.prepend_spec`, `Adapton.Bits.prepend_value`, `Adapton.Bits.shift_left_spec`, `Adapton.Bits.shift_left_value`, `Adapton.Bits.max_len_supported`, `Adapton.Bits.pow_negative` |
| C46 | Trie lookup | proved | all tries and hash functions; articulations by their contents Theorems: `Adapton.TrieM.find_iff`, `Adapton.TrieM.find_placed`, `Adapton.TrieM.mem_placed`, `Adapton.TrieM.find_absent`, `Adapton.TrieM.split_atomic_leaf`, `Adapton.TrieM.split_atomic_other`, `Adapton.TrieM.fold_eq`, `Adapton.TrieM.is_empty_iff`, `Adapton.TrieM.empty_spec`, `Adapton.TrieM.empty_depth` |
| C47 | Reflection parse round trip | proved | all values of any depth, all name hash functions; termination for all byte strings Theorems: `Adapton.Reflect.parse_val_terminates`, `Adapton.Reflect.parse_val_round_trip`, `Adapton.Reflect.parse_val_art`, `Adapton.Reflect.name_readers_agree` |
| C48 | Contents and caches change only for a reason | proved | all programs, including panicking ones Theorems: `Adapton.C48_changes_have_reasons` |
| C49 | Clean dependencies are up to date | proved | all meaningful sessions, all depths Theorems: `Adapton.C49_clean_is_current` |
| C50 | A cycle created by an edit is not reported | proved | the expected property is refuted, for all values Theorems: `Adapton.Dev.C50_cycle_by_edit_is_silent` |
| C51 | Filtering a tree keeps its names | proved | the expected property is refuted, for all trees Theorems: `Adapton.Coll.filter_tree_drops_names`, `Adapton.Coll.filter_tree_names_counterexample`, `Adapton.Coll.filter_tree_noNil` |
| C52 | Tries can be extended | proved | the expected property is refuted, for all arguments Theorems: `Adapton.TrieM.trie_insertion_panics` |
| C53 | Every value can be reflected | proved | the expected property is refuted; the statements say what the code does Theorems: `Adapton.Reflect.string_reflection`, `Adapton.Reflect.string_with_quote_panics`, `Adapton.Reflect.quoted_string_splits`, `Adapton.Reflect.parse_val_panics_iff`, `Adapton.Reflect.structural_art_panics`, `Adapton.Reflect.isize_name_panics`, `Adapton.Reflect.hash64_conflated`, `Adapton.Reflect.user_constructor_taken_for_name`, `Adapton.Reflect.big_number_panics` |
| C54 | Counting a recorded trace | proved | all sessions that end without panic, from any state Theorems: `Adapton.Trace.C54_trace_count`, `Adapton.Trace.C54_debug_extent` |
| C55 | Structural cells are immutable | proved | all histories of programs that return or panic Theorems: `Adapton.C55_structural_cell_immutable`, `Adapton.C55_hash_collision` |
| C56 | Observations form no cycle | proved | states between editor programs of sessions with a reference meaning Theorems: `Adapton.C56_no_observation_cycle` |
| C57 | The DCG checker | proved | passes: states between editor programs of sessions with a reference meaning; sound: all states Theorems: `Adapton.C57_checker_passes`, `Adapton.C57_checker_sound` |
| C58 | The hash of a name identifies it | proved | all names, all hash functions; that Rust hashes isize and usize alike is a hypothesis of the second theorem Theorems: `Adapton.C58_hash_identifies_name`, `Adapton.C58_usize_isize_collide` |
| C59 | The naive engine and the DCG engine agree | proved | programs without set and force_abs; sessions with a reference meaning Theorems: `Adapton.C59_programs_agree`, `Adapton.C59_naive_set_panics`, `Adapton.C59_demands_agree` |
| C60 | Results are right up to the user's equality | proved | engine parametric in the equality; via the engine on the quotient type Theorems: `Adapton.UserEq.C60_right_up_to_equality`, `Adapton.UserEq.C60_equal_edit_is_dropped` |
| C61 | Articulations as values (thunk_map): violated | proved | the property is violated by the code; the theorems prove the violation for all maps and contents, and the part that holds Theorems: `Adapton.ArtEq.C61_art_equality`, `Adapton.ArtEq.C61_naive_thunk_equality`, `Adapton.ArtEq.C61_thunk_map_maps`, `Adapton.ArtEq.C61_thunk_maps_all_equal`, `Adapton.ArtEq.C61_set_to_other_map_is_dropped`, `Adapton.ArtEq.C61_memo_match_on_other_map`, `Adapton.ArtEq.C61_force_does_not_respect_equality` |
| C62 | Sorting never uses a name twice | proved | Positive for list_merge, mergesort_list_of_tree and mergesort_list_of_tree3; the last two theorems are the violation by mergesort_list_of_tree2. Theorems: `Adapton.Coll.C62_merge_names`, `Adapton.Coll.C62_merge_keeps_names`, `Adapton.Coll.C62_mergesort_names`, `Adapton.Coll.C62_mergesort3_names`, `Adapton.Coll.C62_plain_names`, `Adapton.Coll.C62_mergesort2_repeats_name`, `Adapton.Coll.C62_mergesort2_repeats_alloc` |
| C63 | Sorting on the engine, end to end | proved | The catalog functions as programs of the engine model, shown to have a from-scratch meaning for every session (no name clash, no cycle), then C01/C02 and the correctness of the sort. The refutation is a concrete run of the engine on mergesort_list_of_tree2. Theorems: `Adapton.SortProg.C63_sort_session`, `Adapton.SortProg.Example63.meets`, `Adapton.SortProg.Example63.C63_mergesort2_does_not_sort` |
| C64 | The reflected DCG is the DCG | proved | parse_val is a parameter (its own correctness is C47/C53). The last three theorems are the violations. Theorems: `Adapton.RDcg.C64_locations`, `Adapton.RDcg.C64_faithful`, `Adapton.RDcg.C64_order`, `Adapton.RDcg.C64_panics_iff`, `Adapton.RDcg.C64_reflected_invariants`, `Adapton.RDcg.C64_edge_values_missing`, `Adapton.RDcg.Example64.C64_hash_names_collide`, `Adapton.RDcg.Example64.C64_duplicate_edges_differ` |
| C65 | Thunks remember the naming mode in which they are evaluated: violated | proved | the expected property is refuted, for all values Theorems: `Adapton.Dev.C65_mode_is_forgotten` |
| C66 | Each thunk runs at most once per demand, and only for a cause | proved | The log of runs is a ghost component of the modelled state (appended to where loc_produce calls the producer). The causes are an inductive relation between the states before and after the demand, stated with the table and recorded edges only. Theorems: `Adapton.C66_each_thunk_at_most_once`, `Adapton.C66_second_demand_is_free` |
| C67 | Concise strings of names and locations | proved | The first theorem is the positive part; the other two give the violations for all parameters. Theorems: `Adapton.C67_strings_identify`, `Adapton.C67_different_names_same_string`, `Adapton.C67_different_locations_same_string` |
| C68 | The pipeline list, tree, sorted list on the engine, end to end | proved | The second theorem is one list, which shows that the hypothesis on names is needed. Theorems: `Adapton.SortProg.Pipe.C68_pipeline_session`, `Adapton.SortProg.Pipe.Example68.C68_repeated_name_panics` |
| C69 | What is not demanded is not run | proved | That a thunk is not needed is said with the reference semantics: the demand has a meaning although forcing that thunk has none. Theorems: `Adapton.C69_runs_only_what_is_needed`, `Adapton.C69_undemanded_is_not_run`, `Adapton.C69_division_example`, `Adapton.C69_division_not_run`, `Adapton.C69_switching_example` |
| C70 | A memoization point evaluates the code it is given: violated | proved | the expected property is refuted, for all histories with a meaning; the tracked half is proved for bodies that return at once, and in general by C01 Theorems: `Adapton.C70_code_is_ignored`, `Adapton.C70_memo_point_ignores_its_body`, `Adapton.C70_let_memo_keeps_the_first_body`, `Adapton.C70_new_engine_runs_the_body`, `Adapton.C70_captured_variable_is_stale`, `Adapton.C70_argument_is_tracked`, `Adapton.C70_other_function_panics` |
| C71 | A memoization point without a name is an ordinary call: violated in the DCG engine | proved | the expected property is refuted for the DCG engine and proved for the naive one Theorems: `Adapton.C71_unnamed_panics`, `Adapton.C71_naive_memo_is_a_call`, `Adapton.C71_ordinary_call` |
| C72 | The nominal firewall example, for every history | proved |  Theorems: `Adapton.Firewall.C72_answers`, `Adapton.Firewall.C72_edit_does_not_dirty_h`, `Adapton.Firewall.C72_demand_runs`, `Adapton.Firewall.C72_without_firewall` |
| C73 | The documented cycle exploration, on every graph and for every history of demands | proved | The engine is shown to follow a memoised depth-first search on every graph; violated part: a later demand returns the value truncated at the cycle. Theorems: `Adapton.Cyc.C73_first_search`, `Adapton.Cyc.C73_all_histories`, `Adapton.Cyc.C73_later_demand_is_truncated`, `Adapton.Cyc.C73_plain_recursion_diverges`, `Adapton.Cyc.C73_documentation` |
| C74 | What is still current is not run again | proved | The first theorem holds in every state; the other two for every session with a meaning. Edits of cells allocated inside a thunk are excluded: dirty_alloc flags the allocation edge and its check always reports a change. Theorems: `Adapton.C74_current_is_not_run`, `Adapton.C74_unseen_edits_run_nothing`, `Adapton.C74_undone_edits_run_nothing` |
| C75 | The list functions of the catalog, incrementally | proved | Maps and filters are one program with a body X -> Option X. Element type X -> X only (the input and output types of the source may differ). The hypotheses on names and namespaces are needed: C75_repeated_name_panics, C75_repeated_stage_panics. Theorems: `Adapton.ListProg.C75_list_session`, `Adapton.ListProg.C75_spec_is_model` |
| C76 | tree_fold_up, tree_fold_seq, tree_fold_up_nm_dn and what is made with them return, after any edits, what they return from scratch | proved | The functions passed are pure (they return values, allocate nothing), except those that list_of_tree, filter_list_of_tree and filter_tree_of_tree pass. The hypotheses on names and namespaces are needed: C76_repeated_name_panics, C76_repeated_stage_panics, C76_fork_name_loses_leaf (Example76). Theorems: `Adapton.FoldProg.C76_fold_session`, `Adapton.FoldProg.C76_results` |
| C77 | prune_tree_of_tree does not follow edits | proved | the expected property is refuted, for all numbers in the leaves; the fix that filter_tree_of_tree has (ns(name_unit(), ...)) makes it true: C76 Theorems: `Adapton.FoldProg.Prune.C77_prune_is_stale`, `Adapton.FoldProg.Prune.C77_prune_stays_stale` |
| C78 | Pipelines of eager maps and filters are incremental | proved | stages are list_map_eager and list_filter_eager with distinct names in the list; the work inside the demanded thunk (vec_of_list reads the whole result) is not counted; the thunks of the stages record at most three dependencies each Theorems: `Adapton.ListProg.C78_edits_are_local`, `Adapton.ListProg.Example78.C78_bound_attained` |
| C79 | Folds of trees are incremental | proved | the names in the tree are distinct; the functions passed are pure Theorems: `Adapton.FoldProg.C79_edits_are_local`, `Adapton.FoldProg.C79_early_cutoff`, `Adapton.FoldProg.Example79.C79_bound_attained` |
| C80 | Tries follow edits, and trie_fold of a new empty trie panics | proved | the property as expected fails for trie_fold of Trie::empty in the same namespace; that half is proved as a violation for every state Theorems: `Adapton.TrieProg.C80_trie_session`, `Adapton.TrieProg.C80_answers`, `Adapton.TrieProg.C80_trie_fold_of_empty_never_returns`, `Adapton.TrieProg.Example80.C80_trie_fold_of_empty_panics`, `Adapton.TrieProg.Example80.C80_repeated_name_panics` |
| C81 | mergesort_list_of_tree3 follows edits, and the names given to it must be independent | proved | Specification: Unfolds, Demands, answer in Props/MergeEngine.lean; sortedness by SortOf (Props/Sorting.lean), independence of names by Independent (Props/SortNames.lean). The last three show on concrete trees that the condition on names is needed. mergesort_list_of_tree2, which fails even where this condition holds, is in C63. Theorems: `Adapton.MergeProg.C81_mergesort3_session`, `Adapton.MergeProg.C81_answers`, `Adapton.MergeProg.Example81.C81_repeated_name_panics`, `Adapton.MergeProg.Example81.C81_repeated_name_panics'`, `Adapton.MergeProg.Example81.C81_given_name_in_tree_repeats_elements` |
| C82 | Comparisons made by the demand-driven sorts | proved | Comparisons of a sort from scratch, each thunk run once, when it is first forced (C66, C69). The documented O(n log n) is refuted for unbalanced trees and proved, with n times height, for all trees. The first-element bound is proved for trees all of whose inner nodes are named: the documentation says that the output is lazy only as far as the tree contains names. Theorems: `Adapton.Coll.C82_cost_model_sorts`, `Adapton.Coll.C82_total_comparisons`, `Adapton.Coll.C82_n_log_n_when_balanced`, `Adapton.Coll.C82_last_element_is_free`, `Adapton.Coll.C82_first_and_next_elements`, `Adapton.Coll.C82_quadratic_on_unbalanced_trees` |
| C83 | Nominal memoization does what the documentation says | proved | For all sequences of calls, on the engine itself; the four calls of the documentation are the example beside it. Theorems: `Adapton.MemoCount.C83_memo_calls`, `Adapton.MemoCount.C83_fresh_is_number_of_names` |
| C84 | force_map dirties only when the projection changes | proved | For all histories, on the engine itself. The reading of reeval_nochange (it counts re-evaluations that change the result) is part of the theorem. Theorems: `Adapton.ForceMapCount.C84_force_map`, `Adapton.ForceMapCount.C84_same_projection` |
| C85 | Reversing a list is incremental, by nominal independence | proved | names are distinct and are not the names rev pairs of list_reverse itself (GoodNames), stage names are distinct; the functions passed are pure Theorems: `Adapton.ListProg.C85_reverse_is_incremental`, `Adapton.ListProg.Example85.C85_bound_attained`, `Adapton.ListProg.Example85.C85_fails_without_the_cells` |
| C86 | A demand runs only what it uses | proved | For all programs with a meaning (Ref.Means). The exception for the purity optimisation is necessary (C86_purity_hides). Theorems: `Adapton.C86_only_what_is_used_is_run`, `Adapton.C86_division_example`, `Adapton.PureEx.C86_purity_hides` |
| C87 | list_map_lazy and list_filter_lazy are lazy | proved | names are distinct (GoodNames); the functions passed are pure. Laziness of two lazy stages is refuted by an example. Theorems: `Adapton.ListProg.C87_lazy_stage_is_lazy`, `Adapton.ListProg.C87_rest_costs_nothing`, `Adapton.ListProg.Example87.C87_only_what_is_needed`, `Adapton.ListProg.Example87.C87_eager_is_not_lazy`, `Adapton.ListProg.Example87.C87_two_stages_not_lazy` |
| C88 | The editor may do itself what a thunk may do, and use what thunks have made | proved | Act (Engine/Act.lean) is a more permissive specification of editor code than that of C01 (Ref.Means.acts: C01's meaning is an instance); StaleEx is a session with an Act meaning and without a C01 meaning. The catalog programs that are right in demanded thunks are right when called by the editor. Theorems: `Adapton.C88_editor_actions`, `Adapton.C88_one_meaning`, `Adapton.C88_code_at_top_level`, `Adapton.EditSession.C88_catalog_at_top_level`, `Adapton.ListProg.C88_lists`, `Adapton.FoldProg.C88_folds`, `Adapton.TrieProg.C88_tries`, `Adapton.RecProg.C88_level_trees`, `Adapton.MergeProg.C88_mergesort3` |
| C89 | The folds of the documentation's level trees are right after every edit | proved | the functions passed are pure, and art does not use the articulation it is passed. Without a name of its own for each binary node the fold panics (shown). Theorems: `Adapton.RecProg.C89_level_trees`, `Adapton.RecProg.C89_fold_monoid`, `Adapton.RecProg.C89_unnamed_panics`, `Adapton.RecProg.Example89.C89_repeated_name_panics` |
| C90 | The folds of the documentation's level trees are incremental | proved | the functions passed are pure; each binary node has a name of its own (otherwise the fold panics, C89) Theorems: `Adapton.RecProg.C90_edits_are_local`, `Adapton.RecProg.C90_early_cutoff`, `Adapton.RecProg.Example90.C90_bound_attained` |
| C91 | The total cost of dirtying is paid for | proved | Potential argument for every program and every state (clean edges in the table plus edges on the frames of running thunks); the counts are of trace events; the concrete history at the end of Props/Amortised.lean meets the bounds with equality. Theorems: `Adapton.C91_amortised_dirtying`, `Adapton.C91_amortised_from_start`, `Adapton.C91_batch_of_sets` |
| C92 | The engine does not depend on how names, hashes and values are represented | proved | Logical relation between two runs, for every program. The example at the end of Props/Parametric.lean is a session with nominal, forked and structural names, shown to behave the same for every hash function; merged_differs shows that one-to-one is needed. Hashes that identify structural articulations must correspond one-to-one as well: collisions there are visible (C58). Theorems: `Adapton.Param.C92_representation_independence`, `Adapton.Param.C92_same_work`, `Adapton.Param.C92_hash_function_of_names` |
| C93 | Cleaning examines each dirty dependency once | proved | The inequality is part of the postcondition of every engine operation in the consistency proof (Post.cost, Engine/State.lean): cleaning is followed edge by edge, through nested cleanings, re-runs and their dirtying. Counts are of trace events and of dirty edges in the table, specified with countP. The example history meets the bound with equality; C93_needs_meaning is a cyclic program that breaks it. Theorems: `Adapton.C93_cost_of_cleaning`, `Adapton.C93_from_start`, `Adapton.C93_nothing_dirty`, `Adapton.C93_change_propagation`, `Adapton.CycleCostEx.C93_needs_meaning` |
| C94 | The graph does not grow with the history | proved | Demands (Engine/Space.lean) is a syntactic bound on one run of a program. That records and edges agree in number for each pair of locations is part of the graph invariant of the consistency proof (Graph.cnt); the totals follow by double counting. The engine never frees a node (there is no collection), so the number of locations is that of all locations ever used. C94_needs_meaning: a cyclic program that leaves records behind. Theorems: `Adapton.C94_edges_bounded`, `Adapton.C94_nodes_bounded`, `Adapton.C94_no_stale_records`, `Adapton.C94_space_bounded`, `Adapton.SpaceEx.C94_needs_meaning` |
| C95 | Every run of a thunk is paid for, once | proved | Potential argument (Engine/Earn.lean) for every program, as long as no thunk is run twice within one demand; that this is so in a history with a meaning is part of the consistency proof (RunsOK.nodup). The allocation of a structural thunk is not traced, therefore the structurally named locations in the bound. The example history meets the bounds with equality. Theorems: `Adapton.C95_cost_of_running`, `Adapton.C95_from_start`, `Adapton.C95_runs_are_paid_for`, `Adapton.C95_nothing_to_run`, `Adapton.EvalEx.C95_needs_meaning` |
| C96 | Maps and sets as association lists, on the engine | proved | Model Collections/MapProg.lean; specification Walk, Finds, Hits, Answers in Props/MapEngine.lean. Generic part for all read-only queries: Engine/Query.lean. Theorems: `Adapton.MapProg.C96_maps_and_sets`, `Adapton.MapProg.C96_find`, `Adapton.MapProg.C96_find_update`, `Adapton.MapProg.C96_inter`, `Adapton.MapProg.C96_unimplemented` |
| C97 | A look-up depends on the cells before the first match only | proved | From the general theorem Adapton.Query.query_twice on thunks that only read cells. Theorems: `Adapton.MapProg.C97_rerun_iff_read_changed`, `Adapton.MapProg.C97_find_stops_at_first` |
| C98 | Lists made by list_of_vec: as the vector says, or endless | proved | Props/ListOfVec.lean. Divergence: the model's recursion is bounded by a depth, and the result is out-of-fuel at every depth. Theorems: `Adapton.MapProg.C98_list_of_vec`, `Adapton.MapProg.C98_repeated_name` |
| C99 | A look-up in a trie depends on the cells on its way only | proved | Props/TrieLookup.lean. Specification: Down, Top, Elems, Looks, LDemands. trie_fold is not in it (it allocates thunks: C80). Theorems: `Adapton.TrieProg.C99_rerun_iff_on_the_way`, `Adapton.TrieProg.C99_off_the_way_runs_nothing`, `Adapton.TrieProg.C99_agrees` |
| C100 | A demand for the first items of a list depends on the cells before the last of them only | proved | Props/ListDemand.lean. Specification: Passes, Takes, TakesAll. A limit of 0 is never reached (see C36). Theorems: `Adapton.ListProg.C100_rerun_iff_before_the_limit`, `Adapton.ListProg.C100_behind_the_limit_runs_nothing`, `Adapton.ListProg.C100_demand_is_answered` |
| C101 | Changing what a thunk has made makes it run again | proved | Engine/Owed.lean, Props/Owners.lean. Specification: Allocated, Overwrites. The second theorem is for one concrete pair of thunks and any number of demands. Theorems: `Adapton.C101_changed_owner_runs_again`, `Adapton.OwnersEx.C101_two_owners_never_agree` |
| C102 | Demands do not influence each other | proved | Props/Independence.lean. Specification: NoDemand, Op, Fits, Result, Alone. Theorems: `Adapton.Indep.C102_demands_do_not_interfere`, `Adapton.Indep.C102_engine`, `Adapton.IndepEx.C102_needs_own_answers` |
| C103 | Arithmetic expressions: from tokens to the value | proved | Grammar, value and postfix form are specified at the top of Props/Arith.lean. Content model of lists and trees (C36, C40). Theorems: `Adapton.Arith.C103_infix_expressions_are_evaluated`, `Adapton.Arith.C103_postfix_of_infix`, `Adapton.Arith.C103_evaluate_postfix`, `Adapton.Arith.C103_postfix_panics_iff`, `Adapton.Arith.C103_not_only_infix` |
| C104 | Arithmetic expressions: numbers in strings are misread | proved | Violation: the exact condition under which numbers are read correctly. For strings shorter than 2^56 (no overflow). Theorems: `Adapton.Arith.C104_tokens_are_right_iff`, `Adapton.Arith.C104_number_is_right_iff`, `Adapton.Arith.C104_misread_le`, `Adapton.Arith.C104_tok_of_char`, `Adapton.Arith.C104_strings_are_evaluated`, `Adapton.Arith.C104_single_number` |
| C105 | Exactly which thunks a demand runs | proved | The equivalence is for thunks whose last run has allocated only cells and named thunks: for an allocation of a thunk without a name, nothing can be overwritten, but that its flag is never set is not part of the invariant; sufficiency needs no such restriction. Theorems: `Adapton.C105_the_runs_of_a_demand`, `Adapton.C105_exactly_those_with_a_cause`, `Adapton.C105_every_cause_is_sufficient`, `Adapton.C105_cached_results_come_from_runs`, `Adapton.C105_every_result_was_computed` |

## 6. Axioms of each theorem

As printed by `#print axioms`.

* none: `Adapton.Bits.max_len_supported`, `Adapton.C32_use_engine`, `Adapton.C33_forko`, `Adapton.C59_naive_set_panics`, `Adapton.C71_naive_memo_is_a_call`, `Adapton.Coll.map_find_empty`, `Adapton.Coll.map_find_update`, `Adapton.TrieM.empty_spec`, `Adapton.TrieM.is_empty_iff`
* `propext`: `Adapton.ArtEq.C61_force_does_not_respect_equality`, `Adapton.ArtEq.C61_naive_thunk_equality`, `Adapton.ArtEq.C61_thunk_map_maps`, `Adapton.ArtEq.C61_thunk_maps_all_equal`, `Adapton.C04_set_same`, `Adapton.C12_edit_reaches_dependents_only`, `Adapton.C23_set_is_editor_only`, `Adapton.C25_prog_pt_mismatch`, `Adapton.C29_art_identity`, `Adapton.C29_structural_identity`, `Adapton.C29_structural_thunk_identity`, `Adapton.C31_no_nesting`, `Adapton.C32_new_engine_flags`, `Adapton.C32_no_switch_inside`, `Adapton.C32_switch_back`, `Adapton.C34_leaves`, `Adapton.C58_usize_isize_collide`, `Adapton.C71_ordinary_call`, `Adapton.C71_unnamed_panics`, `Adapton.Coll.eager_tree_eq`, `Adapton.Coll.filter_tree_drops_names`, `Adapton.Coll.filter_tree_leaves`, `Adapton.Coll.filter_tree_noNil`, `Adapton.Coll.list_append_elems`, `Adapton.Coll.list_append_items`, `Adapton.Coll.list_filter_eager_items`, `Adapton.Coll.list_filter_elems`, `Adapton.Coll.list_fold_eq`, `Adapton.Coll.list_is_empty_iff`, `Adapton.Coll.list_map_eager2_items`, `Adapton.Coll.list_map_eager_items`, `Adapton.Coll.list_map_elems`, `Adapton.Coll.list_map_lazy_items`, `Adapton.Coll.list_pop_push`, `Adapton.Coll.list_reverse_elems`, `Adapton.Coll.list_reverse_items`, `Adapton.Coll.map_fold_eq`, `Adapton.Coll.prune_tree_spec`, `Adapton.Coll.tree_is_empty_iff`, `Adapton.Cyc.C73_plain_recursion_diverges`, `Adapton.CycleCostEx.C93_needs_meaning`, `Adapton.EvalEx.C95_needs_meaning`, `Adapton.FoldProg.Example79.C79_bound_attained`, `Adapton.FoldProg.Prune.C77_prune_is_stale`, `Adapton.FoldProg.Prune.C77_prune_stays_stale`, `Adapton.IndepEx.C102_needs_own_answers`, `Adapton.ListProg.C75_spec_is_model`, `Adapton.ListProg.Example78.C78_bound_attained`, `Adapton.ListProg.Example85.C85_bound_attained`, `Adapton.ListProg.Example85.C85_fails_without_the_cells`, `Adapton.ListProg.Example87.C87_eager_is_not_lazy`, `Adapton.ListProg.Example87.C87_only_what_is_needed`, `Adapton.ListProg.Example87.C87_two_stages_not_lazy`, `Adapton.MapProg.C96_find_update`, `Adapton.MapProg.C96_unimplemented`, `Adapton.MergeProg.Example81.C81_given_name_in_tree_repeats_elements`, `Adapton.MergeProg.Example81.C81_repeated_name_panics`, `Adapton.MergeProg.Example81.C81_repeated_name_panics'`, `Adapton.OwnersEx.C101_two_owners_never_agree`, `Adapton.PureEx.C86_purity_hides`, `Adapton.RDcg.C64_locations`, `Adapton.RDcg.Example64.C64_duplicate_edges_differ`, `Adapton.RecProg.C89_unnamed_panics`, `Adapton.RecProg.Example89.C89_repeated_name_panics`, `Adapton.RecProg.Example90.C90_bound_attained`, `Adapton.SortProg.Example63.C63_mergesort2_does_not_sort`, `Adapton.SortProg.Example63.meets`, `Adapton.SortProg.Pipe.Example68.C68_repeated_name_panics`, `Adapton.SpaceEx.C94_needs_meaning`, `Adapton.Trace.C54_debug_extent`, `Adapton.TrieM.trie_insertion_panics`, `Adapton.TrieProg.Example80.C80_repeated_name_panics`, `Adapton.TrieProg.Example80.C80_trie_fold_of_empty_panics`
* `Quot.sound`, `propext`: `Adapton.Arith.C103_evaluate_postfix`, `Adapton.Arith.C103_not_only_infix`, `Adapton.Arith.C103_postfix_of_infix`, `Adapton.Arith.C104_misread_le`, `Adapton.ArtEq.C61_set_to_other_map_is_dropped`, `Adapton.C03_clean_reuse`, `Adapton.C04_cell_same`, `Adapton.C05_until_next_mutation`, `Adapton.C11_early_cutoff`, `Adapton.C20_unexpected_cycle`, `Adapton.C21_expected_cycle`, `Adapton.C21_no_cycle`, `Adapton.C24_type_errors_detected`, `Adapton.C26_memo_match`, `Adapton.C27_scoped`, `Adapton.C27_session_scoped`, `Adapton.C28_cell_exists`, `Adapton.C28_locations_persist`, `Adapton.C28_thunk_exists`, `Adapton.C30_panic_leaves_thunk_running`, `Adapton.C30_poisoned_for_ever`, `Adapton.C33_fork_tree`, `Adapton.C35_counter_arts_distinct`, `Adapton.C35_counter_names_are_usize_names`, `Adapton.C35_counter_names_distinct`, `Adapton.C55_hash_collision`, `Adapton.C55_structural_cell_immutable`, `Adapton.C57_checker_sound`, `Adapton.C70_argument_is_tracked`, `Adapton.C70_captured_variable_is_stale`, `Adapton.C70_code_is_ignored`, `Adapton.C70_new_engine_runs_the_body`, `Adapton.C70_other_function_panics`, `Adapton.C74_current_is_not_run`, `Adapton.C94_edges_bounded`, `Adapton.Coll.C62_merge_keeps_names`, `Adapton.Coll.C62_merge_names`, `Adapton.Coll.C62_mergesort2_repeats_alloc`, `Adapton.Coll.C62_mergesort2_repeats_name`, `Adapton.Coll.C62_plain_names`, `Adapton.Coll.C82_cost_model_sorts`, `Adapton.Coll.C82_last_element_is_free`, `Adapton.Coll.C82_quadratic_on_unbalanced_trees`, `Adapton.Coll.C82_total_comparisons`, `Adapton.Coll.filter_list_of_tree_elems`, `Adapton.Coll.filter_list_of_tree_items`, `Adapton.Coll.filter_list_of_tree_no_name`, `Adapton.Coll.is_name_swapped`, `Adapton.Coll.list_demand_zero`, `Adapton.Coll.list_gen_empty`, `Adapton.Coll.list_gen_not_generating`, `Adapton.Coll.list_merge_ascending`, `Adapton.Coll.list_merge_elems`, `Adapton.Coll.list_merge_perm`, `Adapton.Coll.list_of_tree_items`, `Adapton.Coll.map_find_eq`, `Adapton.Coll.mergesort1_sorts`, `Adapton.Coll.mergesort2_sorts`, `Adapton.Coll.mergesort3_sorts`, `Adapton.Coll.monoid_of_tree_eq`, `Adapton.Coll.set_add_iff`, `Adapton.Coll.set_inter_iff`, `Adapton.Coll.set_is_mem_iff`, `Adapton.Coll.tree_fold_seq_order`, `Adapton.Coll.vec_list_round_trip`, `Adapton.Coll.vec_of_list_items`, `Adapton.Cyc.C73_documentation`, `Adapton.Cyc.C73_later_demand_is_truncated`, `Adapton.Dev.C15_force_then_map_is_tracked`, `Adapton.Dev.C15_map_then_force_is_stale`, `Adapton.Dev.C15_two_maps_are_stale`, `Adapton.Dev.C16_structural_caller_is_stale`, `Adapton.Dev.C17_force_abs_is_stale`, `Adapton.Dev.C18_cell_over_thunk_is_lost`, `Adapton.Dev.C19_thunk_over_cell_loses_observers`, `Adapton.Dev.C22_self_cycle_poisons_edits`, `Adapton.Dev.C50_cycle_by_edit_is_silent`, `Adapton.Dev.C65_mode_is_forgotten`, `Adapton.FoldProg.C76_results`, `Adapton.ForceMapCount.C84_same_projection`, `Adapton.Indep.C102_demands_do_not_interfere`, `Adapton.ListProg.C100_demand_is_answered`, `Adapton.MapProg.C96_find`, `Adapton.MapProg.C96_inter`, `Adapton.MapProg.C98_repeated_name`, `Adapton.Param.C92_hash_function_of_names`, `Adapton.Param.C92_representation_independence`, `Adapton.Param.C92_same_work`, `Adapton.RDcg.C64_edge_values_missing`, `Adapton.RDcg.C64_faithful`, `Adapton.RDcg.C64_order`, `Adapton.RDcg.C64_panics_iff`, `Adapton.RDcg.Example64.C64_hash_names_collide`, `Adapton.RecProg.C89_fold_monoid`, `Adapton.Reflect.name_readers_agree`, `Adapton.TrieM.empty_depth`, `Adapton.TrieM.fold_eq`, `Adapton.TrieM.split_atomic_other`, `Adapton.TrieProg.C99_agrees`, `Adapton.UserEq.C60_equal_edit_is_dropped`
* `Classical.choice`, `Quot.sound`, `propext`: `Adapton.Arith.C103_infix_expressions_are_evaluated`, `Adapton.Arith.C103_postfix_panics_iff`, `Adapton.Arith.C104_number_is_right_iff`, `Adapton.Arith.C104_single_number`, `Adapton.Arith.C104_strings_are_evaluated`, `Adapton.Arith.C104_tok_of_char`, `Adapton.Arith.C104_tokens_are_right_iff`, `Adapton.ArtEq.C61_art_equality`, `Adapton.ArtEq.C61_memo_match_on_other_map`, `Adapton.Bits.flip_toggles`, `Adapton.Bits.is_set_reads`, `Adapton.Bits.pow_eq`, `Adapton.Bits.pow_negative`, `Adapton.Bits.prepend_spec`, `Adapton.Bits.prepend_value`, `Adapton.Bits.shift_left_spec`, `Adapton.Bits.shift_left_value`, `Adapton.C01_from_scratch_consistency`, `Adapton.C02_terminates_without_panic`, `Adapton.C05_cell_then_force`, `Adapton.C05_cell_then_force_upto`, `Adapton.C05_set_then_force`, `Adapton.C05_set_then_force_upto`, `Adapton.C06_edits_are_lazy`, `Adapton.C07_dirtying_terminates`, `Adapton.C08_only_dirty_bits`, `Adapton.C09_dirty_is_transitive`, `Adapton.C101_changed_owner_runs_again`, `Adapton.C105_cached_results_come_from_runs`, `Adapton.C105_every_cause_is_sufficient`, `Adapton.C105_every_result_was_computed`, `Adapton.C105_exactly_those_with_a_cause`, `Adapton.C105_the_runs_of_a_demand`, `Adapton.C10_edge_symmetry`, `Adapton.C12_deps_of_last_run`, `Adapton.C12_unread_inputs_do_not_trigger`, `Adapton.C13_force_map_is_map`, `Adapton.C14_force_map_prunes`, `Adapton.C17_force_abs_never_dirtied`, `Adapton.C18_cell_over_thunk_keeps_thunk`, `Adapton.C19_thunk_over_cell_forgets_observers`, `Adapton.C26_memo_mismatch`, `Adapton.C31_trace_bracketed`, `Adapton.C33_fork`, `Adapton.C33_fork3`, `Adapton.C33_fork4`, `Adapton.C34_pair`, `Adapton.C48_changes_have_reasons`, `Adapton.C49_clean_is_current`, `Adapton.C56_no_observation_cycle`, `Adapton.C57_checker_passes`, `Adapton.C58_hash_identifies_name`, `Adapton.C59_demands_agree`, `Adapton.C59_programs_agree`, `Adapton.C66_each_thunk_at_most_once`, `Adapton.C66_second_demand_is_free`, `Adapton.C67_different_locations_same_string`, `Adapton.C67_different_names_same_string`, `Adapton.C67_strings_identify`, `Adapton.C69_division_example`, `Adapton.C69_division_not_run`, `Adapton.C69_runs_only_what_is_needed`, `Adapton.C69_switching_example`, `Adapton.C69_undemanded_is_not_run`, `Adapton.C70_let_memo_keeps_the_first_body`, `Adapton.C70_memo_point_ignores_its_body`, `Adapton.C74_undone_edits_run_nothing`, `Adapton.C74_unseen_edits_run_nothing`, `Adapton.C86_division_example`, `Adapton.C86_only_what_is_used_is_run`, `Adapton.C88_code_at_top_level`, `Adapton.C88_editor_actions`, `Adapton.C88_one_meaning`, `Adapton.C91_amortised_dirtying`, `Adapton.C91_amortised_from_start`, `Adapton.C91_batch_of_sets`, `Adapton.C93_change_propagation`, `Adapton.C93_cost_of_cleaning`, `Adapton.C93_from_start`, `Adapton.C93_nothing_dirty`, `Adapton.C94_no_stale_records`, `Adapton.C94_nodes_bounded`, `Adapton.C94_space_bounded`, `Adapton.C95_cost_of_running`, `Adapton.C95_from_start`, `Adapton.C95_nothing_to_run`, `Adapton.C95_runs_are_paid_for`, `Adapton.Coll.C62_mergesort3_names`, `Adapton.Coll.C62_mergesort_names`, `Adapton.Coll.C82_first_and_next_elements`, `Adapton.Coll.C82_n_log_n_when_balanced`, `Adapton.Coll.filter_tree_names_counterexample`, `Adapton.Coll.list_tree_round_trip`, `Adapton.Coll.tree_of_list_canonical`, `Adapton.Coll.tree_of_list_items`, `Adapton.Cyc.C73_all_histories`, `Adapton.Cyc.C73_first_search`, `Adapton.EditSession.C88_catalog_at_top_level`, `Adapton.Firewall.C72_answers`, `Adapton.Firewall.C72_demand_runs`, `Adapton.Firewall.C72_edit_does_not_dirty_h`, `Adapton.Firewall.C72_without_firewall`, `Adapton.FoldProg.C76_fold_session`, `Adapton.FoldProg.C79_early_cutoff`, `Adapton.FoldProg.C79_edits_are_local`, `Adapton.FoldProg.C88_folds`, `Adapton.ForceMapCount.C84_force_map`, `Adapton.Indep.C102_engine`, `Adapton.ListProg.C100_behind_the_limit_runs_nothing`, `Adapton.ListProg.C100_rerun_iff_before_the_limit`, `Adapton.ListProg.C75_list_session`, `Adapton.ListProg.C78_edits_are_local`, `Adapton.ListProg.C85_reverse_is_incremental`, `Adapton.ListProg.C87_lazy_stage_is_lazy`, `Adapton.ListProg.C87_rest_costs_nothing`, `Adapton.ListProg.C88_lists`, `Adapton.MapProg.C96_maps_and_sets`, `Adapton.MapProg.C97_find_stops_at_first`, `Adapton.MapProg.C97_rerun_iff_read_changed`, `Adapton.MapProg.C98_list_of_vec`, `Adapton.Means_unique`, `Adapton.MemoCount.C83_fresh_is_number_of_names`, `Adapton.MemoCount.C83_memo_calls`, `Adapton.MergeProg.C81_answers`, `Adapton.MergeProg.C81_mergesort3_session`, `Adapton.MergeProg.C88_mergesort3`, `Adapton.RDcg.C64_reflected_invariants`, `Adapton.RecProg.C88_level_trees`, `Adapton.RecProg.C89_level_trees`, `Adapton.RecProg.C90_early_cutoff`, `Adapton.RecProg.C90_edits_are_local`, `Adapton.Reflect.big_number_panics`, `Adapton.Reflect.hash64_conflated`, `Adapton.Reflect.isize_name_panics`, `Adapton.Reflect.parse_val_art`, `Adapton.Reflect.parse_val_panics_iff`, `Adapton.Reflect.parse_val_round_trip`, `Adapton.Reflect.parse_val_terminates`, `Adapton.Reflect.quoted_string_splits`, `Adapton.Reflect.string_reflection`, `Adapton.Reflect.string_with_quote_panics`, `Adapton.Reflect.structural_art_panics`, `Adapton.Reflect.user_constructor_taken_for_name`, `Adapton.SortProg.C63_sort_session`, `Adapton.SortProg.Pipe.C68_pipeline_session`, `Adapton.Trace.C54_trace_count`, `Adapton.TrieM.find_absent`, `Adapton.TrieM.find_iff`, `Adapton.TrieM.find_placed`, `Adapton.TrieM.mem_placed`, `Adapton.TrieM.split_atomic_leaf`, `Adapton.TrieProg.C80_answers`, `Adapton.TrieProg.C80_trie_fold_of_empty_never_returns`, `Adapton.TrieProg.C80_trie_session`, `Adapton.TrieProg.C88_tries`, `Adapton.TrieProg.C99_off_the_way_runs_nothing`, `Adapton.TrieProg.C99_rerun_iff_on_the_way`, `Adapton.UserEq.C60_right_up_to_equality`

## 7. Wrong programs

`seeded/LOG.jsonl` records every edit of the model that was tried, the theorems that failed and the theorems that were tightened or added because an edit survived.
