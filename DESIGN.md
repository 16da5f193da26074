# A Lean 4 model of udoprog/syntree, and what is proved about it

## 1. Layers

| layer | files | content |
|---|---|---|
| model | `lean/Verif/Model/*.lean` | executable transcription of `/repo/src`, function by function, every definition citing file and lines |
| specification | `lean/Verif/Spec/*.lean` | small, pointer-free specification: forests (nested lists), layout of spans, nested-list builder |
| proofs | `lean/Verif/Proof/*.lean` | invariants, refinement, helper lemmas |
| properties | `lean/Verif/Props/*.lean` | one theorem (or a few) per property `Cnn` of `properties.jsonl`, each followed by an `example` that meets its hypotheses; also the counterexample theorems for properties the code violates |

### Representation choices (simplifications)

* A pointer (`NonZero` wrapper, `src/pointer.rs`) is represented in the tree model by the
  value of its `get()`. `Model/Pointer.lean` models the real representation (wrapping add,
  non-zero check) and proves that `get` is injective and that `new v` succeeds iff
  `v < 2^w - 1`; the tree model calls `Ptr.new` through that model.
* The `Index` trait is sealed with implementors `u32`, `usize`, `Empty`. An index is a `Nat`
  plus the flavor's `IndexKind` (`bits w` or `empty`); `checked_add_len` is bounded by `2^w`.
  Lengths (`usize`) are unbounded `Nat` (a superset of the real inputs).
* `Vec<Links>` is a `List Links`; `&mut` becomes returning the new value; a method that can
  fail after partial mutation returns the mutated builder *and* the error.
* `Checkpoint` is `Rc<Cell<(node, parent)>>`: a heap `List Cell` of cells, a checkpoint is a
  cell number, so aliasing (caching in `Builder::checkpoint`, clones) is modelled.
* `while`/`loop` in the code takes a fuel argument derived from the number of nodes; running
  out of fuel is an explicit outcome (`diverge`), and is proved not to happen.
* Node storage is `Vec`, index storage `Vec` or `EmptyVec` (node storage that keeps nothing, which is what
  the crate uses without its feature `alloc`, is in `Model/Storeless.lean`, C90): `Error::Flavor(_)` is `Infallible` for every
  flavor the `flavor!` macro can make. Allocation failure is not modelled. Hand-written flavors whose
  storage can fail are modelled separately (`Model/Fault.lean`, C63–C66), on the assumption that a
  failing `push` leaves the stored elements alone.
* `isize` depth in `WalkEvents` is an unbounded `Int` in `Model/Node.lean`; `Model/Depth.lean` models it as a machine integer, and C75 shows that the two agree on every tree a program can get hold of.
* `FnMut` predicates (`find_preceding`, `find`) are pure functions in `Model/Node.lean`; `Model/Asking.lean` models them with state (C85).
* `PartialEq` of the values is a decidable equality in `Model/Node.lean`; `Model/Comparing.lean` models it as any function, with state (C94).
* `slice::binary_search_by` is external: theorems hold for *every* function meeting its
  documented contract on sorted input; one implementation is given and proved to meet it.
* `str` is a list of `Char` with UTF-8 byte offsets (`Model/Text.lean`); `char::is_whitespace`,
  `str::parse::<i64>`, and the checked `i64` operations are given by their documentation.
* `fmt` output is modelled as strings built from abstract `Debug`/`Display` functions; what
  `core::fmt` writes for `debug_struct`, `debug_tuple`, `debug_list` is defined in `Model/Debug.lean`.
  In `Model/Print.lean` writing succeeds and formatting width is unbounded; `Model/Writing.lean` models
  `print` with any writer and with a limit on the width (recent versions of `core::fmt` panic for widths
  above 65535, which `print` reaches at depth 32768) (C95).

### Not modelled

Memory layout (a node *is* its index in the model; that the `unsafe` pointer subtraction in `Node::id`
gives this index is C45, with addresses as numbers, and C96 for any storage), allocation (but for
`Tree::capacity`, C100), the capacity of the index, the `Hash` impls of `Event` and `Empty` (those of spans and pointers are C102), trait plumbing
(`Clone` of iterators), the parsing of expressions inside `tree!` (opaque tokens; which rule of the macro matches is modelled, C74),
panics inside user-supplied closures, the measuring in `benches`. Of `examples/calculator`,
`examples/math.rs` and `examples/synthetic_strings.rs`: the command line, the printing of trees and
results, and how large a stack is (how deep the calculator recurses is C99; that a machine has that
many frames is not). The other examples are fixed programs without input.

## 2. Trusted base

* Lean 4.33.0 kernel; axioms `propext`, `Classical.choice`, `Quot.sound` at most (checked with
  `#print axioms`; see section 5). No own axioms, no `native_decide`, no `bv_decide`.
* The reading of the Rust source that the model records. The code was not run. As a check of that
  reading, `lean/Verif/Check/Docs.lean` transcribes the assertions of the documentation examples of
  `src/`, of `tests/` and the listings in `src/lib.rs` and `src/print.rs` (286 `example`s) and runs
  them on the model: all hold. These are tests of the model, they carry no claim. They agree with
  the listing in `src/lib.rs:41` character for character; in the listing at `src/lib.rs:272` the
  variant that `examples/synthetic_strings.rs` calls `Literal` is printed as `Lit`.

## 3. The central refinement

`Spec` describes a builder as a zipper of forests: the children added so far to the node being
built, and for each enclosing open node its label and its left siblings. A checkpoint is
`(parent, position in the child list)`. The representation predicate `Rep` says that the link
table of the model is *exactly* the table determined by that zipper (all of data, span, parent,
prev, next, first, last). `Rep` holds initially and is preserved by all ten builder
methods for live checkpoints; results agree. Everything about walking, children, spans, equality,
range queries and editing is then proved from `Rep` on the final forest.

A second, independent invariant (`next` strictly increasing, open nodes form a decreasing chain)
is preserved by arbitrary use of arbitrary checkpoints and gives termination and balance (C05, C28).

## 4. Plan per property

| id | how |
|---|---|
| C01 | emit the calls for a forest, induction on the forest through the refinement |
| C02, C03, C04, C21, C22, C24 | refinement `Rep` by induction over the history |
| C05, C28 | universal invariant over worlds of several builders with a shared heap of cells |
| C06-C11 | from `Rep`: `Yields` (iterator yields exactly this list and then ends) by induction on the forest |
| C12-C17 | from `Rep`; C13/C14 need the `last` link: after a wrapping `close_at` it is stale. `Spec/Last.lean` says from the tree alone which node `last()` then returns (`Forest.lastSeen`), `C14_last_exact`, `C14_last_iff` and `C13_double_ended_iff` prove it for every tree (counterexamples to the plain claims are proved too), so partial |
| C18, C19 | for arbitrary iterators / arbitrary link tables; C18 also for any sequence of `next`, `next_back`, `find`, `rfind` calls (`Spec/Finds.lean`, `Props/SkipEnds.lean`) |
| C20 | from `Rep`, characterisation by recursion over the path; for trees made with misused checkpoints (`C20_any_tree`) from the loops alone, once they are known to end (C49) |
| C22, C23 (every history) | `Proof/Frames.lean`: an invariant of the shared cells over every history of one builder with any misuse: a checkpoint of a level still being built stands for a node of this level, or for one whose parent exists and is not open. Hence a checkpoint of another level is always rejected (`C22_any_history`), and one rejected on its own level is rejected for good (`C23_spent`) |
| C23 | violated by the code (swallowed checkpoint): negation proved by a concrete history; partial positive theorem is C22 |
| C25 | proved for every error except pointer exhaustion in `token` and `MissingNode`; negation proved for these, with the exact effect of every failed call in every program (`C25_failed_call_exact_partial`) |
| C26, C27, C45 | arithmetic + refinement |
| C29-C32 | spec-level invariant: spans = `layout` of the token lengths; C30 by an invariant of the builder itself (`Proof/Cursor.lean`), so that it also covers misused checkpoints |
| C33 | violated (an inner span shrinks): negation proved; partial for ordered spans; the exact rule for the span of every node after every history (`C33_spans_exact`, `C33_ends_exact`, rule in `Spec/Grow.lean`) |
| C34 | arithmetic |
| C35-C37 | for every contract-satisfying binary search; C37 is violated for ranges that leave the root (negation proved), partial otherwise: `C37_contains_range_iff` says exactly when the answer contains the range (iff the outermost ancestor of the token at the start of the range does) |
| C38 | violated: negations proved. What is answered instead is proved for every modified tree (`C38_modified_exact_partial`, by an invariant on the loop of `modify`: the index lists the starts of the non-empty childless nodes) and for `token_with` histories (`C38_token_with_exact_partial`): the query goes to the first token that starts after the start of the range |
| C39 | injectivity of the depth-annotated pre-order; for any tree a program can get hold of (`C39_any_trees`) by comparing the lists the walks give |
| C40 | frame lemma |
| C41-C44 | simulation of the `modify` loop on forests; C41 spans, C42 last child, C43 are violated (negations proved); shape part and the non-last-child case proved; removals one after the other (`Props/EditRow.lean`) by composing single removals, which respect everything `modify` looks at |
| C46 | from C08 |
| C47 | instance of the refinement with the `empty` index |
| C49 | a third invariant (`Proof/Own.lean`) over worlds with arbitrary misuse: `first`/`next` alone form a forest of increasing siblings with a ghost owner, `parent` and `last` point to some node above / below; preserved by every call (`OwnWrap`, `OwnRun`); every loop of the readers decreases a measure on it (`OwnRead`) |
| C50 | the same invariant gives a nested list of `first`/`next` links, all that `modify` looks at; then the simulation of C41-C44 applies |
| C51 | rules `Edited` on nested lists, shown to be total and functional (measure: ids still to be met, then size); the machine of C41-C44 follows them step by step; `Overflow` by comparison with a flavor with more room; for any tree a program can get hold of (`C51_any_tree`) the nested list is the one seen by following `first()` and `next()` |
| C52-C55 | `examples/calculator` as a client (`Model/Calc.lean`). `Proof/Client.lean`: a client that opens, closes, adds tokens and uses its checkpoints in a nested way is simulated by a list of finished nodes and a cursor; `Proof/CalcPure.lean`: the parser on such lists (fuel bounds, tiling, tokens kept); `CalcRun`: the real parser follows it; `CalcEval`: the evaluator on nested lists, no panic because spans are token boundaries; `CalcExpr`: well-formed expressions, by induction on the fuel over the left spine |
| C56-C58 | `examples/math.rs` as a client (`Model/Math.lean`). The grammar is given as relations on lists of token kinds (`Spec/Math.lean`: `Val`, `Chain`, `Whole`, `Product`, `Sum`); `Proof/MathRun.lean`: every parser function does what its relation says, by induction on the tokens; the relations are deterministic; expressions satisfy them. The parser leaves out what follows the first complete sum (`1 2`), which C57 says explicitly |
| C59 | `examples/synthetic_strings.rs` as a client (`Model/Synth.lean`): the tokens become a flat list of leaves; the loop over `children()` reads them back; the storage by induction on the definitions. Texts of 2^32 bytes and more (C53, C55, C57, C59): the parser is run in thought with an index that is large enough, and compared with the real one step by step (`Proof/WideParse.lean`, `Proof/Large.lean`), using that the cursor only moves forward (`Proof/Cursor.lean`) |
| C60 | a program is a list of calls and replacements (`Spec/Session.lean`); it is run on the model's iterators and on a plain list, simulation by a relation "this state stands for this list" for each iterator; iterators read links only, which `replace` keeps; `C60_any_tree`: on every tree, with the lists of C49 |
| C61 | the table of values after a list of writes, by induction on the program |
| C62 | the trace of walk events from a node, cut where the depth returns to 0; `inside()` on any suffix of it |
| C63 | builder methods with storage whose `push` may fail at any attempt (`Model/Fault.lean`); each method either reports it or equals the method of the plain model; case analysis of every push |
| C64 | violated (negations proved); partial: the state after a failing call is given explicitly for every call (`StorageFailed` in `Spec/Fault.lean`) |
| C65 | violated after a refused `close_at` (negation proved); partial: simulation of the history by the history of its successful calls; when the storage is full only the calls that need no node can succeed, and these do not look at what was lost |
| C66 | the loop of `modify` with failing pushes against the loop without, by induction on the fuel; sizes only grow, so that the result fits iff every intermediate tree does |
| C67, C68 | the exact text from the walk with depths (C08, C46); then a reader: a line/entry is split at its first `@`/comma, decimal notation is injective, and the list of (depth, value, span) determines the tree (C39). Indexes are written in decimal notation; the text of a value must be `Readable` (`Spec/Output.lean`), and one line for `{:#?}` |
| C69 | `Proof/Wider.lean`: a call in two flavors of different size is compared case by case, then histories by induction; `Proof/Narrow.lean`: a history that succeeds and fits; `Proof/WiderEdit.lean`: the loops of `modify` compared step by step |
| C70 | `Proof/Final.lean`: which parts of the stored nodes each call leaves alone (values always; span and first child of every node that is nobody's parent and not open), one lemma per method; then programs with several builders by induction |
| C71 | `Proof/Subtree.lean`: in the specification, a subtree that is not on the stack of open nodes is kept by every step (invariant `Nest.Has`); transferred by the refinement to the arena; which nodes are open is read off the results of the calls (`openIds`) |
| C72 | `Spec/Context.lean` says what shifting a call, a result and a nested list means; `Proof/Context.lean` is a simulation between the run on a new builder and the run further on (invariant `Placed`), one case per call; then both sides are transferred by the refinement |
| C73 | `Spec/Loose.lean`: a second specification of the builder, where a checkpoint stands for a node and `close_at` wraps that node and its later siblings wherever they are; `Proof/Loose.lean` is the refinement (invariant `RelL`: the link table up to `last` links, `Proof/LooseTree.lean`; the shared cells, `Proof/Places.lean`); `Proof/LooseCover.lean`: it covers every history of the smaller specification. Left open by it: adding a node right after a use deep inside, which the code does wrong (`C23_fails`) |
| C74 | `Model/MacroRules.lean`: the rules of the macro on token trees, tried in order, with the three outcomes of a matcher (no match, compile error, match); `Spec/Written.lean`: how a literal is written; `Proof/Written.lean`: parsing is inverse to writing, then the three kinds of expressions that decide between the rules, then induction on the literal (and on the limit for the converse) |
| C75 | Walks and printing are modelled a second time with isize as the integers from -m to m - 1 (Model/Depth.lean). The remaining numbers of entered and left nodes bound how far the depth can go (Proof/Depth.lean); the ghost forest of owners bounds reported depths from below. |
| C76 | `Proof/Late.lean`: the calls in between are placed after the checkpoint and below the open node by C72's simulation; spans are determined by their places (`SpanInv`); afterwards the two machines differ by a renaming of finished nodes, kept by every call. |
| C77 | `Proof/Unique.lean`: a nested list determines every link of the table that represents it. |
| C78 | `Proof/Unused.lean`, `Proof/Unique.lean`: the machine without the mark runs in lockstep; the tree is determined by the nested list, the cursor and the results. |
| C79 | `Spec/Alike.lean` (`SamePlace`, `SameFound`); equal content gives one nested list of pairs (`content_zip`), places are transported along its two projections; `Edited` only looks at the content |
| C80 | invariant `OrderInv` (`Proof/Order.lean`) of the nested-list machine: ids on the path and in the current level are ascending once wrappers are left out, wrappers are younger than what they wrap |
| C81 | `Spec/Replay.lean` has the client program; its calls for a walk are those of the literal of the nested list, then C01 and C39 |
| C82 | `spelled` (Spec/Spelled.lean) writes a history out from the observed cursor. Invariant StartInv: what follows a live checkpoint on its level tiles the text from the cursor at the time of the checkpoint on; simulation at the level of the builder model: both builders have the same state up to the span and the index of the tree. |
| C83 | Forest-level layout predicate (Laid), pairwise over the document order with the ancestors of each node; Built histories are tiled (C31), results of modify by C51. |
| C84 | Model/Value.lean models the derived Ord, the hand-written PartialEq, and Error with Display, source and From; decimal notation is readable (Proof/Output); order of tokens from C83. |
| C85 | `Model/Asking.lean` passes the state of the closure through the loops; `Spec/Asking.lean` says what asking about a list of candidates means; `Proof/Asking.lean` by induction over the path and the chain of last links, and by uniqueness of places for `asked_once`; `C85_any_tree` and `C85_asked_once_any_tree` for any tree a program can get hold of, from the invariant `Own` |
| C86 | Step counts for the loops (`Model/Cost`), shown to be the least number of rounds with which the loops of the model end (`C86_counts`); amortised analysis over the nested-list machine with the potential (width of the current level + widths of the open levels), and the exact count for one call: the children of the new node, but for the first (`C86_close_at_visits`); counts of walk events from the traces of C06/C07/C11; a concrete history for the failure, and a family of histories, for every size, by induction (`C86_swallowed_is_quadratic`, `C86_no_linear_bound`); `C86_any_tree`: the bounds on walks and climbs, on every tree, from the traces of C49. |
| C87 | Measure `pending removals * nodes + nodes still ahead` on the copying machine (`run_total`), transferred to the model by `loop_spec`; step counts in `Model/Cost` shown to be the numbers of rounds (`C87_counts`); stack depth as potential for the inner loop; the lower bound by the rules of `Edited` on one node with m + 1 empty tokens and the ids m + 1, 2(m + 1), …. |
| C88 | Induction on places (`Loc`) in the nested list; what each iterator yields is C06, C09–C12, C15, C16, and the lists are unique (`Yields.det`). |
| C89 | The run of a literal from any state (`Lit.run_plain`, C01), with the checkpoint before it and `close_at` after it on the nested-list machine; the programs are shown to make the calls of a literal, by induction on the strings. |
| C90 | The builder methods are modelled once more with a flag telling if `push` keeps the node (with the flag on they are the methods of the main model, by definition); a four-field machine (`Husk`) is shown to return the same for every history by an invariant; reading a tree without nodes is by computation. |
| C91 | The rule of the macro is modelled as a matcher on the lines, its helper rules as defaults; what compiles is characterised by cases, the limits follow from C26 and C27, the last part from C90. |
| C92 | Invariant of all builder methods and of modify: every node, and the tree, has a first child if and only if it has a last one, and a tree with nodes has a first root; with the owner invariant of C49 the links are in range and go back. |
| C93 | The loop only asks if an id is registered, for ids that fit the pointer and do not exceed the number of nodes made so far; rounds beyond those needed make no difference, and modify ends (C50), so the bound on the rounds in the model does not matter. |
| C94 | Iterator::eq with an effectful comparison is modelled and shown to be a comparison of the two listings; the forest form by an induction on nested lists as for C39. |
| C95 | The loop of print_with_lookup is modelled with a writer as a state machine and the width limit of core::fmt as a parameter; induction over the walk shows that the calls are those of an inductively given writing of the lines. Depth bound from C75; sharpness with nested literals (C01). |
| C96 | A node is modelled as two addresses, and the storage as a relation saying which slices two dereferences in a row give; induction over how a node was reached. |
| C97 | On the pure evaluator of C54/C55: by induction on the recursion, the error is about an element at or below the one being evaluated, using that the spans of children tile their parent; then carried to the nodes of the tree. |
| C98 | An iterator is a state and a list of ends; what skip_tokens() takes is part of what is taken from the iterator below it (induction over the items taken). |
| C99 | Model/CalcDepth.lean gives the recursive functions a number of frames. The parser: induction with the invariant that four frames per parenthesis left, and one per level of precedence, are there; nothing adds parentheses to what is left. The tree: induction over the parser on nested lists. The bounds are reached by 1+1*1^(1+1*1^(...)). |
| C100 | `Model/Capacity.lean` follows the capacity of the nodes beside the other models, for any capacities with the documented properties of `Vec`; every call adds at most one node, every round of the loop of `modify` one; induction over histories, over the loop, and the usual potential for doubling. |
| C101 | From C35 (which node a query climbs to) and C83 (two nodes that contain an index are one above the other): a node with children that contains the range is among the ancestors of the token at its start. |
| C102 | `Model/Keys.lean`: spans over any type, with its comparisons and its hash as parameters; a hasher is a state and a function. Unfolding and case analysis on orderings. |
| C48 | violated through the shared checkpoint cell (negation proved); partial: `Proof/Clone.lean` simulates each of the two by the lone builder (cells of the lone heap are mapped injectively into the shared heap) for every interleaving in which no checkpoint is used by both and the last one from before the clone by neither (`Spec/Clone.lean`, `Proof/CloneOld.lean`); `Spec/Family.lean`, `Proof/Family.lean`: the same for whole programs with any number of builders, clones and clones of clones, by an invariant over all builders (their images in the shared heap are disjoint, and the cells cached at a clone are frozen) |

## 5. Axioms

See `lean/Verif/Axioms.lean`, which prints the axioms of every property theorem at build time.

## 6. Disagreements found between documentation and code

All found by failing to prove the property; each is exhibited by a theorem on the model.

| what | theorem |
|---|---|
| `close_at` never updates the tree's `last`, and the parent's `last` only if one node is wrapped: `Tree::last`, `Node::last` and `children().next_back()` are wrong afterwards | `C13_fails_after_close_at`, `C14_fails_after_close_at` |
| a checkpoint whose position has been swallowed by another `close_at` is accepted and damages the tree | `C23_fails`, `C23_swallowed_is_accepted` |
| `token` with all pointers used up fails but has advanced the cursor and the tree's span | `C25_fails_token` |
| `close_at` with a foreign checkpoint fails with `MissingNode` after inserting a node, and the node added next is not linked | `C25_fails_foreign`, `C25_fails_foreign_unlinks` |
| `open_with`/`token_with` can shrink the span of an enclosing node, or make it end before it starts | `C33_fails` |
| `node_with_range` may return a node that does not contain the range | `C37_fails` |
| `token_with` and `modify` enter nodes into the span index under another key than `token` does, so range queries miss them | `C38_fails_token_with`, `C38_fails_modify` |
| a modified inner node ends at the *start* of its last inner child, so a `modify` without changes is not the identity | `C41_fails` |
| removing a last child that is not a root emits its parent a second time | `C42_fails_last_child` |
| removals are looked up by the ids of the *output*: with several removals, or after `close_at`, the wrong nodes are removed | `C42_fails_after_close_at`, `C43_fails` |
| the calculator example cannot evaluate a parenthesis that starts with whitespace, or with a parenthesis that encloses all of its content (`eval_node` takes the first child of a group, token or not) | `C54_fails` |
| the calculator reports `i64::MIN / -1` as a division by zero | `C54_power_and_division` |
| a cloned builder shares the cached checkpoint with the original | `C48_fails_shared_checkpoint`, `C48_fails_old_checkpoint`, `C48_fails_common_checkpoint` |
| after `next()` on the walk of a childless node, `inside()` walks the next sibling: it stops when the depth *returns* to 0, and the depth never left it | `C62_fails`, `C62_childless_exact` |
| if the storage refuses a node, the builder has already forgotten the previous sibling: the node added next is stored but unreachable | `C64_fails_next_node_is_lost` |
| if the storage refuses the node of a `close_at`, all links to it have been made already: nodes become unreachable, and later calls can close a circle of links on which a walk never ends | `C64_fails_close_at`, `C64_fails_cycle`, `C65_fails_after_close_at` |
| a token that the storage refuses is counted in the span of the tree | `C65_fails_span` |
| `modify` can multiply a tree: `m` removals of nodes make up to `m + 1` copies of what follows, because the parent of a removed last child is emitted again, and its children with it | `C87_growth_is_reached` |
| `flavor!` accepts `type Storage = ..` and ignores it: the expansion uses `Vec` (`EmptyVec` without the feature `alloc`), so other storage needs a handwritten `Flavor` impl | `C91_storage_ignored` |
| without the feature `alloc` the builder is available and accepts nodes, but keeps none of them: only `close` reports that something is missing, and a tree of tokens is silently empty | `C90_nothing_kept`, `C90_close_fails`, `C90_literals` |
| the doc of `Node::walk` says "Walk the subtree forward starting with the first child of the current node"; it starts with the node itself, and goes on behind the subtree to the end of the document | `C09_node_walk_is_suffix` |
| after misuse of checkpoints a next sibling or a last child can name another parent than the node it was reached from | `C92_parents_differ` |
| `print` panics inside `core::fmt` (of recent versions of the standard library) on a tree with a node at depth 32768 or deeper, although it returns a `Result`: the indentation is passed as a width | `C95_depth`, `C95_bound_sharp` |
| `Tree::get` dereferences the storage twice, and `Node::id` relies without a check on both slices being the same; `Storage` is a safe trait, so a handwritten storage can cause undefined behavior | `C96_two_slices_fails` |
