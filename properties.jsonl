{"id": "C01", "title": "Literal round trip", "statement": "Building a nested literal by calling open / token / token_empty / close in document order (what the tree! macro expands to) succeeds and yields a tree whose walk with depths is exactly the literal: same nesting, same order, same values, and the spans obtained by laying the token lengths end to end.", "quantifier": "every finite forest of nodes and tokens of any shape, depth and size that fits the flavor's pointer and index capacity", "why_tests_cant": "trees are unbounded in depth and width; tests only try a handful of literals, and they compare against trees built through the same macro", "anchors": ["src/builder.rs: Builder::open, close, token, token_empty, build", "src/macros.rs: tree!"]}
{"id": "C02", "title": "Builder histories refine nested lists", "statement": "For every history of open, close, token, token_empty, checkpoint and close_at calls, in which no checkpoint is used after an earlier-positioned checkpoint of the same parent has swallowed it, every call returns what a simple nested-list model returns (same id or same error), and the built tree is the nested list: open/close nest, token appends a leaf, close_at wraps everything appended to the current parent since the checkpoint.", "quantifier": "all finite call histories, including failing calls, and any number of checkpoints", "why_tests_cant": "the number of interleavings of opens, closes and checkpoints is infinite; pointer-surgery bugs need specific interleavings", "anchors": ["src/builder.rs: Builder", "src/builder/checkpoint.rs: Checkpoint"]}
{"id": "C03", "title": "Explicit-span histories refine nested lists", "statement": "The same refinement holds when the history also contains open_with, token_with, close_at_with and set_cursor: nesting, order, values, ids and errors are those of the nested-list model and every node carries the span given by the per-call span rules.", "quantifier": "all finite call histories over all ten builder methods with live checkpoints and arbitrary explicit spans", "why_tests_cant": "mixing of cursor-driven and explicit-span calls has unboundedly many interleavings", "anchors": ["src/builder.rs: open_with, token_with, close_at_with, set_cursor"]}
{"id": "C04", "title": "Ids are dense, stable and resolvable", "statement": "The k-th node created by a builder (by open*, token*, or close_at*) is returned id k; in the built tree len() is the number of successful creating calls, get(id) of every returned id yields a node with the data passed to that call, and node.id() is that id.", "quantifier": "all histories with live checkpoints, all created nodes", "why_tests_cant": "an id may be invalidated by later surgery at any distance in the history", "anchors": ["src/builder.rs: insert, close_at", "src/tree.rs: get, len", "src/node/node_impl.rs: id"]}
{"id": "C05", "title": "Balance is tracked exactly, even under misuse", "statement": "close fails with CloseError exactly when no opened node is still open, build fails with BuildError exactly when some opened node is still open; this holds whatever checkpoints are used, including swallowed ones and ones taken from other builders.", "quantifier": "all histories over any number of builders sharing checkpoints arbitrarily", "why_tests_cant": "misuse patterns of checkpoints are unbounded; a single corrupted parent link would break it only in long histories", "anchors": ["src/builder.rs: close, build, close_at"]}
{"id": "C06", "title": "Walk visits every node exactly once in document order", "statement": "tree.walk() terminates and yields each of the len() nodes exactly once, in pre-order of the nested list that was built.", "quantifier": "all trees from histories with live checkpoints", "why_tests_cant": "cyclic or dropped links only show for particular surgeries; exactly-once is a statement about all nodes of all trees", "anchors": ["src/node/walk.rs: Walk", "src/node/walk_events.rs: WalkEvents"]}
{"id": "C07", "title": "Walk events are a well-bracketed traversal", "statement": "tree.walk_events() yields (Next|Down, n) for each node on entry and, exactly for nodes with children, a matching (Up, n) after all of its descendants; Down is used exactly for first children, Next for everything else.", "quantifier": "all trees from histories with live checkpoints", "why_tests_cant": "bracket structure is a property of the whole event sequence of an arbitrary tree", "anchors": ["src/node/walk_events.rs: WalkEvents::next, step"]}
{"id": "C08", "title": "with_depths reports the number of ancestors", "statement": "tree.walk().with_depths() (and next_with_depth) yields each node with depth equal to its number of proper ancestors.", "quantifier": "all trees from histories with live checkpoints, all nodes", "why_tests_cant": "depth is carried incrementally across arbitrarily long up/down moves", "anchors": ["src/node/walk.rs: WithDepths::next, Walk::next_with_depth"]}
{"id": "C09", "title": "node.walk() is the rest of the document", "statement": "For every node n, n.walk() yields exactly the suffix of tree.walk() starting at n.", "quantifier": "all trees from histories with live checkpoints, all nodes n", "why_tests_cant": "start positions times tree shapes is unbounded", "anchors": ["src/node/node_impl.rs: walk", "src/node/walk.rs"]}
{"id": "C10", "title": "node.walk_from() skips exactly the subtree", "statement": "For every node n, n.walk_from() yields exactly the nodes that follow n's whole subtree in tree.walk().", "quantifier": "all trees from histories with live checkpoints, all nodes n", "why_tests_cant": "as C09", "anchors": ["src/node/node_impl.rs: walk_from"]}
{"id": "C11", "title": "inside() limits a walk to the subtree", "statement": "For every node n, n.walk().inside() yields exactly n and its descendants in pre-order, and n.walk_from().inside() yields nothing.", "quantifier": "all trees from histories with live checkpoints, all nodes n", "why_tests_cant": "termination by a depth counter must be right for every shape of subtree and its surroundings", "anchors": ["src/node/walk.rs: Inside::next"]}
{"id": "C12", "title": "children() yields exactly the children in order", "statement": "tree.children() and node.children() iterated forwards yield exactly the direct children in order and then end, also after close_at.", "quantifier": "all trees from histories with live checkpoints, all nodes", "why_tests_cant": "forward iteration is stopped by comparing with a last pointer that close_at may leave stale", "anchors": ["src/node/children.rs: Children::next"]}
{"id": "C13", "title": "children() is a proper double-ended iterator", "statement": "Any interleaving of next() and next_back() on children() hands out each direct child exactly once, from the front and the back of the child list respectively.", "quantifier": "all trees, all nodes, all finite interleavings of next and next_back", "why_tests_cant": "2^n interleavings for n children and unbounded n", "anchors": ["src/node/children.rs: next, next_back"]}
{"id": "C14", "title": "last() is the last child", "statement": "node.last() and tree.last() return the last direct child (root), that is the node that forward iteration ends with.", "quantifier": "all trees the builder can produce, all nodes", "why_tests_cant": "depends on which of unboundedly many histories produced the tree", "anchors": ["src/tree.rs: last", "src/node/node_impl.rs: last", "src/builder.rs: close_at"]}
{"id": "C15", "title": "siblings() is the node and its following siblings", "statement": "n.siblings() yields n and then exactly the following siblings in order.", "quantifier": "all trees from histories with live checkpoints, all nodes", "why_tests_cant": "unbounded shapes and positions", "anchors": ["src/node/siblings.rs"]}
{"id": "C16", "title": "ancestors() is the path to the root", "statement": "n.ancestors() yields n, its parent, and so on up to the root that contains n, and terminates.", "quantifier": "all trees from histories with live checkpoints, all nodes", "why_tests_cant": "termination of parent chains after arbitrary surgery", "anchors": ["src/node/ancestors.rs"]}
{"id": "C17", "title": "Navigation links are mutually inverse", "statement": "next and prev are inverse; the parent of every child of n is n; first() is the first element of children(); a node has a first child iff has_children(); roots have no parent; siblings share a parent.", "quantifier": "all trees from histories with live checkpoints, all nodes", "why_tests_cant": "global consistency of five links per node under arbitrary surgery", "anchors": ["src/node/node_impl.rs: parent, prev, next, first, has_children, is_empty"]}
{"id": "C18", "title": "skip_tokens and next_node filter exactly the childless nodes", "statement": "skip_tokens() on walk, children, siblings and ancestors, and repeated next_node(), yield exactly the items of the underlying iterator that have children, in the same order; find / rfind on it behave like find / rfind on the filtered sequence, also when next, next_back, find and rfind are called again and again in any order: each call works on what the calls before have left of the filtered sequence.", "quantifier": "all finite underlying iterators, all predicates, all sequences of calls", "why_tests_cant": "filtering interacts with overridden find/rfind for every predicate and position", "anchors": ["src/node/skip_tokens.rs", "src/node/children.rs: next_node"]}
{"id": "C19", "title": "Iterators stay finished", "statement": "Once next() on WalkEvents, Walk, WithDepths, Inside, Siblings, Ancestors or Children has returned None, it keeps returning None (FusedIterator). An iterator made by Default hands out nothing.", "quantifier": "all iterator states over arbitrary link tables, well-formed or not", "why_tests_cant": "the unsafe-to-rely-on trait promise ranges over all states", "anchors": ["src/node/*.rs: FusedIterator impls"]}
{"id": "C20", "title": "find_preceding returns the documented node", "statement": "n.find_preceding(p) climbs from n through its ancestors to the first one whose previous sibling satisfies p, then descends through last children while they satisfy p; it returns None iff no ancestor-or-self has such a previous sibling, always terminates, and the result satisfies p.", "quantifier": "all trees, all nodes, all (pure) predicates", "why_tests_cant": "predicates and shapes are unbounded", "anchors": ["src/node/node_impl.rs: find_preceding"]}
{"id": "C21", "title": "close_at wraps exactly the siblings since the checkpoint", "statement": "close_at(c, d) with a live checkpoint makes one new node with data d whose children are exactly the siblings added to the current parent since c was taken (none if nothing was added), in order and with their subtrees, ids, data and spans unchanged; earlier siblings and everything else are unchanged.", "quantifier": "all reachable builder states, all live checkpoints", "why_tests_cant": "the link surgery depends on the position of the checkpoint, first/last/prev/next neighbours and the span bookkeeping", "anchors": ["src/builder.rs: close_at, close_at_with, restructure_close_at"]}
{"id": "C22", "title": "close_at from another level is rejected", "statement": "If the node that was being built when c was taken is not the node currently being built, close_at and close_at_with return CloseAtError and change nothing.", "quantifier": "all histories, all checkpoints (live or not) of the same builder", "why_tests_cant": "ids of closed parents must never be confused with later ones over unbounded histories", "anchors": ["src/builder.rs: close_at, close_at_with"]}
{"id": "C23", "title": "A checkpoint that is no longer a sibling is rejected", "statement": "The documented contract: the checkpoint being closed must be a sibling of the node being built, otherwise CloseAtError is raised. In particular a checkpoint whose position has been swallowed by an outer close_at is rejected and the tree stays well formed.", "quantifier": "all histories, all checkpoints of the same builder", "why_tests_cant": "misuse orders are unbounded", "anchors": ["src/builder.rs: close_at documentation"]}
{"id": "C24", "title": "Checkpoints can be reused and shared", "statement": "After close_at(c, d) the checkpoint c stands for the wrapping node: closing at c again wraps that node plus what followed. Two checkpoints taken at the same position are interchangeable, in any number and order of uses.", "quantifier": "all histories, all live checkpoints, any number of re-uses", "why_tests_cant": "sharing is implemented by aliasing a mutable cell, whose correctness depends on the whole history", "anchors": ["src/builder/checkpoint.rs", "src/builder.rs: checkpoint"]}
{"id": "C25", "title": "Failed calls change nothing", "statement": "If a builder call returns an error, the builder is unchanged: same cursor, same tree, same open node.", "quantifier": "all builder states, all calls, all errors", "why_tests_cant": "error paths sit behind ?-operators after partial mutation; capacity errors need trees of 2^w nodes", "anchors": ["src/builder.rs: all methods returning Result"]}
{"id": "C26", "title": "Node capacity is exact", "statement": "With a pointer width of w bits, creating calls succeed for the first 2^w - 1 nodes and every later creating call fails with Overflow; nothing else limits the number of nodes.", "quantifier": "all widths, all histories", "why_tests_cant": "2^32 nodes cannot be built in a test", "anchors": ["src/pointer.rs", "src/builder.rs: insert, close_at, checkpoint"]}
{"id": "C27", "title": "Index overflow is detected exactly", "statement": "token(v, len) fails with Overflow without changing the builder iff cursor + len is not representable in the index type; cursor arithmetic never wraps.", "quantifier": "all index widths, cursors and lengths", "why_tests_cant": "numeric boundary over the whole domain", "anchors": ["src/index.rs: checked_add_len", "src/builder.rs: token"]}
{"id": "C28", "title": "No call loops forever or reports a spurious MissingNode", "statement": "Every builder call terminates whatever checkpoints are used, including swallowed and foreign ones; MissingNode is only ever returned by close_at / close_at_with for a foreign checkpoint lying beyond the end of the builder's nodes.", "quantifier": "all histories over any number of builders with arbitrarily mixed checkpoints", "why_tests_cant": "termination of the sibling loop depends on acyclicity of links in every reachable, even misused, state", "anchors": ["src/builder.rs: restructure_close_at, close, close_at"]}
{"id": "C29", "title": "Spans are cumulative token lengths", "statement": "With only cursor-driven calls (no explicit spans, no set_cursor), a leaf's span is start..start+len where start is the total length of the tokens before it, and every inner node's span runs from the start of its first to the end of its last descendant token.", "quantifier": "all such histories, including checkpoints", "why_tests_cant": "span of a node is updated by many later calls (insert, close, close_at)", "anchors": ["src/builder.rs: token, close, close_at, insert"]}
{"id": "C30", "title": "cursor and tree span are the total length", "statement": "With only cursor-driven calls and no pointer exhaustion, also if checkpoints are misused, *cursor() is the sum of the lengths of the tokens added so far, tree.span() is 0..sum, and no node ends beyond it.", "quantifier": "all such histories, at any moment", "why_tests_cant": "as C29", "anchors": ["src/builder.rs: cursor, token, close", "src/tree.rs: span"]}
{"id": "C31", "title": "Siblings tile their parent", "statement": "With only cursor-driven calls, start <= end for every span, each node starts where its previous sibling ends, the first child starts and the last child ends where the parent does.", "quantifier": "all such histories, all nodes", "why_tests_cant": "global geometric invariant", "anchors": ["src/builder.rs"]}
{"id": "C32", "title": "Trees are lossless", "statement": "If the lengths of the tokens add up to the length of the source, concatenating source[n.range()] over the childless nodes in walk order gives back the source.", "quantifier": "all such histories, all sources", "why_tests_cant": "the defining property of a lossless syntax tree, over all inputs", "anchors": ["src/builder.rs", "src/tree.rs", "src/span.rs: range"]}
{"id": "C33", "title": "Explicit spans are kept and parents cover their children", "statement": "A node opened with open_with(d, s) has a span covering s and covering the spans of all of its children once closed; token_with nodes keep exactly their span.", "quantifier": "all histories with explicit spans", "why_tests_cant": "interaction of insert, join and close for arbitrary span orders", "anchors": ["src/builder.rs: open_with, token_with, insert, close"]}
{"id": "C34", "title": "Span algebra", "statement": "join is commutative, associative, idempotent and the least span covering both; contains(i) iff start <= i < end; is_empty iff start = end; len is end - start, or 0 if inverted; range gives the same bounds; point(i) is empty.", "quantifier": "all spans and indexes", "why_tests_cant": "numeric laws over the whole domain", "anchors": ["src/span.rs"]}
{"id": "C35", "title": "Range queries return the nearest enclosing node", "statement": "On a tree built with cursor-driven calls, node_with_range(s..e) / node_with_span finds the token containing s and returns its closest proper ancestor that ends at or after e.", "quantifier": "all such trees, all s and e", "why_tests_cant": "binary search over an incrementally built index and a climb; all positions and shapes", "anchors": ["src/tree.rs: node_with_range, node_with_span_internal"]}
{"id": "C36", "title": "Range queries fail exactly outside the tree", "statement": "On such trees node_with_range(s..e) is None iff s is at or beyond the end of the tree (or not representable in the index type).", "quantifier": "all such trees, all s and e", "why_tests_cant": "boundary positions over all trees", "anchors": ["src/tree.rs: node_with_span_internal"]}
{"id": "C37", "title": "The node returned by a range query contains the range", "statement": "The documented contract: node_with_range returns the node which contains the entirety of the given range.", "quantifier": "all trees, all ranges", "why_tests_cant": "needs every range against every tree", "anchors": ["src/tree.rs: node_with_range, node_with_span"]}
{"id": "C38", "title": "Range queries work for every way of making a tree", "statement": "Range queries give the same answers on trees made with token_with or by ChangeSet::modify as on trees with the same nodes and spans made with token.", "quantifier": "all trees and ranges", "why_tests_cant": "the index is maintained by three different code paths", "anchors": ["src/builder.rs: token, token_with", "src/edit.rs: modify", "src/tree.rs"]}
{"id": "C39", "title": "Tree equality is equality of forests", "statement": "a == b iff both trees are the same nested list of (value, span); == is an equivalence; ids and construction order do not matter.", "quantifier": "all pairs of trees from histories with live checkpoints", "why_tests_cant": "injectivity of the depth-annotated walk over all forests", "anchors": ["src/tree.rs: PartialEq"]}
{"id": "C40", "title": "replace changes one value only", "statement": "n.replace(v) returns n's old value, afterwards n.value() is v, and every other value, span, link and traversal is unchanged.", "quantifier": "all trees, nodes, values", "why_tests_cant": "frame property over all nodes", "anchors": ["src/node/node_impl.rs: replace"]}
{"id": "C41", "title": "An empty change set is the identity", "statement": "ChangeSet::modify with no recorded change returns a tree equal to its input.", "quantifier": "all trees", "why_tests_cant": "needs all shapes; spans of outer nodes are recomputed", "anchors": ["src/edit.rs: modify, RefactorWalk"]}
{"id": "C42", "title": "Removing one node removes exactly its subtree", "statement": "With exactly one remove(n.id()) recorded, modify returns the input without n and its descendants, with the remaining tokens re-laid end to end.", "quantifier": "all trees, all nodes n", "why_tests_cant": "position of the removed node (first, middle, last, only child, root) and shape around it", "anchors": ["src/edit.rs: modify, skip_subtree"]}
{"id": "C43", "title": "Removing several nodes removes exactly their subtrees", "statement": "modify removes exactly the subtrees of the nodes whose ids were registered.", "quantifier": "all trees, all sets of nodes", "why_tests_cant": "2^n subsets", "anchors": ["src/edit.rs: remove, modify"]}
{"id": "C44", "title": "modify terminates", "statement": "ChangeSet::modify terminates for every tree and change set, with at most Overflow as error.", "quantifier": "all trees, all change sets", "why_tests_cant": "termination of a loop that can re-visit parents", "anchors": ["src/edit.rs: modify"]}
{"id": "C45", "title": "Pointers round-trip", "statement": "Pointer::new(v) is Some iff v < 2^w - 1, new(v).get() == v, distinct values give distinct pointers, the default pointer is 0, and the raw representation is never zero.", "quantifier": "all widths and values", "why_tests_cant": "2^w values", "anchors": ["src/pointer.rs"]}
{"id": "C46", "title": "print writes one line per node", "statement": "print / print_with_source write exactly one line per node in document order, indented by twice its depth, with value and span; nodes with children show no source, childless ones their source text or + if it is unavailable.", "quantifier": "all trees and sources", "why_tests_cant": "all shapes and sources", "anchors": ["src/print.rs"]}
{"id": "C47", "title": "Empty index", "statement": "With the Empty index every span is empty, token never overflows on the index, and with EmptyVec indexes range queries are always None; structure is unaffected.", "quantifier": "all histories with the Empty flavor", "why_tests_cant": "all histories", "anchors": ["src/empty.rs"]}
{"id": "C48", "title": "Cloned builders are independent", "statement": "After b2 = b.clone(), calls on one builder never influence the results of calls on the other.", "quantifier": "all histories over a builder and its clone", "why_tests_cant": "aliasing of shared mutable state", "anchors": ["src/builder.rs: Clone for Builder", "src/builder/checkpoint.rs"]}
{"id": "C49", "title": "Reading never hangs", "statement": "However checkpoints were misused (swallowed, foreign to the builder, shared by cloned builders, reused after errors), reading the resulting tree ends: walk, walk_events, with_depths, inside, children from both ends, siblings, ancestors, skip_tokens, find_preceding, range queries, printing and comparing all terminate, and a walk returns no node twice.", "quantifier": "all programs over any number of builders, followed by any edits; all nodes, predicates and ranges", "why_tests_cant": "termination for all histories of misuse", "anchors": ["src/builder.rs: close_at_with, insert", "src/node/walk_events.rs", "src/node/children.rs", "src/node/node_impl.rs", "src/tree.rs: node_with_span_internal, PartialEq", "src/print.rs"]}
{"id": "C50", "title": "modify returns a well-formed tree", "statement": "modify of any tree a program can get hold of, also one damaged by misused checkpoints, ends with Overflow or with a well-formed tree: all links agree, ids are in document order, childless nodes lie end to end, last() is right.", "quantifier": "all obtainable trees, all change sets", "why_tests_cant": "all histories and change sets", "anchors": ["src/edit.rs: modify, RefactorWalk"]}
{"id": "C51", "title": "What modify does with any set of ids", "statement": "For every tree and every change set, modify makes the one copy given by these rules: nodes are copied in document order and numbered 0, 1, 2, ...; a node whose new number is registered is left out with everything below it, and the sibling after it is copied without being looked up; if a last child is left out, the copy of its parent ends there and the parent is copied once more with all of its children after it; if a last root is left out, the copy ends. It fails with Overflow exactly if the copy does not fit.", "quantifier": "all trees, all sets of ids", "why_tests_cant": "2^n subsets per tree; interaction of several removals", "anchors": ["src/edit.rs: modify, skip_subtree, step"]}
{"id": "C52", "title": "The calculator lexer cuts every text into tokens", "statement": "For every text the lexer of examples/calculator ends; its tokens are symbols, maximal runs of whitespace, maximal runs of digits, and anything else up to the next whitespace; none is empty, their lengths add up, and their texts spell the text. There is one way only to cut a text like that.", "quantifier": "all texts (any characters, any length)", "why_tests_cant": "all strings; maximal munch and UTF-8 lengths", "anchors": ["examples/calculator/lexer.rs: Lexer"]}
{"id": "C53", "title": "Parsing with the builder is total and lossless", "statement": "The calculator parser, which drives a Builder with checkpoints through error recovery, ends without an error on every text of less than 2^32 bytes; the tree spans the whole text, nodes tile their parents, and the non-empty tokens of the tree are exactly the tokens of the text with their spans. A text of 2^32 bytes or more makes it fail with Overflow.", "quantifier": "all texts, malformed ones included", "why_tests_cant": "all strings; nesting depth and error recovery unbounded; depends on every checkpoint being used correctly", "anchors": ["examples/calculator/parsing.rs: Parser", "examples/calculator/grammar.rs: expr, root"]}
{"id": "C54", "title": "The calculator computes the value of an expression", "statement": "For every arithmetic expression, spelled with any whitespace, the program yields exactly one result: the value by precedence and left associativity in 64 bit arithmetic, or the first error (bad number, overflow, underflow, division by zero).", "quantifier": "all expressions of any size and nesting, all spellings", "why_tests_cant": "all expression trees", "anchors": ["examples/calculator/eval.rs: eval, eval_node", "examples/calculator/grammar.rs: op, expr"]}
{"id": "C55", "title": "Evaluation never panics", "statement": "Evaluating the tree of any text of less than 2^32 bytes ends without a panic (no slice outside of the text or inside of a character); every result is a number or an EvalError. For a longer text the program reports Overflow.", "quantifier": "all texts", "why_tests_cant": "all strings, including multi-byte characters and malformed input", "anchors": ["examples/calculator/eval.rs: eval_node", "examples/calculator/main.rs"]}
{"id": "C56", "title": "The lexer of the math example cuts every text into tokens", "statement": "For every text the lexer of examples/math.rs ends; its tokens are the four operators, maximal runs of whitespace, a digit with all digits and dots behind it, and anything else up to the next whitespace; none is empty and their texts spell the text. There is one way only to cut a text like that.", "quantifier": "all texts (any characters, any length)", "why_tests_cant": "all strings; maximal munch and UTF-8 lengths", "anchors": ["examples/math.rs: lexer, eat"]}
{"id": "C57", "title": "Parsing with one checkpoint per level is total and follows the grammar", "statement": "The parser of examples/math.rs, which takes one checkpoint per operator level and wraps from it as often as operators follow, ends without an error on every text of less than 2^32 bytes. The tree consists of the tokens at the front of the text that the grammar reads, exactly once each and with their spans; nodes tile their parents; the nodes are those of the (unambiguous) grammar. Tokens behind what the grammar reads are left out. On larger texts it succeeds in the same way if the tokens the grammar reads have less than 2^32 bytes, and fails with Overflow otherwise.", "quantifier": "all texts, malformed ones included", "why_tests_cant": "all strings; the same checkpoint is used for close_at any number of times", "anchors": ["examples/math.rs: Parser::handle_operation, parse_number, parse_mul, parse_add, parse", "src/builder.rs: Builder::close_at, Builder::checkpoint"]}
{"id": "C58", "title": "The math example parses expressions by precedence", "statement": "For every expression over numbers and + - * /, spelled with any whitespace, the whole text gets into the tree, and up to whitespace the tree is the syntax tree by precedence and left associativity.", "quantifier": "all expressions of any size, all spellings", "why_tests_cant": "all expression trees", "anchors": ["examples/math.rs: Parser"]}
{"id": "C59", "title": "Values put into the tree are read back", "statement": "The program examples/synthetic_strings.rs, for every list of definitions and every text of less than 2^32 bytes, ends without error or panic and writes exactly the lines called for: words and defined names in order, numbered, each with the word or with what the last definition of the name says, and an error for every other piece. With a longer text it ends with the builder's Overflow.", "quantifier": "all lists of definitions, all texts", "why_tests_cant": "all strings and all definitions; data carried in the nodes; UTF-8 boundaries", "anchors": ["examples/synthetic_strings.rs: Storage, lexer, main"]}
{"id": "C60", "title": "Iterator methods can be mixed freely", "statement": "next, next_node, find and skip_tokens().find, called in any order on one tree.walk(), node.walk(), walk().inside(), children(), siblings() or ancestors(), hand out the elements of the one list the iterator stands for, each at most once and in order, and the iterator then yields the rest; on children(), where last() is right, also mixed with next_back, rfind and their skip_tokens versions from the other end; on a walk also with next_with_depth, and with_depths() at any time yields the rest. Replacing values in between changes nothing about it.", "quantifier": "all trees from builders, edits and replacements; all finite sequences of calls", "why_tests_cant": "all interleavings of calls on all trees", "anchors": ["src/node/children.rs: Children::next, next_back, next_node", "src/node/walk.rs: Walk::next, next_with_depth, with_depths, Inside::next", "src/node/siblings.rs", "src/node/ancestors.rs", "src/node/skip_tokens.rs: SkipTokens"]}
{"id": "C61", "title": "Values replaced while iterating are seen", "statement": "A program that replaces values with Node::replace while it holds an iterator reads, from every node a later call hands out, the value it wrote last to that node, or the original one if it wrote none; spans and links of the tree never change.", "quantifier": "all trees, all iterators, all finite sequences of calls and replacements", "why_tests_cant": "all histories of writes interleaved with iteration; interior mutability", "anchors": ["src/node/node_impl.rs: Node::replace, Node::value"]}
{"id": "C62", "title": "inside() restricts a walk that has been started", "statement": "After a walk from a node has handed out part of the node's subtree, inside() yields exactly the rest of that subtree. tree.walk().inside() yields the subtree of the first root.", "quantifier": "all trees, all nodes, all numbers of nodes already handed out", "why_tests_cant": "all shapes of trees and all positions", "anchors": ["src/node/walk.rs: Walk::inside, Inside::next", "src/node/walk_events.rs: WalkEvents::next"]}
{"id": "C63", "title": "A custom storage that does not fail makes no difference", "statement": "With a flavor whose storage can fail, as long as no call has returned Error::Flavor, every call returns what it returns with Vec storage and the builder is in the same state. A call returns Error::Flavor exactly if it would add a node to the tree and the storage refuses the node or the index entry that goes with it.", "quantifier": "all histories of calls, all points at which the storage fails", "why_tests_cant": "all histories and all schedules of failures", "anchors": ["src/flavor.rs: Storage, Flavor::Error", "src/builder.rs: Builder::insert, token, token_with, close_at, close_at_with", "src/error.rs: Error::Flavor"]}
{"id": "C64", "title": "A call that fails because the storage fails leaves the builder usable", "statement": "A call that returns Error::Flavor leaves the tree, the open nodes, the position after which the next node goes, the cursor and the checkpoints as they were.", "quantifier": "all states of a builder, all calls, all points at which the storage fails", "why_tests_cant": "fault injection at every point of every history", "anchors": ["src/builder.rs: Builder::insert (sibling.take before push), token, token_with, close_at (relinking before push)"]}
{"id": "C65", "title": "Storage of fixed capacity", "statement": "If the storage holds at most n nodes (and as many index entries), then for every history the calls that succeed are exactly as if the others had not been made: same results, same nodes, same index; and a call fails with Error::Flavor exactly if it would add a node to n nodes.", "quantifier": "all histories of calls, all capacities", "why_tests_cant": "all histories and capacities", "anchors": ["src/flavor.rs: Storage", "src/builder.rs: Builder"]}
{"id": "C66", "title": "modify with storage that can fail", "statement": "ChangeSet::modify returns Error::Flavor or exactly what it returns with Vec storage. With storage of fixed capacity it succeeds exactly if the resulting tree and its index fit.", "quantifier": "all trees, all change sets, all points at which the storage fails, all capacities", "why_tests_cant": "fault injection at every point", "anchors": ["src/edit.rs: ChangeSet::modify", "src/tree.rs: Tree::with_capacity, push"]}
{"id": "C67", "title": "Printed form identifies the tree", "statement": "The text print::print writes for two trees is the same exactly if the trees are equal: nesting, values and spans can be read back from it, provided that different values have different texts without commas, at signs, line breaks and leading blanks.", "quantifier": "all pairs of trees, all values, all such ways to write a value", "why_tests_cant": "injectivity over all pairs of trees", "anchors": ["src/print.rs: print", "src/tree.rs: PartialEq for Tree"]}
{"id": "C68", "title": "Debug output lists every node and identifies the tree", "statement": "{:?} and {:#?} of a tree list all of its nodes in document order, each with its depth, value and span; two trees have the same {:?} text exactly if they are equal (for values with readable texts as in C67).", "quantifier": "all trees, all pairs of trees", "why_tests_cant": "all trees; injectivity", "anchors": ["src/tree.rs: Debug for Tree", "src/node/node_impl.rs: Debug for Node", "src/span.rs: Debug for Span"]}
{"id": "C69", "title": "A larger index or larger pointers only prevent Overflow", "statement": "Two builders whose flavors differ only in the integer type of the index or in the width of the pointers, given the same calls, return the same results and build the same tree, up to the first call that reports Overflow with the smaller flavor; and that call reports it only because the pointers are used up or the end of a token does not fit into the smaller index. If no call reports Overflow, every larger flavor gives the same tree; and a history without explicit spans that succeeds in the larger flavor succeeds in the smaller one if its text and its nodes fit. ChangeSet::modify with a smaller flavor returns what it returns with a larger one, or Overflow, and Overflow only if the text or the nodes of the result do not fit.", "quantifier": "all call histories, including misused checkpoints and failing calls; all sizes", "why_tests_cant": "all histories, and sizes (2^32 bytes, 2^64 nodes) that cannot be reached in a test", "anchors": ["src/builder.rs: Builder::token, insert, checkpoint, close_at", "src/index.rs: Index::checked_add_len", "src/pointer.rs: Width", "src/flavor.rs: Flavor", "src/edit.rs: ChangeSet::modify"]}
{"id": "C70", "title": "Values and tokens are final", "statement": "The value given to a call that succeeds in making a node (open, token, close_at and their variants) is the value of the node with the returned id ever after, also in every clone made later. A token keeps its span (from the cursor over its length, or the span given) and never gets a child, even when later calls put nodes around it, fail, or use checkpoints that belong to another builder or were swallowed.", "quantifier": "all programs with any number of builders and clones, any calls before and after, correct or not", "why_tests_cant": "quantifies over all later calls, including every misuse of checkpoints", "anchors": ["src/builder.rs: Builder::token, token_with, open, open_with, close, close_at, close_at_with, insert", "src/builder.rs: Clone for Builder"]}
{"id": "C71", "title": "Closed subtrees are final", "statement": "Once a node is no longer open, its value, its span, its children and everything below it stay the same, whatever calls follow on the builder: the finished tree has at that node exactly what a tree would have if the open nodes were closed at once. Only what is around the node can still change (close_at may put a new parent over it).", "quantifier": "all call histories with checkpoints used as documented; all continuations; all nodes", "why_tests_cant": "all pairs of a history and a continuation", "anchors": ["src/builder.rs: Builder::close, close_at, token, open, checkpoint", "src/node/node_impl.rs: Node::children, walk, span, value"]}
{"id": "C72", "title": "Calls build the same in any context", "statement": "A sequence of calls that succeeds on a new builder and closes every node it opens (a parsing function) does the same after any other calls, as long as there is room: it returns the same ids and checkpoints counted from those already there, advances the cursor by the same amount, leaves the same node open, and puts the same nested list, with ids and positions shifted, behind what the innermost open node has so far. Nodes around it stay, only the span of the innermost open one can grow.", "quantifier": "all pairs of a history and a balanced sequence of calls without explicit spans", "why_tests_cant": "all contexts and all parsing functions", "anchors": ["src/builder.rs: Builder::open, close, token, checkpoint, close_at, cursor", "src/builder/checkpoint.rs: Checkpoint"]}
{"id": "C73", "title": "What close_at does with any checkpoint of its builder", "statement": "A checkpoint of a builder stands for a place in what is being built, also after other uses of checkpoints have moved that place deeper: close_at either fails because another node is being built than the place belongs to, or puts a new node exactly where the checkpoint's node is, with that node and all siblings after it as its children; everything else stays where it was. All calls return what this says, build() succeeds if and only if no node is open, and all reads of the tree agree with the nested list.", "quantifier": "all histories of one builder that use any of its checkpoints any number of times, as long as no node is added between a use deep inside and the next close or use on the current level", "why_tests_cant": "all histories, with every way that checkpoints can swallow each other", "anchors": ["src/builder.rs: Builder::checkpoint, close_at, close_at_with", "src/builder/checkpoint.rs: Checkpoint"]}
{"id": "C74", "title": "Literals are read as written", "statement": "Inside tree! and tree_with!, items written as `expr`, `(expr, len)`, `(expr, (start, end))`, `expr => { .. }` and `(expr, (start, end)) => { .. }`, separated by commas and with or without a comma at the end of each list, stand for token_empty, token, token_with, open .. close and open_with .. close in the order written. The reading is unique, except that a value or length that is itself written as a pair is read as the longer form. Nothing else compiles, and the number of nested macro expansions needed is the number of items before, plus one for every level.", "quantifier": "all sequences of token trees, all limits on nested expansions", "why_tests_cant": "ten overlapping rules tried in order on unboundedly long and deep input", "anchors": ["src/macros.rs: tree!, tree_with!"]}
{"id": "C75", "title": "Depth arithmetic never overflows", "statement": "On every tree a program can get hold of, the checked isize additions of a walk never fail, so no walk (walk, walk_events, with_depths, inside; from the tree, from a node, or with walk_from) ends early because of them; tree.walk().with_depths() reports depths from 0 to len - 1 and node walks depths between -len and len, so print's (depth * 2) as usize neither overflows nor turns a negative depth into a huge indentation; and tree.first() has no parent and no previous node.", "quantifier": "all trees obtainable by any use of builders, checkpoints (foreign and swallowed ones included), replace and modify; all nodes; all widths of isize with len below -isize::MIN (for print without overflow checks; 2 * len at most -isize::MIN for print with overflow checks)", "why_tests_cant": "An overflow needs a tree deeper than isize::MAX; and whether depths can go below zero depends on every way of misusing checkpoints to make links that disagree.", "anchors": ["src/node/walk_events.rs: WalkEvents::step, WalkEvents::next", "src/node/walk.rs: Walk, WithDepths, Inside", "src/print.rs: print_with_lookup", "src/tree.rs: Tree::first, Tree::walk"]}
{"id": "C76", "title": "Deciding late makes no difference", "statement": "A parser that takes a checkpoint, makes some calls that are complete in themselves (they succeed, use no explicit spans and close what they open) and then puts a node around what they added with close_at builds the same tree as one that opens the node before these calls and closes it after them: one of the two histories builds a tree exactly if the other does, the trees are equal, every later call returns the same result and the cursor is the same. Only the ids of the nodes that were wrapped differ, by one.", "quantifier": "all flavors, all histories before without explicit spans, all complete histories in between, all later calls that do not use the checkpoints taken in between, if there is room for one more node", "why_tests_cant": "It compares two infinite families of call histories; whether links, spans, checkpoints taken earlier and ids agree depends on everything before and after.", "anchors": ["src/builder.rs: Builder::checkpoint, Builder::close_at, Builder::open, Builder::close"]}
{"id": "C77", "title": "A tree is determined by what a walk lists", "statement": "If walking over two trees, made in any way (builder, modify, replace), lists the same nodes with the same depths, ids, values and spans, then every navigation method returns the same for every id of both trees, and the child iterators give the same from both ends in any order; even what last() returns, which may be out of date after close_at.", "quantifier": "all pairs of trees made by builders, modify and replace, all flavors", "why_tests_cant": "Two trees with the same listing may have been made by entirely different histories; that no link remembers the difference must hold for all of them.", "anchors": ["src/links.rs: Links", "src/tree.rs: Tree", "src/node.rs: Node", "src/builder.rs: Builder::close_at"]}
{"id": "C78", "title": "An unused checkpoint makes no difference", "statement": "Taking a checkpoint that is never used changes nothing: the history with that call left out builds a tree exactly if the history with it does, it is the same tree in every detail (links, ids, spans, index), and all other calls return the same.", "quantifier": "all flavors, all histories and positions of the call, all later calls that do not use the checkpoint; checkpoint() must not have failed for lack of pointers", "why_tests_cant": "checkpoint() changes the shared state of the builder (the cached checkpoint, its cell), which every later checkpoint and close_at uses; the claim ranges over all continuations.", "anchors": ["src/builder.rs: Builder::checkpoint, Builder::close_at", "src/builder/checkpoint.rs: Checkpoint"]}
{"id": "C79", "title": "Equal trees behave alike", "statement": "If two trees compare equal with ==, then, whatever calls made them and however their nodes are numbered: walks over them have the same length, and the nodes at the same position have the same value and span, both have children or neither, and parent(), prev(), next() and first() lead to the same position; print and print_with_source write the same; modify with the same change set fails for both or returns trees that list the very same nodes with the same ids; replacing the value at the same position keeps them equal; and, if only the cursor placed the nodes and no token was lost, every range query finds the node at the same position in both. (last() and range queries on other trees are excepted: C14, C38.)", "quantifier": "all pairs of equal trees from any builder history, modify or replace, all change sets, positions, queries", "why_tests_cant": "tests compare a few pairs of trees; the claim is about every pair of different histories with equal results and every later operation", "anchors": ["src/tree.rs: impl PartialEq for Tree", "src/edit.rs: ChangeSet::modify", "src/print.rs: print_with_lookup", "src/node/node_impl.rs: Node::parent, prev, next, first, replace", "src/tree.rs: Tree::node_with_range"]}
{"id": "C80", "title": "Ids and document order", "statement": "A walk over a tree visits the nodes that were not made by close_at or close_at_with by ascending id; a node is younger (has a larger id) than the nodes above it, except that a node made by close_at or close_at_with is younger than everything below it. Without checkpoints, and for every literal and every result of modify, the ids are the positions in the document.", "quantifier": "all call histories including failed calls, all literals, all change sets", "why_tests_cant": "the interleavings of nesting and wrapping are unbounded; tests look at a few", "anchors": ["src/builder.rs: Builder::open, token, close_at", "src/tree.rs: Tree::walk", "src/edit.rs: ChangeSet::modify", "src/macros.rs: tree!"]}
{"id": "C81", "title": "A tree can be rebuilt from a walk over its events", "statement": "Calling, for each event of walk_events(), open (node with children) or token (node without) when a node is entered and close when it is left, on a new builder of any flavor: if the nodes and the text fit the flavor, no call fails and build returns a tree with the same nesting, order and values, ids in document order and tokens laid end to end; otherwise a call fails with Overflow. If only the cursor placed the nodes of the tree and no token was lost, the rebuilt tree is equal to it.", "quantifier": "all trees from any builder history, modify or replace, all flavors of the new builder", "why_tests_cant": "needs all trees of any shape and size; it is the agreement of the traversal with the builder", "anchors": ["src/node/walk_events.rs: WalkEvents::next", "src/builder.rs: Builder::open, token, close, build", "src/tree.rs: Tree::walk_events"]}
{"id": "C82", "title": "Cursor-driven calls are shorthands for explicit spans", "statement": "A client who reads cursor() before every call and writes the spans out (open(d) as open_with(d, c..c), token(d, len) as token_with(d, c..c+len), token_empty(d) as token_with(d, c..c), close_at(k, d) as close_at_with(k, d, s..c) where s was the cursor when the checkpoint was taken) gets, as long as no call reports Overflow, the same results call by call, the same cursor, and from build() the same error or a tree with the very same nodes, links, values and spans; the trees are equal. Only tree.span(), which stays 0..0, and lookups by range differ.", "quantifier": "all histories of calls without explicit spans that use no swallowed checkpoint and in which no call reports Overflow, all values, lengths and flavors", "why_tests_cant": "the span close_at computes from links must be the one between two cursor positions after every possible history in between, including nested wraps", "anchors": ["src/builder.rs: open, open_with, token, token_with, token_empty, close_at, close_at_with, cursor"]}
{"id": "C83", "title": "Spans are nested like the nodes", "statement": "If only the cursor placed the nodes, then for any two nodes, the first one visited earlier by a walk: either the first one is an ancestor of the second one and its span covers that of the second one, or its span ends at or before the start of the span of the second one. So two different nodes that contain a common index are one above the other. In every tree returned by modify a node starts at or before the start of the nodes below it and ends at or before the start of the later nodes that are not below it (but it may end before the nodes below it do).", "quantifier": "all histories of calls without explicit spans in which no token was lost for want of pointers, all pairs of nodes; all results of modify on any tree", "why_tests_cant": "a statement about every pair of nodes of every tree, whatever checkpoints were used", "anchors": ["src/builder.rs: Builder::token, close, close_at", "src/edit.rs: ChangeSet::modify", "src/node/node_impl.rs: Node::span, ancestors"]}
{"id": "C84", "title": "Comparing and showing spans and errors", "statement": "Span == is equality of both ends; Ord is the total order by start, then end, consistent with ==; {} and {:?} give different texts for different spans. A walk over a cursor-driven tree visits the childless nodes in the order of their spans, strictly ascending for those that are not empty. The message of every error of the library tells which error it is and, for MissingNode, which node; an error of the flavor is shown as it is and is what source() returns.", "quantifier": "all spans, all errors and flavor error types, all cursor-driven histories", "why_tests_cant": "all values of 64 bit ends; the order of tokens is about every history", "anchors": ["src/span.rs: Span, impl PartialEq, Display, Debug", "src/error.rs: Error, Display, source, From"]}
{"id": "C85", "title": "What a predicate is asked", "statement": "A predicate passed to find_preceding may remember what it was asked (FnMut). It is asked about the previous siblings of the node and of its ancestors, from the node upwards, until it accepts one, then about what is reached from that one through last(), until it refuses one; the answer is the last node it accepted, and it is asked about no node twice. A predicate passed to find or rfind of skip_tokens() is asked only about nodes with children, in the order of the iterator, until it accepts one; the iterator then goes on after that one, and is used up if none was accepted.", "quantifier": "every tree, every node, every predicate with any memory, every iterator and every state of it", "why_tests_cant": "the closure and its memory are arbitrary code of the user; tests use a few closures without state on a few trees", "anchors": ["src/node/node_impl.rs: Node::find_preceding", "src/node/skip_tokens.rs: SkipTokens::find, SkipTokens::rfind"]}
{"id": "C86", "title": "What building, walking and querying cost", "statement": "Building a tree takes time linear in its size: over any history of builder calls that does not use a checkpoint swallowed by an earlier close_at, all close_at and close_at_with calls together visit no more siblings than there are nodes in the end (and the other calls do no loops at all). A complete walk with the call that ends it takes one lookup per node, one more per node with children, and one; node.walk().inside() takes at most twice the number of nodes of the subtree, whatever the rest of the tree is; a range query climbs no further than the ancestors of the node the index names. With swallowed checkpoints building is not linear: m tokens, each with a checkpoint of its own, wrapped by using the checkpoints in order, cost 0 + 1 + ... + (m - 1) visits for 2m nodes, so no constant factor bounds the visits by the number of nodes; but they never take more than the number of calls of close_at times the number of nodes (and one).", "quantifier": "every history of builder calls (any number, mix and outcome) without swallowed checkpoints; every tree made by a builder, modify or replace; every node; every range", "why_tests_cant": "The bound is amortised over whole histories and must hold for every interleaving of checkpoints and wrappers and every tree size; a benchmark measures a few shapes.", "anchors": ["src/builder.rs:Builder::close_at", "src/builder.rs:Builder::close_at_with", "src/builder.rs:restructure_close_at", "src/node/walk.rs:Walk::next", "src/node/walk.rs:Inside::next", "src/tree.rs:Tree::node_with_span_internal"]}
{"id": "C87", "title": "How large the result of an edit can get, and how long it takes", "statement": "For every tree a program can get hold of and every change set with k distinct registered ids, if ChangeSet::modify returns a tree then it has at most (k + 1) times as many nodes as the input; with no id registered, never more than the input. The main loop of modify runs at most (k + 1) * len() + 1 times, whether it succeeds or not, and the inner loop that goes back up never takes more rounds than that in total. The bound is (almost) reached: for all m and k there are a tree of m + 2 nodes and k ids to remove such that the result has (k + 1) * (m + 1) + 1 nodes - 'removing' nodes can multiply a tree.", "quantifier": "every tree obtained through the API (builder with any history, modify, replaced values), every change set; for the lower bound all m and k that fit the flavor", "why_tests_cant": "Bounds over all trees and change sets, and a family of inputs without limit; a test sees one tree and one change set.", "anchors": ["src/edit.rs:ChangeSet::modify", "src/edit.rs:RefactorWalk::step", "src/edit.rs:RefactorWalk::skip_subtree"]}
{"id": "C88", "title": "Walks are put together from subtrees", "statement": "On every tree: concatenating child.walk().inside() over tree.children() gives tree.walk(); n.walk().inside() is n followed by the concatenation of c.walk().inside() over n.children(); n.walk() is n.walk().inside() followed by n.walk_from(); n.walk_from() is the concatenation of the subtrees of the later siblings of n, then of the later siblings of its parent, and so on along n.ancestors(); and a node is visited by n.walk().inside() exactly if n is among its ancestors() (which include the node itself).", "quantifier": "every tree made by the builder, the macros or modify, every node of it", "why_tests_cant": "Relates five iterators on every node of every tree; tests/walk_trees.rs checks one of the equations on two trees.", "anchors": ["src/node/walk.rs:Walk::inside", "src/node/node_impl.rs:Node::walk", "src/node/node_impl.rs:Node::walk_from", "src/node/children.rs:Children::next", "src/node/siblings.rs:Siblings::next", "src/node/ancestors.rs:Ancestors::next", "src/tree.rs:Tree::walk", "tests/walk_trees.rs"]}
{"id": "C89", "title": "A checkpoint around a whole program", "statement": "let c = b.checkpoint()?; followed by the calls of any literal without explicit spans; b.close_at(&c, root)?; b.build(): succeeds exactly if there are pointers for one node more than the literal has and the text is addressable, and then the tree is the literal inside of one root, which has the last id and spans the whole text; otherwise the result is Error::Overflow. In particular the two programs of benches/comparisons.rs, for every list of strings, every size and every flavor: syntree_build gives a root over one token per string taken from the cycled strings, with cumulative spans; syntree_tree gives a root over an entry with one token and a whitespace token per string, root.children() has 2 n items and root.children().skip_tokens() n.", "quantifier": "every literal without explicit spans, every list of strings (also empty, also with empty strings), every size, every flavor", "why_tests_cant": "The benchmarks run five sizes on one random list and check nothing about the result; sizes, strings and flavors are unlimited, and the thresholds for Overflow depend on all of them.", "anchors": ["benches/comparisons.rs:syntree_build", "benches/comparisons.rs:syntree_tree", "src/builder.rs:Builder::checkpoint", "src/builder.rs:Builder::close_at", "src/builder.rs:Builder::token", "src/node/skip_tokens.rs:SkipTokens::next"]}
{"id": "C90", "title": "Without the feature alloc nothing is kept", "statement": "With EmptyVec as node storage (what flavor! and FlavorDefault use if the crate is built without its feature alloc) every creating call succeeds, returns id 0 and keeps nothing, token moves the cursor and is refused with Overflow as usual, close never succeeds (MissingNode(0) if a node is open, CloseError otherwise, and no node is open afterwards), close_at succeeds exactly if a node is open now iff one was open when the checkpoint was taken, build fails exactly if a node is open. Whatever was added, the tree has len() 0, no node can be read from it in any way, any two such trees are equal and modify gives the empty tree; cursor and span are those of the text, as with Vec. tree! fails with MissingNode(0) for a literal with a node with children and gives the tree without nodes otherwise.", "quantifier": "all histories of builder calls with any use of checkpoints, all literals, all flavors", "why_tests_cant": "The tests and documentation examples are run with the default features only; what every sequence of calls returns without them cannot be listed.", "anchors": ["src/empty.rs:EmptyVec", "src/lib.rs:macro_support", "src/flavor.rs:flavor", "src/builder.rs:Builder", "src/tree.rs:Tree", "src/macros.rs:tree"]}
{"id": "C91", "title": "Flavors declared with flavor!", "statement": "A declaration compiles exactly if it gives type Index first (u32, usize or Empty), followed by any of type Width (an unsigned integer type), type Storage (anything) and type Indexes (Vec or EmptyVec), in this order; Width defaults to usize, Indexes to Vec (EmptyVec without the feature alloc), and Storage has no effect at all. A tree of the declared flavor holds exactly 2^bits - 1 nodes for the width declared, and text up to the largest value of the index declared; beyond that the calls fail with Overflow. Without the feature alloc no declared flavor keeps a node.", "quantifier": "all declarations (lists of lines with any names and types), word sizes, features, and all histories of calls on a builder of the declared flavor", "why_tests_cant": "The tests declare a handful of flavors; the declarations and the histories on their builders are unlimited.", "anchors": ["src/flavor.rs:flavor", "src/flavor.rs:FlavorDefault", "src/lib.rs:macro_support", "src/pointer.rs:Width", "src/index.rs:Index"]}
{"id": "C92", "title": "Emptiness is consistent, and links go back, on every tree", "statement": "On every tree a program can get hold of, however checkpoints have been misused, is_empty() is true exactly if len() is 0, exactly if first() is None, exactly if last() is None, exactly if children() yields nothing (from either end), exactly if walk() or walk_events() yield nothing, exactly if no id can be looked up. For every node of it is_empty() is the opposite of has_children(), and is true exactly if first() is None, last() is None, or children() yields nothing from either end. next().prev() and prev().next() are the node itself, first().parent() is the node itself, and a first child has no prev(). (A next sibling or a last child need not name the same parent after misuse of checkpoints.)", "quantifier": "all programs with any number of builders, all checkpoints passed to any builder, all edits; all nodes of the resulting trees", "why_tests_cant": "Tests only look at a few well-formed trees; the claim ranges over every tree any program can make.", "anchors": ["src/tree.rs:is_empty", "src/tree.rs:len", "src/tree.rs:first", "src/tree.rs:last", "src/node/node_impl.rs:is_empty", "src/node/node_impl.rs:has_children", "src/node/children.rs:Children", "src/node/node_impl.rs:next", "src/node/node_impl.rs:prev"]}
{"id": "C93", "title": "A change set is a set of ids", "statement": "modify depends on the set of registered ids only: the order in which remove has been called, and ids registered more than once, make no difference to its result, success or failure. Ids too large for the pointers of the flavor make no difference. If modify succeeds, then ids larger than the number of nodes of its result make no difference (and this bound is sharp).", "quantifier": "all trees a program can get hold of, all lists of registered ids, all flavors", "why_tests_cant": "The tests register at most a few ids once on small trees; order, repetition and unreached ids range over all lists of ids.", "anchors": ["src/edit.rs:remove", "src/edit.rs:modify", "src/edit.rs:ChangeSet"]}
{"id": "C94", "title": "Comparing trees asks the PartialEq of the values", "statement": "tree == other only needs T: PartialEq, which may be any relation and may have effects. On all trees a program can get hold of, == ends, and compares what the two walks with depths list, row by row: depths, then values (calling PartialEq of the values), then spans, stopping at the first difference; so the values compared are those at the same places, each at most once, in document order, at most as many as the smaller tree has nodes, and nothing is asked after a difference. For nested lists == holds exactly if shapes and spans agree and the values at the same places are related. A tree equals itself exactly if each of its values equals itself (so a tree holding a NaN differs from itself and from its clone); == is symmetric and transitive if the relation on the values is.", "quantifier": "all pairs of trees any programs can get hold of (misuse of checkpoints and edits included), all relations on the values, all effects of comparing", "why_tests_cant": "Tests compare a few trees of values with a lawful Eq; relations that are not reflexive, and what is asked in which order, range over all trees and all implementations of PartialEq.", "anchors": ["src/tree.rs:PartialEq", "src/node/node_impl.rs:PartialEq", "src/node/walk.rs:WithDepths"]}
{"id": "C95", "title": "Printing to a writer that fails", "statement": "On every tree a program can get hold of, print and print_with_source hand the pieces of the lines to the writer in order, however core::fmt cuts them, up to the first call that fails: its error is returned as it is and nothing is written after it. If no call fails the result is Ok and all lines have been written. A line whose node is so deep that twice the depth is not a width core::fmt accepts (65535 in recent versions) makes print panic, after exactly the lines before it; a tree of at most limit/2 + 1 nodes never does, a chain of one node more always does. So printing to a Vec appends the whole text, and printing to a fixed buffer of n bytes leaves the first n bytes of the text in it and returns Ok exactly if the text fits.", "quantifier": "all trees any programs can get hold of (misuse of checkpoints and edits included), all writers (any state, any error at any call), all ways to cut the lines into pieces, all width limits", "why_tests_cant": "Tests print a few trees into a Vec; a writer may fail at any of the calls, and where it fails depends on the tree and on how the text is cut.", "anchors": ["src/print.rs:print", "src/print.rs:print_with_source", "src/print.rs:print_with_lookup"]}
{"id": "C96", "title": "Ids of nodes are sound whatever the storage does", "statement": "id() computes the position of a node from two addresses and makes a NonZero pointer of it without a check. For every handwritten storage that hands out the same slice when it is dereferenced twice in a row (it may otherwise drop, repeat or move what is pushed, fail, or hand out other slices later), id() of every node a program can get hold of, with tree.get, by an iterator or by following links, is a valid non-zero pointer, looking it up in the slice of the node gives the node back, and different nodes have different ids. Storage that hands out two slices in turn makes tree.get return a node whose id() is the excluded zero: undefined behavior from safe code.", "quantifier": "all storages, all addresses and lengths of slices, all element sizes, all pointer widths, all ways to reach a node", "why_tests_cant": "Tests use Vec at whatever address the allocator chose; soundness of an unchecked conversion is about every implementation of a safe trait.", "anchors": ["src/node/node_impl.rs:id", "src/node/node_impl.rs:node_at", "src/tree.rs:Tree::get", "src/flavor.rs:Storage", "src/pointer.rs:new_unchecked"]}
{"id": "C97", "title": "The errors of the calculator example point at the text", "statement": "For every text of less than 2^32 bytes, the calculator example gives one result for each root of the tree that has children, in order. If the result is an error, its span is the span of a node of the tree, that root or a descendant of it; the text can be indexed with the span (it is in bounds and on character boundaries, as the program does when it prints the error); and what the error says is true of the node: it is a number that is no 64 bit integer, or not something that can be evaluated, or an operation that has the operator the error complains about. The error that an operator is expected never occurs.", "quantifier": "all texts of less than 2^32 bytes, all errors among the results", "why_tests_cant": "The tests run a few expressions; mistakes can be anywhere in a text of any length and nesting, next to characters of several bytes.", "anchors": ["examples/calculator/eval.rs:eval_node", "examples/calculator/eval.rs:eval", "examples/calculator/main.rs:main", "examples/calculator/grammar.rs:root", "src/span.rs:Span::join"]}
{"id": "C98", "title": "Size hints", "statement": "size_hint() keeps the promise of Iterator: whenever it is asked, no more items can be taken than its upper bound, from either end of the iterator and in any order of the ends, and the iterator does not end before as many items have been taken as its lower bound says. If the hint of an iterator over nodes keeps this promise, so does the hint of its skip_tokens(), which drops the lower bound; it has to, as the nodes may all be tokens. All iterators of the library keep it.", "quantifier": "all iterators over nodes, all states they can be in, all trees, all orders of taking from both ends", "why_tests_cant": "A hint is only wrong for some trees and after some calls; collect() and friends trust it for all of them.", "anchors": ["src/node/skip_tokens.rs:size_hint", "src/node/children.rs:Children", "src/node/walk.rs:Walk", "src/node/walk_events.rs:WalkEvents"]}
{"id": "C99", "title": "The calculator recurses with the parentheses, not with the length", "statement": "The calculator example recurses only as deep as the parentheses of its input allow, however long the input is and whatever is in it. For a text with n opening parentheses: parsing never has more than 4(n+1) calls of expr on the stack, and gives the same result with a stack of that many frames as with an unbounded one; no node of the tree has more than 4(n+1) ancestors; evaluating never has more than 3(n+1)+1 calls of eval_node on the stack. All three bounds are reached for every n (as long as the text fits in the index type).", "quantifier": "all texts (valid or not), all depths of the stack", "why_tests_cant": "A stack overflow is an abort that no test on short inputs meets; that the depth does not grow with the length is a statement on all lengths.", "anchors": ["examples/calculator/grammar.rs:expr", "examples/calculator/grammar.rs:root", "examples/calculator/eval.rs:eval_node"]}
{"id": "C100", "title": "Capacity", "statement": "Whatever a program does with builders and trees (calls in any order and with any outcome, clones, edits, replaced values), capacity() of a tree is at least its len(). A builder that was never cloned has capacity 0 exactly as long as it has no nodes. No call on a builder lowers the capacity, and a call raises it only if every place was taken and the call adds a node. The result of ChangeSet::modify has at least the capacity of its input, however much is removed, and does not grow beyond the capacity asked for at the start exactly if its nodes fit into that; with no ids registered it never does. If a full vector at least doubles, building moves at most two nodes for each node of the result, all calls together.", "quantifier": "every history of calls on builders, every edit, every allocation strategy that keeps to the documentation of Vec", "why_tests_cant": "Capacities depend on the allocator and the version of std; a test sees the capacities of one machine and a few sizes.", "anchors": ["src/tree.rs:Tree::capacity", "src/tree.rs:Tree::with_capacity", "src/flavor.rs:Storage", "src/edit.rs:ChangeSet::modify"]}
{"id": "C101", "title": "Range queries give the innermost node and agree with each other", "statement": "If only the cursor placed the nodes, and some node with children contains the range s..e, then node_with_range / node_with_span returns the innermost node with children that contains it: every other one is above the returned node. A query for a larger range returns the same node as the one for the smaller range or one above it, as long as the larger range does not leave the root that it starts in; for one and the same start this holds whatever the ends are. All starts inside of one childless node give the same answer.", "quantifier": "all histories of calls without explicit spans in which no token was lost for want of pointers, all pairs of ranges, every implementation of the binary search", "why_tests_cant": "relates every range to every node and every pair of ranges on every tree", "anchors": ["src/tree.rs: Tree::node_with_range, Tree::node_with_span", "src/node/node_impl.rs: Node::span, Node::ancestors"]}
{"id": "C102", "title": "Spans of any type of index, and ids, as keys", "statement": "For every type of index, whatever its comparisons and hash are: two spans are == exactly if both ends are, also for spans of different index types and for references; == is reflexive, symmetric or transitive if that of the indexes is. If equal indexes hash alike then equal spans hash alike, for every hasher, and spans that differ write different things if the indexes do. If the order of the indexes is total and agrees with their ==, so is and does that of the spans. Pointers are equal, ordered and hashed as the numbers they stand for.", "quantifier": "all index types with any implementation of PartialEq, Ord and Hash, all hashers, all spans, all pointer widths and values", "why_tests_cant": "index types, hashers and comparisons are arbitrary code of the user; PartialEq of Span is written by hand while Ord and Hash are derived", "anchors": ["src/span.rs: Span, impl PartialEq, derive(PartialOrd, Ord, Hash)", "src/pointer.rs: implement!, derive(PartialEq, Eq, PartialOrd, Ord, Hash)"]}
