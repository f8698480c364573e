{"id": "C01", "title": "Number/step encoding round-trips", "statement": "NumConv(alphabet).str2int(NumConv(alphabet).int2str(n)) == n for every n >= 0 and every duplicate-free alphabet of at least two characters, and int2str never produces a longer string than needed: its length is at most k exactly when n < len(alphabet)**k (n>0 or k>0).", "quantifier": "every alphabet without duplicates with >= 2 characters, every natural number", "why_tests_cant": "the domain of numbers and alphabets is unbounded; tests sample a few alphabets and values", "anchors": ["treebeard/numconv.py: NumConv.int2str, NumConv.str2int"]}
{"id": "C02", "title": "Steps sort like numbers", "statement": "Two path steps written for positions a and b below the same parent compare as strings exactly as a and b compare as numbers, whenever the alphabet is in collation order and both positions fit in steplen characters; so ordering by path is ordering by sibling position.", "quantifier": "every sorted duplicate-free alphabet, every steplen, every pair of positions that fit, every common parent path", "why_tests_cant": "an order embedding is a statement about all pairs of positions and all alphabets", "anchors": ["treebeard/mp_tree.py: MP_Node._get_path, MP_Node._inc_path, MP_Node._get_lastpos_in_path", "treebeard/numconv.py"]}
{"id": "C03", "title": "Bad alphabets, numbers and digits are rejected, never misread", "statement": "NumConv raises ValueError for any alphabet with a repeated character; int2str raises ValueError for every negative number; str2int raises ValueError exactly when some character is outside the alphabet, and otherwise returns a number.", "quantifier": "every alphabet string, every integer, every input string", "why_tests_cant": "unbounded input strings", "anchors": ["treebeard/numconv.py: NumConv.__init__, NumConv.int2str, NumConv.str2int"]}
{"id": "C04", "title": "MP: the tree stays consistent after every history", "statement": "Starting from an empty table, after any sequence of add_root, add_child, add_sibling, move and delete calls on freshly fetched nodes (including calls that raise), find_problems() returns five empty lists, no two nodes share a path, and every non-root node has its parent in the table.", "quantifier": "every finite history of operations, every node, target and position argument, every steplen and alphabet", "why_tests_cant": "tests replay a handful of fixed histories; the invariant must survive every history", "anchors": ["treebeard/mp_tree.py: MP_NodeManager.add_root, add_child, add_sibling, move, _reorder_nodes_before_add_or_move, MP_NodeQuerySet.delete, find_problems"]}
{"id": "C05", "title": "MP: add_root and add_child append at the right end", "statement": "add_root(...) makes the new node the last root; add_child(target, ...) makes it the last child of target; every other node keeps its parent and its place among its siblings. Otherwise PathOverflow is raised and nothing changes.", "quantifier": "every consistent tree, every target", "why_tests_cant": "must hold for every tree shape and every hole pattern in the stored positions", "anchors": ["treebeard/mp_tree.py: MP_NodeManager.add_root, add_child"]}
{"id": "C06", "title": "MP: add_sibling inserts exactly where asked", "statement": "add_sibling(target, pos) puts the new node at the requested place among target's siblings (first, immediately left of target, immediately right of target, last) and changes no other node's parent or relative order; otherwise it raises PathOverflow and nothing changes.", "quantifier": "every consistent tree with arbitrary holes, every target, every position", "why_tests_cant": "shifting depends on the exact pattern of holes between siblings, which is unbounded", "anchors": ["treebeard/mp_tree.py: MP_NodeManager.add_sibling, _reorder_nodes_before_add_or_move, _set_newpath_in_branches"]}
{"id": "C07", "title": "MP: move puts the whole branch exactly where asked", "statement": "move(node, target, pos) leaves node at the requested place relative to target, with its whole branch under it in the same shape and order; every other node keeps its parent and its relative order among its siblings.", "quantifier": "every consistent tree, every node, every target outside node's branch, every position", "why_tests_cant": "the number of rename steps and their interplay depends on unbounded tree shapes and hole patterns", "anchors": ["treebeard/mp_tree.py: MP_NodeManager.move, update_move_to_child_vars, _reorder_nodes_before_add_or_move, update_parent_counts_after_move"]}
{"id": "C08", "title": "Moving a node into its own branch is refused", "statement": "For every implementation, move(node, target, pos) with target inside node's own branch (or target = node for a child position) raises InvalidMoveToDescendant and leaves the stored tree unchanged.", "quantifier": "every tree, every node, every target in its branch, every position, MP, NS, AL and LT", "why_tests_cant": "all descendants at all depths", "anchors": ["treebeard/mp_tree.py: MP_NodeManager.move", "treebeard/ns_tree.py: NS_NodeManager.move", "treebeard/al_tree.py: AL_NodeManager.move", "treebeard/ltree/__init__.py: LT_NodeManager.move"]}
{"id": "C09", "title": "MP: delete removes exactly the chosen branches", "statement": "queryset.delete() removes exactly the nodes of the queryset and all their descendants, keeps every other node with its parent and relative order, and leaves every remaining node's children count correct, for overlapping selections (ancestor and descendant both selected) as well.", "quantifier": "every consistent tree and every subset of its nodes", "why_tests_cant": "all subsets of all trees", "anchors": ["treebeard/mp_tree.py: MP_NodeQuerySet.delete"]}
{"id": "C10", "title": "MP: navigation queries agree with each other", "statement": "On a consistent tree, get_children, get_parent, get_siblings, get_ancestors, get_descendants, get_root, get_first/last_child, get_prev/next_sibling, is_child_of, is_descendant_of, is_sibling_of, is_root, is_leaf and get_children_count all describe one and the same ordered forest: get_children gives the ordered children, and every other query returns what that forest implies.", "quantifier": "every consistent tree, every node or pair of nodes", "why_tests_cant": "agreement of about fifteen queries on every tree", "anchors": ["treebeard/mp_tree.py: MP_NodeManager.get_children, get_siblings, get_descendants, get_root, get_parent, get_ancestors, get_next_sibling, get_prev_sibling, MP_Node.is_child_of, is_descendant_of, is_sibling_of"]}
{"id": "C11", "title": "get_tree() is depth-first pre-order", "statement": "get_tree() returns every node exactly once in depth-first pre-order (each node, then its children's branches in sibling order); get_tree(parent) is the same for parent's branch, and max_depth=k keeps exactly the nodes at most k levels below the start.", "quantifier": "every consistent tree, every parent, every max_depth >= 1, MP, NS, AL and LT", "why_tests_cant": "all tree shapes", "anchors": ["treebeard/mp_tree.py: MP_NodeManager.get_tree", "treebeard/ns_tree.py: NS_NodeManager.get_tree", "treebeard/al_tree.py: AL_NodeManager.get_tree", "treebeard/ltree/__init__.py: LT_NodeManager.get_tree"]}
{"id": "C12", "title": "MP: running out of positions is always reported", "statement": "When there is no room for a position within steplen characters, add and move operations raise PathOverflow and change nothing; they never store a node at a wrong place.", "quantifier": "every steplen, alphabet, tree and operation", "why_tests_cant": "the failure needs a sibling near the end of the position range combined with a particular kind of move; tests do not enumerate that", "anchors": ["treebeard/mp_tree.py: MP_Node._get_path, MP_Node._inc_path, _reorder_nodes_before_add_or_move"]}
{"id": "C13", "title": "MP: fix_tree() repairs depth and numchild and nothing else", "statement": "For every table whose paths are well formed, fix_tree() leaves every path untouched, makes every depth and numchild correct whatever they were, so that find_problems() reports none, and running it twice is the same as running it once.", "quantifier": "every table with well formed paths and arbitrary depth and numchild values", "why_tests_cant": "all corruptions of depth and numchild", "anchors": ["treebeard/mp_tree.py: MP_NodeManager.fix_tree, _fix_numchild"]}
{"id": "C14", "title": "MP: fix_tree(fix_paths=True) closes holes without changing the tree", "statement": "fix_tree(fix_paths=True) renumbers every group of siblings to consecutive positions 1..n, keeps every node's parent, keeps the sibling order (or sorts it by node_order_by when set), or raises PathOverflow.", "quantifier": "every consistent tree with any holes, any order-by result", "why_tests_cant": "the in-place permutation algorithm depends on arbitrary hole and order patterns", "anchors": ["treebeard/mp_tree.py: MP_NodeManager.fix_tree, _rewrite_node_path"]}
{"id": "C15", "title": "MP: find_problems() reports none exactly when the table is sound", "statement": "find_problems() returns five empty lists if and only if every path uses only alphabet characters, has a length that is a multiple of steplen, has its parent path in the table, and depth and numchild are right; and no node is listed twice.", "quantifier": "every table content, valid or not", "why_tests_cant": "all corrupted tables", "anchors": ["treebeard/mp_tree.py: MP_NodeManager.find_problems"]}
{"id": "C16", "title": "Sorted trees stay sorted", "statement": "With node_order_by set, if every group of siblings is sorted by the order fields then it still is after add_root, add_child, add_sibling or move, and the new or moved node comes after the siblings with equal values.", "quantifier": "every tree sorted by any list of ascending/descending fields, every new value", "why_tests_cant": "all value combinations and all tree shapes", "anchors": ["treebeard/models.py: NodeManager.get_sorted_pos_queryset", "treebeard/mp_tree.py: add_sibling, move", "treebeard/ns_tree.py: add_sibling, move", "treebeard/ltree/__init__.py: add_sibling, move"]}
{"id": "C17", "title": "MP: the signals are enough to mirror the tree", "statement": "An external store that applies every path_updated signal (replace prefix old_path by new_path, recompute depth) and nodes_deleted signal, plus the rows saved individually, holds the same paths and depths as the table after every operation.", "quantifier": "every operation history", "why_tests_cant": "must hold for every sequence of signals, including operations that send several", "anchors": ["treebeard/mp_tree.py: path_updated, nodes_deleted, _set_newpath_in_branches, _rewrite_node_path, MP_NodeQuerySet.delete"]}
{"id": "C18", "title": "MP: delete() interrupted at any point leaves a repairable tree", "statement": "If the process dies between any two SQL statements of queryset.delete() in autocommit mode, then all paths and depths are still consistent (no orphans), only children counts may be wrong, and fix_tree() followed by the same delete() gives the same tree as the uninterrupted delete().", "quantifier": "every crash point, every tree, every subset", "why_tests_cant": "crash points between statements are not reachable from unit tests", "anchors": ["treebeard/mp_tree.py: MP_NodeQuerySet.delete, fix_tree"]}
{"id": "C19", "title": "dump_bulk / load_bulk round-trip", "statement": "load_bulk(dump_bulk()) into an empty tree recreates the same forest with the same data (and the same primary keys with keep_ids), in the same order.", "quantifier": "every consistent tree (every forest and data)", "why_tests_cant": "unbounded recursive structures", "anchors": ["treebeard/mp_tree.py: dump_bulk, load_bulk", "treebeard/models.py: NodeManager.load_bulk", "treebeard/utils.py: prepare_dumpdata_for_loading"]}
{"id": "C20", "title": "MP: load_bulk(bulk_create=True) equals load_bulk()", "statement": "Loading a structure with bulk_create=True stores the same paths, depths and children counts as loading it node by node.", "quantifier": "every bulk structure, every existing tree, with or without parent", "why_tests_cant": "unbounded recursive structures", "anchors": ["treebeard/mp_tree.py: MP_NodeManager.load_bulk"]}
{"id": "C21", "title": "NS: the nested sets stay consistent after every history", "statement": "Starting from an empty table, after any sequence of add_root, add_child, add_sibling, move and delete calls on freshly fetched nodes, intervals in a tree are properly nested without gaps or shared endpoints, each tree_id has exactly one root starting at 1, every depth is right and find_problems() returns four empty lists.", "quantifier": "every finite history of operations", "why_tests_cant": "tests replay a handful of fixed histories", "anchors": ["treebeard/ns_tree.py: NS_NodeManager.add_root, add_child, add_sibling, move, _alter_gap, _close_gap, _move_tree_right, NS_NodeQuerySet.delete"]}
{"id": "C22", "title": "NS: add_root, add_child and add_sibling insert exactly where asked", "statement": "The new node is the last root, the last child, or at the requested place among target's siblings; no other node changes parent or relative order.", "quantifier": "every consistent tree, every target, every position", "why_tests_cant": "all tree shapes", "anchors": ["treebeard/ns_tree.py: NS_NodeManager.add_root, add_child, add_sibling"]}
{"id": "C23", "title": "NS: move puts the whole branch exactly where asked", "statement": "move(node, target, pos) leaves node at the requested place relative to target with its whole branch in the same shape and order; every other node keeps its parent and relative order. Moves between trees, to root level and from root level included.", "quantifier": "every consistent tree, every node, every target outside node's branch, every position", "why_tests_cant": "the arithmetic on intervals must be right for every relative placement of the two branches", "anchors": ["treebeard/ns_tree.py: NS_NodeManager.move"]}
{"id": "C24", "title": "NS: delete removes exactly the chosen branches", "statement": "queryset.delete() removes exactly the selected nodes and their descendants and closes the gaps; all other nodes keep parent and relative order, and the nested sets stay consistent.", "quantifier": "every consistent tree, every subset of its nodes", "why_tests_cant": "all subsets of all trees", "anchors": ["treebeard/ns_tree.py: NS_NodeQuerySet.delete"]}
{"id": "C25", "title": "NS: navigation queries agree and counts are exact", "statement": "On a consistent tree the navigation queries describe one ordered forest, and get_descendant_count, computed from lft and rgt alone, equals the number of descendants; is_leaf is true exactly for nodes without children.", "quantifier": "every consistent tree, every node", "why_tests_cant": "all tree shapes", "anchors": ["treebeard/ns_tree.py: get_children, get_parent, get_ancestors, get_descendants, get_siblings, get_descendant_count, get_root, NS_Node.is_leaf, is_descendant_of"]}
{"id": "C26", "title": "NS: find_problems() is sound, and complete for nesting", "statement": "find_problems() reports nothing on a consistent tree; and when it reports nothing, all intervals of a tree are properly nested, one root per tree_id encloses the rest, and every depth equals the nesting level.", "quantifier": "every table content", "why_tests_cant": "all corrupted tables", "anchors": ["treebeard/ns_tree.py: NS_NodeManager.find_problems"]}
{"id": "C27", "title": "Objects handed to add_child stay usable", "statement": "After add_child(target, ...), the in-memory target agrees with its database row, so it can be used in further queries and operations without reloading.", "quantifier": "every tree, every target, every number of calls, MP and NS", "why_tests_cant": "tests reload objects or do not look at what follows to the right of the parent", "anchors": ["treebeard/ns_tree.py: NS_NodeManager.add_child", "treebeard/mp_tree.py: MP_NodeManager.add_child"]}
{"id": "C28", "title": "NS: delete() interrupted at any point keeps order and ancestry", "statement": "If the process dies between any two SQL statements of queryset.delete(), the remaining nodes still have their parents, ancestors and order; only gaps in the numbering may remain.", "quantifier": "every crash point, every tree, every subset", "why_tests_cant": "crash points are not reachable from unit tests", "anchors": ["treebeard/ns_tree.py: NS_NodeQuerySet.delete"]}
{"id": "C29", "title": "NS: the signals are enough to mirror the tree", "statement": "An external store that applies gap_altered, tree_ids_incremented, subtree_moved and nodes_deleted, plus the rows saved individually, holds the same tree_id, lft, rgt and depth as the table.", "quantifier": "every operation history", "why_tests_cant": "every sequence of signals", "anchors": ["treebeard/ns_tree.py: gap_altered, tree_ids_incremented, subtree_moved, nodes_deleted"]}
{"id": "C30", "title": "AL: parent links never form a cycle and sibling positions never clash", "statement": "After any history of add_root, add_child, add_sibling, move and delete on freshly fetched nodes, every parent exists, following parents always ends at a root, and no two siblings have the same position.", "quantifier": "every finite history", "why_tests_cant": "every history", "anchors": ["treebeard/al_tree.py: AL_NodeManager.add_root, add_child, add_sibling, move"]}
{"id": "C31", "title": "AL: add and move put the node exactly where asked", "statement": "add_root, add_child, add_sibling and move put the node at the requested place; no other node changes parent or relative order.", "quantifier": "every consistent tree, every node, target and position", "why_tests_cant": "all tree shapes and sib_order gaps", "anchors": ["treebeard/al_tree.py: add_root, add_child, add_sibling, move, _make_hole_and_get_sibling_order, _get_new_sibling_order"]}
{"id": "C32", "title": "AL: queries terminate and are exact", "statement": "On a consistent tree get_ancestors, get_depth, get_descendants, get_tree and is_descendant_of terminate and return exactly the ancestors, level, descendants and pre-order of the forest.", "quantifier": "every consistent tree, every node", "why_tests_cant": "recursion depth is unbounded", "anchors": ["treebeard/al_tree.py: get_tree, _get_tree_recursively, get_ancestors, get_descendants, AL_Node.get_depth, is_descendant_of"]}
{"id": "C33", "title": "LT: generated labels fall strictly between their bounds", "statement": "Whenever generate_label(skip, before, after) returns, the label is over 0-9A-Z, is not in skip, is strictly greater than after and strictly smaller than before.", "quantifier": "every set of labels to skip, every before and after", "why_tests_cant": "unbounded strings", "anchors": ["treebeard/ltree/__init__.py: generate_label"]}
{"id": "C34", "title": "LT: a label is always found between neighbours", "statement": "For adjacent siblings (nothing in skip strictly between after and before), generate_label either returns a label or raises InvalidLabelConstraints; the latter exactly when no label fits; the 'should never happen' errors are never reached.", "quantifier": "every pair of adjacent labels, every skip set", "why_tests_cant": "unbounded strings", "anchors": ["treebeard/ltree/__init__.py: generate_label, LT_NodeManager._get_new_path"]}
{"id": "C35", "title": "LT: the tree stays consistent after every history", "statement": "After any history of add_root, add_child, add_sibling, move and delete on freshly fetched nodes, paths are unique and every non-root node's parent path is in the table.", "quantifier": "every finite history", "why_tests_cant": "every history", "anchors": ["treebeard/ltree/__init__.py: LT_NodeManager.add_root, add_child, add_sibling, move, _move_subtree_right, LT_NodeQuerySet.delete"]}
{"id": "C36", "title": "LT: add and move put the node exactly where asked", "statement": "add_root makes the new node the last root, add_child the last child, add_sibling and move put the node at the requested place; no other node changes parent or relative order.", "quantifier": "every consistent tree, every node, target and position", "why_tests_cant": "the label arithmetic and the move-right fallback depend on unbounded label histories", "anchors": ["treebeard/ltree/__init__.py: add_root, add_child, add_sibling, move, _get_new_path, _move_subtree_right"]}
{"id": "C37", "title": "LT: queries and delete are exact", "statement": "On a consistent tree the navigation queries agree with one ordered forest, and delete() removes exactly the selected nodes and their descendants.", "quantifier": "every consistent tree, every subset of its nodes", "why_tests_cant": "all trees and subsets", "anchors": ["treebeard/ltree/__init__.py: get_children, get_siblings, get_parent, get_ancestors, get_descendants, LT_NodeQuerySet.delete"]}
{"id": "C38", "title": "Position arguments are accepted exactly as documented", "statement": "add_sibling and move accept exactly the documented position names; None means sorted-sibling when node_order_by is set and last-sibling otherwise; with node_order_by any unsorted position raises InvalidPosition, without it any sorted one raises MissingNodeOrderBy; any other string raises InvalidPosition.", "quantifier": "every position string and None, with and without node_order_by", "why_tests_cant": "all strings", "anchors": ["treebeard/models.py: NodeManager._prepare_pos_var, _prepare_pos_var_for_add_sibling, _prepare_pos_var_for_move"]}
{"id": "C39", "title": "The sorted-position query is the lexicographic comparison", "statement": "get_sorted_pos_queryset keeps exactly the siblings that come strictly after the new object in the order given by node_order_by (ascending and descending fields compared one after the other).", "quantifier": "every list of order fields and directions, every sibling list, every non-null value", "why_tests_cant": "all field lists and values", "anchors": ["treebeard/models.py: NodeManager.get_sorted_pos_queryset"]}
{"id": "C40", "title": "The annotated list is a well-formed nesting", "statement": "get_annotated_list() yields every node with level equal to its depth relative to the first node, and its open/close marks form balanced nested groups: rendering them opens and closes exactly one group per run of siblings.", "quantifier": "every tree in depth-first order", "why_tests_cant": "all tree shapes", "anchors": ["treebeard/models.py: NodeManager.get_annotated_list_qs"]}
{"id": "C41", "title": "The four implementations are interchangeable", "statement": "The same sequence of add_root, add_child, add_sibling, move and delete calls with the same arguments produces the same ordered forest with MP, NS and AL (and LT within its documented limits).", "quantifier": "every finite history of unsorted operations that does not run out of room", "why_tests_cant": "equality over all histories", "anchors": ["treebeard/mp_tree.py", "treebeard/ns_tree.py", "treebeard/al_tree.py", "treebeard/ltree/__init__.py"]}
{"id": "C42", "title": "Only unsaved, unambiguous arguments create nodes", "statement": "add_root, add_child and add_sibling raise ValueError when both or neither of create_kwargs and instance are given, and NodeAlreadySaved when instance is already saved; in these cases nothing is stored.", "quantifier": "every combination of arguments", "why_tests_cant": "finite decision logic stated for all argument combinations", "anchors": ["treebeard/utils.py: check_create_args"]}
{"id": "C43", "title": "Concurrent add_child calls do not clash", "statement": "When any number of clients call add_child on the same parent concurrently, in every interleaving of their statements (each holding the row lock from its select_for_update to its commit) the committed tree is at every moment consistent: its children are those at the start and the committed new ones, appended in the order of the commits (with node_order_by: at their sorted places), no other node changes, the children count is correct, and no call fails for the sake of the others. For MP the same holds when the clients add below different nodes. There is never a deadlock.", "quantifier": "every number of clients, every interleaving, crashes at any point; MP, NS and LT", "why_tests_cant": "schedules cannot be enumerated by tests", "anchors": ["treebeard/mp_tree.py: MP_NodeManager.add_child", "treebeard/ns_tree.py: NS_NodeManager.add_child", "treebeard/ltree/__init__.py: LT_NodeManager.add_child"]}
{"id": "C44", "title": "The move form does what it shows", "statement": "Saving MoveNodeForm with reference node r and position p leaves the node at position p relative to r, for a new instance as for an existing one, and with no reference node the node becomes a root.", "quantifier": "every tree, every instance, every offered reference and position", "why_tests_cant": "all trees and choices", "anchors": ["treebeard/forms.py: MoveNodeForm.save, _get_initial, _set_ref_model_queryset"]}
{"id": "C45", "title": "load_bulk with used primary keys", "statement": "load_bulk(keep_ids=True) with a primary key already in use raises an error, as documented, and does not overwrite the stored node.", "quantifier": "every tree and structure", "why_tests_cant": "depends on the save semantics for instances with explicit keys", "anchors": ["treebeard/models.py: NodeManager.load_bulk", "treebeard/utils.py: prepare_dumpdata_for_loading"]}
{"id": "C46", "title": "Objects passed to move are up to date afterwards", "statement": "After move(node, target, pos) the in-memory node and target agree with their database rows.", "quantifier": "every tree, node, target and position, MP, NS, AL and LT", "why_tests_cant": "tests that reload the objects cannot see stale ones", "anchors": ["treebeard/mp_tree.py: move, update_move_to_child_vars", "treebeard/ns_tree.py: move", "treebeard/al_tree.py: move", "treebeard/ltree/__init__.py: move"]}
{"id": "C47", "title": "MP: add_child works from a stale target", "statement": "add_child(target, ...) gives the same stored tree whether the in-memory target is up to date or stale, as long as its primary key still exists.", "quantifier": "every tree, every stale in-memory copy", "why_tests_cant": "all possible stale values", "anchors": ["treebeard/mp_tree.py: MP_NodeManager.add_child", "treebeard/ns_tree.py: NS_NodeManager.add_child"]}
{"id": "C48", "title": "Sorted additions work whatever the stored values", "statement": "With node_order_by, adding a node puts it immediately before the first sibling that comes after it (fields in which the new node is null do not count), or at the end if there is none, and changes nothing else, even when the siblings are out of order (a value was edited) or have null values. The call fails only if there is no room for one more sibling.", "quantifier": "every consistent tree, every stored values, every new values (null too), add_root, add_child and add_sibling, MP, NS, AL and LT", "why_tests_cant": "the siblings need not be sorted, so the set of siblings to shift is any subset of them", "anchors": ["treebeard/models.py: get_sorted_pos_queryset", "treebeard/mp_tree.py: _reorder_nodes_before_add_or_move", "treebeard/ns_tree.py: add_sibling", "treebeard/ltree/__init__.py: add_sibling"]}
{"id": "C49", "title": "Stored paths fit in the path field", "statement": "If every stored path of a materialized path tree fits in the path field's max_length, then so does every path after any successful add_root, add_child, add_sibling, move, load_bulk or delete; a call that would need a longer path raises PathOverflow instead.", "quantifier": "every configuration, every consistent tree, every call with any position and any values, with and without node_order_by", "why_tests_cant": "branches of every height below parents at every level", "anchors": ["treebeard/mp_tree.py: MP_NodeManager.add_root, add_child, add_sibling, move, load_bulk, MP_NodeQuerySet.delete"]}
{"id": "C50", "title": "LT: the signals are enough to mirror the tree", "statement": "An external store that applies subtree_moved_right, subtree_moved and nodes_deleted, plus the rows saved individually, holds the same paths as the table.", "quantifier": "every operation history", "why_tests_cant": "every sequence of signals, including the shifts of whole branches that an insertion causes", "anchors": ["treebeard/ltree/__init__.py: subtree_moved_right, subtree_moved, nodes_deleted"]}
{"id": "C51", "title": "get_descendants_group_count is exact", "statement": "get_descendants_group_count(parent) returns the children of parent (or the roots) in order, each with the exact number of its descendants.", "quantifier": "every consistent tree and every stored parent, MP, NS, AL and LT", "why_tests_cant": "all tree shapes; four different implementations", "anchors": ["treebeard/mp_tree.py: get_descendants_group_count", "treebeard/models.py: get_descendants_group_count", "treebeard/ltree/__init__.py: get_descendants_group_count"]}
{"id": "C52", "title": "The admin's drag and drop does what it shows", "statement": "Dropping a node on another in the admin makes it the last child of the other, or puts it immediately before the other among its siblings (with node_order_by: at its sorted place there); a drop on the node's own branch is refused, and in every case no other node changes its place and no data change.", "quantifier": "every consistent tree, every node and target, both relations, MP, NS, AL and LT", "why_tests_cant": "all trees and pairs of nodes", "anchors": ["treebeard/admin.py: TreeAdmin.move_node"]}
{"id": "C53", "title": "Concurrent add_root calls keep the tree consistent", "statement": "When any number of clients call add_root concurrently, in every interleaving of their statements the committed tree is at every moment consistent, its roots are those at the start and the committed new ones, and no other node changes. (For AL, which takes no lock in add_child either, the same for add_root and add_child calls together.)", "quantifier": "every number of clients, every interleaving, crashes at any point; all four backends, without node_order_by", "why_tests_cant": "schedules cannot be enumerated by tests", "anchors": ["treebeard/mp_tree.py: MP_NodeManager.add_root", "treebeard/ns_tree.py: NS_NodeManager.add_root", "treebeard/al_tree.py: AL_NodeManager.add_root, add_child", "treebeard/ltree/__init__.py: LT_NodeManager.add_root"]}
{"id": "C54", "title": "The admin's tree list shows the tree", "statement": "The admin's tree list shows the roots in order; opening a node shows exactly its children in order, each with the right parent and level, and exactly the nodes with children can be opened; an unknown key is a 404. A user who opens everything sees every node exactly once, in tree order, at its level.", "quantifier": "every consistent tree, every requested key, MP, NS, AL and LT", "why_tests_cant": "all tree shapes; four different queries for has_children", "anchors": ["treebeard/admin.py: TreeAdmin.get_queryset, changelist_view, children_view", "treebeard/templatetags/admin_tree.py: tree_context"]}
{"id": "C55", "title": "Objects made in a loop stay usable", "statement": "When a client adds any number of children to one node in a loop, using one target object and keeping the objects returned, then these are the node's last children in this order, every object returned is up to date, and add_sibling next to any of them puts a further node exactly where asked.", "quantifier": "every consistent tree, every target, any number of new nodes, every sibling position; MP, NS, AL and LT without node_order_by", "why_tests_cant": "any number of calls and every combination of an object from the loop with a position", "anchors": ["treebeard/mp_tree.py: MP_NodeManager.add_child, add_sibling", "treebeard/ns_tree.py: NS_NodeManager.add_child, add_sibling, get_parent", "treebeard/al_tree.py: AL_NodeManager.add_child, add_sibling", "treebeard/ltree/__init__.py: LT_NodeManager.add_child, add_sibling"]}
{"id": "C56", "title": "Values given for the tree fields have no effect", "statement": "Whatever values the new object or create_kwargs carry for the fields that treebeard maintains (MP path, depth, numchild; NS tree_id, lft, rgt, depth; AL parent, sib_order; LT path), add_root, add_child and add_sibling do exactly what they do without them.", "quantifier": "every table, every target and position, every pair of new objects that agree in the key and the other fields; all four backends", "why_tests_cant": "all values of up to four fields, on every tree", "anchors": ["treebeard/mp_tree.py: MP_NodeManager.add_root, add_child, add_sibling", "treebeard/ns_tree.py: NS_NodeManager.add_root, add_child, add_sibling", "treebeard/al_tree.py: AL_NodeManager.add_root, add_child, add_sibling", "treebeard/ltree/__init__.py: LT_NodeManager.add_root, add_child, add_sibling"]}
{"id": "C57", "title": "An ltree path is the same in memory and in the database", "statement": "A path whose labels are non-empty and made of letters, digits, underscores and hyphens passes the field's validator, is stored as its labels joined by dots however the attribute holds it (PathValue, list or text), and is read back as the same labels. A text that passes the validator names such a path and is stored as it is, but for a newline at its end. In a consistent LT table every stored path is such a text, no two rows have the same text, and a row is below another exactly when its text begins with the other's and a dot.", "quantifier": "every path over these labels, every text accepted by the validator, every consistent LT table", "why_tests_cant": "all texts of all lengths; the conversions are composed of strip, split, join and a regular expression", "anchors": ["treebeard/ltree/fields.py: path_label_validator, PathValue, PathValueProxy.__get__, PathField.from_db_value, get_prep_value, to_python, get_db_prep_value"]}
{"id": "C58", "title": "MP works on databases whose LIKE ignores case, with an alphabet that allows it", "statement": "Django's startswith is LIKE, which ignores case on SQLite. If no two characters of the alphabet are equal for LIKE, then adding, moving, deleting, get_tree, get_descendants, get_descendants_group_count, dump_bulk, find_problems and fix_tree do exactly what they do where LIKE is exact. The default alphabet has this property on SQLite. With letters in both cases in the alphabet, get_tree returns and delete removes other branches.", "quantifier": "every way of taking characters for equal, every alphabet without two equal characters, every consistent MP table (any table over the alphabet for find_problems and fix_tree), every node, position and query set", "why_tests_cant": "tests run one alphabet on one database; the claim is for every alphabet and every kind of case folding", "anchors": ["treebeard/mp_tree.py: path__startswith in delete, get_tree, fix_tree, _rewrite_node_path, _fix_numchild, find_problems, get_descendants_group_count, dump_bulk, _set_newpath_in_branches", "docs/source/mp_tree.rst: alphabet"]}
{"id": "C59", "title": "MP does not depend on the order in which the database changes the rows of an UPDATE", "statement": "SQLite, MySQL and PostgreSQL look at a unique index after each row of an UPDATE, and numchild has the constraint numchild >= 0. On a consistent table, whatever the order in which the database takes the rows, add_root, add_child, add_sibling and move do exactly what they do where the constraints are looked at after the statement; no constraint is violated in between.", "quantifier": "every order of the rows in every UPDATE, every consistent MP table, every node, target and position; for move with the guard of C07", "why_tests_cant": "the order of the rows is chosen by the database and is the same in each test run", "anchors": ["treebeard/mp_tree.py: _set_newpath_in_branches, _reorder_nodes_before_add_or_move, _update_parent_numchild, _move, MP_Node.path, MP_Node.numchild"]}
{"id": "C60", "title": "Sorted moves work whatever the stored values", "statement": "With node_order_by, moving a node (with its branch) puts it immediately before the first other child of the new parent that comes after it (fields in which the node is null do not count), or at the end if there is none, and changes nothing else, even when the siblings are out of order (a value was edited) or have null values. The call fails only if the target is in the node's own branch or there is no room for one more sibling.", "quantifier": "every consistent tree, every stored values (null too), every node, every target, sorted-sibling and sorted-child, MP, NS, AL and LT", "why_tests_cant": "the siblings need not be sorted, so the set of siblings to shift is any subset of them, which may contain the moved node itself", "anchors": ["treebeard/models.py: get_sorted_pos_queryset", "treebeard/mp_tree.py: MP_MoveHandler", "treebeard/mp_tree.py: _reorder_nodes_before_add_or_move", "treebeard/ns_tree.py: move", "treebeard/ltree/__init__.py: move", "treebeard/al_tree.py: move"]}
{"id": "C61", "title": "save() changes only the data", "statement": "Saving a node object that was fetched earlier stores the object's own field values and changes nothing else: the forest, the data of all other nodes and the consistency of the tree stay as they are, whatever was done to the tree through other objects since the fetch. In AL with node_order_by all nodes keep their parents and the order of siblings follows the new values.", "quantifier": "every consistent tree, every node, every object of it, every new values, MP, NS, AL and LT", "why_tests_cant": "the tree fields are columns of the row that save() writes, so what happens depends on every operation that ran between the fetch and the save", "anchors": ["treebeard/models.py: Node", "treebeard/mp_tree.py: MP_Node", "treebeard/ns_tree.py: NS_Node", "treebeard/al_tree.py: AL_Node", "treebeard/ltree/__init__.py: LT_Node"]}
{"id": "C62", "title": "Histories of all the calls", "statement": "After every sequence of add_root, add_child, add_sibling, move, delete, edits that are saved, load_bulk and fix_tree, each on freshly fetched nodes and with any field values, the tree is consistent, and its shape and data are exactly what the calls asked for one after the other. A call that raises changes nothing, and calls raise only when their node, target, key or position is refused. With node_order_by a node goes before the first sibling that comes after it, even if edits have put the siblings out of order.", "quantifier": "every consistent start, every sequence of calls of any length, every field values (null included), with and without node_order_by, MP, NS, AL and LT", "why_tests_cant": "the space of call sequences, values and bulk data is unbounded, and one call leaves a state that the next one must cope with", "anchors": ["treebeard/models.py: Node", "treebeard/mp_tree.py: MP_Node", "treebeard/ns_tree.py: NS_Node", "treebeard/al_tree.py: AL_Node", "treebeard/ltree/__init__.py: LT_Node"]}
{"id": "C63", "title": "Refused deletions change nothing", "statement": "queryset.delete() returns the number of nodes deleted, the chosen ones and all below them. If Django refuses the deletion (a foreign key with PROTECT or RESTRICT refers to one of these nodes, or a pre_delete handler raises), the error is raised and the tree is exactly as before.", "quantifier": "every consistent tree, every set of nodes, every rule of refusal, MP, NS, AL and LT, in autocommit mode", "why_tests_cant": "the rule of refusal depends on the rest of the project, and the test models have no protecting foreign keys", "anchors": ["treebeard/mp_tree.py: MP_NodeQuerySet.delete", "treebeard/ns_tree.py: NS_NodeQuerySet.delete", "treebeard/ltree/__init__.py: LT_NodeQuerySet.delete", "treebeard/models.py: Node.delete"]}
{"id": "C64", "title": "Several siblings can be added with one target object", "statement": "After any number of successful objects.add_sibling(target, pos, ...) calls on one in-memory target object, which is not refreshed in between, the tree is consistent, and each new node is a sibling of the target at the place asked relative to the target node (first, last, directly left or right of it). A further call on the same object succeeds too and does what is asked.", "quantifier": "every consistent tree without node_order_by, every target object that was current before the first call, every finite sequence of sibling positions and new nodes, MP, NS, AL and LT", "why_tests_cant": "the tests fetch the target anew before each call, or make one call only; what goes wrong depends on the sequence of positions and on the shape of the tree", "anchors": ["treebeard/mp_tree.py: MP_NodeManager.add_sibling", "treebeard/ns_tree.py: NS_NodeManager.add_sibling", "treebeard/ns_tree.py: NS_NodeManager.get_parent", "treebeard/al_tree.py: AL_NodeManager.add_sibling", "treebeard/ltree/__init__.py: LT_NodeManager.add_sibling"]}
{"id": "C65", "title": "Cached parents do not matter", "statement": "For a node object whose fields agree with its row, get_parent(), get_ancestors(), get_root() and get_depth() give what the tree implies, and add_sibling() and move() with it as target put the node where asked, whatever the object has cached in earlier calls (its parent, the parent's parent and so on, its depth). With update=True, get_parent() and get_depth() do not use cached values at all.", "quantifier": "every consistent tree, every node, every cached chain of ancestors and depth; MP, NS and AL (LT caches nothing)", "why_tests_cant": "which cached values are stale depends on the whole history of calls through other objects", "anchors": ["treebeard/mp_tree.py: MP_NodeManager.get_parent", "treebeard/ns_tree.py: NS_NodeManager.get_parent, add_sibling, move", "treebeard/al_tree.py: AL_NodeManager.get_parent, get_ancestors, get_root, AL_Node.get_depth", "treebeard/models.py: Node.refresh_from_db"]}
{"id": "C66", "title": "AL: every primary key is treated alike", "statement": "The answers of get_siblings, get_first_sibling, get_last_sibling, get_prev_sibling and get_next_sibling, and the place where add_sibling and move put a node, do not depend on what the primary keys are: they agree with the forest for every key the database accepts, 0 included.", "quantifier": "every consistent AL tree with any primary keys, every node, target and position", "why_tests_cant": "the test models use automatic keys, which never take the value that counts as false in Python", "anchors": ["treebeard/al_tree.py: AL_NodeManager.get_siblings, add_sibling, move, _make_hole_and_get_sibling_order, _get_new_sibling_order"]}
{"id": "C67", "title": "Objects of inherited models are treated like objects of the tree model", "statement": "With multi-table inheritance a node can be held as an object of the tree model or of a model that inherits from it. add_sibling and move give the same outcome (the place asked for, or the same exception) whatever the classes of the node and target objects are.", "quantifier": "every consistent tree of the four backends, every node and target, every pair of classes, every position, with and without node_order_by where stated", "why_tests_cant": "the code compares objects with ==, which is false for objects of different classes with the same key; which comparisons matter depends on the place, on free positions and on whether the node is a leaf", "anchors": ["treebeard/mp_tree.py: _reorder_nodes_before_add_or_move, move", "treebeard/ns_tree.py: add_sibling, move", "treebeard/al_tree.py: move, _is_target_pos_the_last_sibling", "treebeard/ltree/__init__.py: move"]}
{"id": "C68", "title": "The tree columns stay in range", "statement": "The tree columns are PositiveIntegerFields; the database refuses a statement that leaves a number below 0 or above the largest integer M of the column. NS (lft, rgt, tree_id, depth): from a consistent tree, no add, move or delete makes such a statement, not even between its statements, if M is at least four times the rows plus 2 and above every tree number; no history of calls does if M is at least four times the rows and calls plus 2 and every tree number plus the calls. AL (sib_order): the same if every position plus the calls is at most M. The calls then behave as if the columns had no range. Both conditions are needed: a move between two tables that fit can be refused, and moves alone use up the tree numbers (NS) and positions (AL) of a tree with two rows.", "quantifier": "every M, every consistent tree, every call with every position, every history of calls; AL without node_order_by", "why_tests_cant": "the values between the statements are not visible afterwards, and no test makes two billion calls", "anchors": ["treebeard/ns_tree.py: lft, rgt, tree_id, depth; add_root, add_child, add_sibling, move, _get_close_gap_sql, _move_tree_right, NS_NodeQuerySet.delete", "treebeard/al_tree.py: sib_order; add_root, add_child, add_sibling, move, _get_new_sibling_order"]}
{"id": "C69", "title": "Concurrent moves", "statement": "move locks nothing. NS, MP and LT: if any number of clients call move concurrently, each in a tree of its own that it does not leave (no call makes a root), then in every interleaving of their statements the committed table is at every moment the one that the committed calls give one after the other, and every call ends, with a result or an exception, as it would alone at the start. AL: if no client moves its node into a branch that a client moves, then in every interleaving the committed table is a forest: no cycles, no orphans, the data unchanged, every node below the parent it had or one that a committed call asked for. Without these conditions the backends break: two MP or LT moves lose a node, NS moves in one tree leave intervals that are not nested, a move that makes a root upsets moves in other trees in NS, MP and LT, and two AL moves make a cycle.", "quantifier": "every consistent table, any number of clients, every position, with or without node_order_by, every interleaving of the statements under READ COMMITTED", "why_tests_cant": "tests run one connection; the interleavings of the statements of many clients are unbounded", "anchors": ["treebeard/ns_tree.py: move, _get_close_gap_sql, _move_tree_right, _move_right", "treebeard/al_tree.py: move, _get_new_sibling_order", "treebeard/models.py: Node.move, _prepare_pos_var_for_move", "treebeard/mp_tree.py: MP_MoveHandler.process, MP_ComplexAddMoveHandler", "treebeard/ltree/__init__.py: move, _get_new_path, _move_subtree_right"]}
{"id": "C70", "title": "Objects of deleted nodes", "statement": "A call with the object of a node that is not in the table any more does not disturb the tree. add_child below a deleted node raises (all backends); delete of a deleted node changes nothing (all backends); move of a deleted node changes nothing in MP and NS; move to a deleted target changes nothing in NS, and in MP next to the target or below an object that says it is a leaf; in AL add_sibling and move next to a node that was deleted with its parent raise, and move below a deleted node raises. Otherwise the code fails: AL and LT put a moved deleted node back into the table (LT with the children of the node that has got its path), AL makes a cycle when a node goes next to a deleted node from below it, MP moves below another node that has got the path of the target, LT moves below a deleted node and MP and LT add_sibling next to a node deleted with its parent leave a node without a parent, and NS add_sibling next to a deleted node corrupts the intervals.", "quantifier": "every table (consistent or not), every object whose primary key is not in the table, whatever its other fields, every position, with or without node_order_by", "why_tests_cant": "the stale fields of the object and the table are arbitrary; tests use freshly fetched objects", "anchors": ["treebeard/mp_tree.py: MP_Node.move, add_child, add_sibling, delete", "treebeard/ns_tree.py: move, add_child, add_sibling, delete", "treebeard/al_tree.py: move, add_child, add_sibling, delete", "treebeard/ltree/__init__.py: move, add_child, add_sibling, delete"]}
{"id": "C71", "title": "Length of ltree labels", "statement": "PostgreSQL refuses ltree labels over a fixed length (1000 characters, 255 before version 16), and the labels never get shorter by themselves. Every addition or move makes the longest label of the table at most one character longer, and a deletion makes none longer; so a history with n additions and moves on a consistent table with labels of at most M characters never has a label over M + n characters. The bound is reached: on three root nodes, n moves that exchange the first two make the label of the third, which is never moved, n characters longer, so that every limit is exceeded after that many moves although the tree stays as small as it was.", "quantifier": "every consistent table, every history of operations on freshly fetched nodes, with or without node_order_by, every limit", "why_tests_cant": "tests make a few moves; the growth shows only after hundreds of moves, and the bound is about all histories", "anchors": ["treebeard/ltree/__init__.py: generate_label, _get_new_path, _move_subtree_right, add_root, add_child, add_sibling, move"]}
{"id": "C72", "title": "MP: how long the positions last", "statement": "Positions among siblings are numbers below (length of the alphabet) ** steplen, and removing or moving nodes leaves holes that are not used again. Every addition or move raises the highest position in the table by at most one, and a deletion does not raise it. So, from the empty table, any history with fewer additions and moves than there are positions (less one), and with no more additions than the path field has room for levels (or asking for no deeper child), never raises PathOverflow, keeps the tree consistent after every call, and gives exactly the tree asked for, the same as the nested sets implementation. The count cannot be raised: two nodes, moved behind each other again and again, use up all the positions, and then add_root and further such moves raise PathOverflow although the table has two rows.", "quantifier": "every history of operations on freshly fetched nodes, with or without node_order_by (without nulls), every alphabet and steplen, every consistent starting table", "why_tests_cant": "tests have 36 ** 4 positions and never get near; the bound is about all histories and all alphabets", "anchors": ["treebeard/mp_tree.py: _inc_path, _get_path, _reorder_nodes_before_add_or_move, add_root, add_child, add_sibling, move"]}
{"id": "C73", "title": "The admin's tree page in the browser shows the tree", "statement": "The page starts with a page of the roots; clicks on the buttons of rows open and close nodes, dragging a row over a closed one opens it, and the children are fetched page by page on first opening. Whatever the user does and whenever the answers come, nothing fails, and the rows of the table are always in tree order, each node once, with its level, its parent and a button exactly if it has children; outstanding requests end after finitely many answers. A user who waits for the answers sees, after any number of events, exactly the roots and the children of the nodes that are open, in tree order, and the buttons show which nodes are open. Not so for a user who does not wait: closing a node above one that is being loaded leaves visible rows below hidden ones, and a second click on a node that is being loaded leaves a button that is open and closed. A node with primary key 0 cannot be closed (endless recursion), and with the parameter `all` in the address children that would be paged appear several times.", "quantifier": "every consistent tree of every implementation, every page size, every page of the roots, every sequence of clicks, drags and answers in any order", "why_tests_cant": "the test suite does not run the JavaScript; the order of clicks and answers is unbounded", "anchors": ["treebeard/static/treebeard/treebeard-admin.js: Node, setupData, setupDragHandler", "treebeard/admin.py: changelist_view, children_view", "treebeard/templatetags/admin_tree.py: tree_context"]}
{"id": "C74", "title": "How many roots a tree can have", "statement": "In nested sets and adjacency lists any number of roots can be added to any consistent tree, each goes last and nothing else changes. In materialized paths add_root succeeds from the empty tree for exactly as many nodes as there are positions less one, and the next call raises PathOverflow. In LT add_root succeeds for exactly 702 nodes from the empty tree, and the next call raises ValueError, although PostgreSQL would take more: add_root fails exactly if all the labels of one or two letters are in use by roots, in a history of add_root, add_child and delete exactly if there are 702 roots, and there are never more. With node_order_by it fails exactly if these labels are in use and the new node sorts behind all the roots, so the 703rd of nodes that come in order fails; the same holds for add_child and the children of a node. add_sibling has no such limit, so there are trees with more than 702 roots, and the dump of every such tree cannot be loaded into an empty table.", "quantifier": "every consistent tree, every number of new nodes, every alphabet and steplen, every history of add_root, add_child and delete, every structure to load", "why_tests_cant": "tests add a handful of roots; the limits are about all sequences of additions", "anchors": ["treebeard/ltree/__init__.py: generate_label, _get_new_path, add_root, add_child, add_sibling", "treebeard/mp_tree.py: add_root, _inc_path", "treebeard/ns_tree.py: add_root", "treebeard/al_tree.py: add_root", "treebeard/models.py: load_bulk, dump_bulk"]}
{"id": "C75", "title": "Admin pages and drops are all or nothing", "statement": "A submitted add or change page of TreeAdmin is answered with a redirect only if the form and its inlines are valid, the form's save succeeded and so did saving the rest of the page, and then the table is what these made of it; with any other answer (the page again with its errors, or a server error) the table is as it was, although the form writes to it before the inlines are validated. A drop is answered with OK only if the node was moved as asked, as last child of the target or just before it (with node_order_by at its sorted place); for moves to a descendant, for full parents, without permission and for keys of no node the answer is an error and the table is unchanged.", "quantifier": "every consistent tree of the four kinds, every page and reference, every outcome of saving the rest of the page, every drop, every permission", "why_tests_cant": "tests have one inline error on one tree; the claim is about every page, every exception and every state", "anchors": ["treebeard/admin.py: _changeform_view, move_node", "treebeard/forms.py: save"]}
{"id": "C76", "title": "Search, filters and actions of the admin's tree list", "statement": "With search terms or list filters every request of the tree list shows the hits among the children of the node asked for, in tree order, and who opens everything finds every hit. An action is applied to exactly the nodes that were ticked, or with \"Select all n nodes\" to these n nodes. The page that asks for the confirmation of a deletion lists exactly the nodes that will be deleted.", "quantifier": "every consistent tree of the four kinds, every set of hits, every selection", "why_tests_cant": "tests search one small tree; which hits are found depends on every combination of hits and tree", "anchors": ["treebeard/admin.py: get_queryset, changelist_view, children_view", "treebeard/static/treebeard/treebeard-admin.js: loadChildren", "treebeard/templatetags/admin_tree.py: tree_context"]}
{"id": "C77", "title": "The admin and the form of an inherited model", "statement": "The admin's tree list of a model that inherits from the tree model shows, for every request, the nodes of this model among the children of the node asked for, in tree order, with a button for exactly those that have something to show; who opens everything finds all nodes of the model. The reference field of the form lists the nodes that are not the edited node or below it, all of them can be chosen, and a form sent back unchanged is accepted.", "quantifier": "every consistent tree of the four kinds, every set of nodes that are of the inherited model", "why_tests_cant": "the test models that inherit are used in trees where every node is of one model; the failures need mixed trees", "anchors": ["treebeard/admin.py: get_queryset", "treebeard/templatetags/admin_tree.py: annotate_has_children", "treebeard/forms.py: _set_ref_model_queryset"]}
{"id": "C78", "title": "Deletions at the same time", "statement": "The statements of delete are committed one by one. When several clients delete at the same time, with their statements interleaved in any way, then at the end the tree is consistent and exactly the nodes are gone that one of them chose, together with everything below them; a deletion that runs among other calls deletes what it was asked to delete and leaves no node without its parent.", "quantifier": "every consistent tree of the four kinds, any number of clients, any sets of nodes chosen, every interleaving of their statements, clients that die on the way (LT, AL)", "why_tests_cant": "the test suite has one client, and the failures need a certain order of the statements of two clients", "anchors": ["treebeard/mp_tree.py: MP_NodeQuerySet.delete", "treebeard/ns_tree.py: NS_NodeQuerySet.delete", "treebeard/ltree/__init__.py: delete", "treebeard/al_tree.py: AL_Node"]}
{"id": "C79", "title": "Moving several nodes in a loop", "statement": "Code that fetches nodes, and then moves them one after the other relative to one target in a loop (as a selection of rows in a view), does what it does with objects fetched anew before each move: the tree is consistent, the data is unchanged and every node goes where it was asked for, up to the first one that is refused.", "quantifier": "every consistent tree of the four kinds, any list of its nodes of any length, any target and position", "why_tests_cant": "the tests move one node at a time with objects just fetched; which lists and positions are safe differs between the four kinds", "anchors": ["treebeard/mp_tree.py: move", "treebeard/ns_tree.py: move", "treebeard/al_tree.py: move", "treebeard/ltree/__init__.py: move"]}
{"id": "C80", "title": "Deleting several nodes in a loop", "statement": "Code that fetches nodes and then calls delete() on each of them in a loop, or deletes them batch after batch, leaves what one queryset.delete() of all of them leaves, in whatever order: these nodes and everything below them are gone, the tree is consistent and the other nodes keep their places and data. It does not matter that an object is out of date, comes twice, or that its row has gone already with an ancestor.", "quantifier": "every consistent tree of the four kinds (with or without node_order_by), any list of node objects of any age and length, any list of batches of keys", "why_tests_cant": "the tests delete one node or one query set; the number of children (MP) and the intervals (NS) are changed by each deletion while the objects of the later ones still have the old values", "anchors": ["treebeard/models.py: delete", "treebeard/mp_tree.py: delete", "treebeard/ns_tree.py: delete", "treebeard/ltree/__init__.py: delete"]}
{"id": "C81", "title": "Copying a branch", "statement": "load_bulk(dump_bulk(node, keep_ids=False), parent) copies the branch of node inside the same tree: the copy is the last child of parent (the last root without one), it has the shape, the order and the data of the branch as it was before, all its nodes are new, nothing else changes and the tree is consistent. parent may be node itself or a node below it. The keys returned are those of the new nodes.", "quantifier": "every consistent tree of the four kinds without node_order_by, every node and every parent, any size of the branch, any source of fresh keys; for MP while the positions and the path length suffice; for LT below a node, or as a root while the labels of the roots are the first letters", "why_tests_cant": "the tests load fixed dictionaries into fixed tables; here the dump is read from the tree that is changed, and the parent may lie inside what is copied, so each node added moves the very intervals, paths and child counts the dump came from", "anchors": ["treebeard/models.py: load_bulk", "treebeard/mp_tree.py: dump_bulk", "treebeard/ns_tree.py: dump_bulk", "treebeard/al_tree.py: dump_bulk", "treebeard/ltree/__init__.py: dump_bulk"]}
{"id": "C82", "title": "Migrating a tree from one kind of model to another", "statement": "What dump_bulk() of a tree of any of the four kinds returns can be loaded by load_bulk() of a model of any other kind: the new table is consistent and holds the same tree in the same order with the same data, with keep_ids also the same primary keys. Several migrations in a row restore the tree too.", "quantifier": "every consistent source tree of any kind and size, any target kind with an empty table; for an MP target the positions and path lengths have to suffice, with node_order_by at the target the tree has to be sorted, for LT at most 26 roots", "why_tests_cant": "the tests dump and load with one class and fixed data; the pairs of kinds and the shapes where the limits of the target matter are not tried", "anchors": ["treebeard/models.py: load_bulk", "treebeard/mp_tree.py: dump_bulk", "treebeard/ns_tree.py: dump_bulk", "treebeard/al_tree.py: dump_bulk", "treebeard/ltree/__init__.py: dump_bulk"]}
{"id": "C83", "title": "Putting siblings in a chosen order", "statement": "Children fetched before and moved one after the other to last-child of their parent, or to last-sibling of one of them, end up last among their siblings in the order of the list; so a list of all the children in any order becomes the order of the children. The other siblings keep their order, nothing else in the tree changes, the table stays consistent and the data of the nodes are untouched.", "quantifier": "every consistent tree of any kind without node_order_by, every parent (or the roots), every list without repetitions of its children, of any length; the objects are those of before the loop", "why_tests_cant": "the tests move one node at a time with objects fetched anew; what a loop does with stale objects depends on the order asked for and on the sizes of the branches", "anchors": ["treebeard/mp_tree.py: move", "treebeard/ns_tree.py: move", "treebeard/al_tree.py: move", "treebeard/ltree/__init__.py: move"]}
{"id": "C84", "title": "Merging a node into another one", "statement": "When the children of a node are moved one after the other to last-child of another node and the node is deleted then, exactly this node is gone; the children it had, with all that is below them, come after the children of the other node, in their order; everything else, data included, is as before and the table is consistent. For MP the moves can stop because no position is left; then no node is deleted.", "quantifier": "every consistent tree of any kind without node_order_by, any two different nodes of which the second is not below the first, whatever their places and sizes of branches; the objects are those of before the loop", "why_tests_cant": "deletion removes the descendants by path, range or recursion as the table says, so it is right only if all moves with stale objects were; tests do not combine moves and deletions", "anchors": ["treebeard/mp_tree.py: move", "treebeard/mp_tree.py: delete", "treebeard/ns_tree.py: move", "treebeard/ns_tree.py: delete", "treebeard/al_tree.py: move", "treebeard/models.py: delete", "treebeard/ltree/__init__.py: move"]}
{"id": "C85", "title": "A move can be undone", "statement": "After a node was moved anywhere, moving it back to where it was (right of its former left neighbour, left of its right neighbour, first or last below its former parent or among its former siblings) gives exactly the former tree: the same forest in the same order, the same data, and a consistent table.", "quantifier": "every consistent tree of any kind without node_order_by, every node, target and position that is not refused, every description of the former place by another node", "why_tests_cant": "the two moves use other branches of the code and other numbers, paths or labels than before; which ones depends on holes and on what was shifted by the first move", "anchors": ["treebeard/mp_tree.py: move", "treebeard/ns_tree.py: move", "treebeard/al_tree.py: move", "treebeard/ltree/__init__.py: move"]}
{"id": "C86", "title": "A branch cut out and pasted is moved", "statement": "Dumping the branch of a node with its primary keys, deleting the node and loading the dump below another node (or as a root) with keep_ids gives the tree with the branch moved there as the last child (the last root): the same nodes, order, data and primary keys, in a consistent table.", "quantifier": "every consistent tree of any kind without node_order_by, every node, every parent outside its branch; MP where a position after the last one is left and the paths fit; LT below a parent, or as a root where the other roots have the first letters", "why_tests_cant": "it composes three operations of which each rewrites other parts of the table; the parent has to be fetched after the deletion, and the paths, numbers or labels of the pasted branch are new ones", "anchors": ["treebeard/models.py: dump_bulk, load_bulk, delete", "treebeard/mp_tree.py: dump_bulk, MP_NodeQuerySet.delete", "treebeard/ns_tree.py: dump_bulk, NS_NodeQuerySet.delete", "treebeard/al_tree.py: dump_bulk", "treebeard/ltree/__init__.py: dump_bulk, delete"]}
{"id": "C87", "title": "A node can be dissolved", "statement": "Moving every child of a node right behind it, the last one first, and then deleting the node takes exactly this node out of the tree: its children, in their order and with their branches, are in its place, nothing else changes, and the table is consistent. This holds with all objects fetched before the first move.", "quantifier": "every consistent tree of any kind without node_order_by and every node, root or not, with any number of children; MP unless no path is left among the siblings; LT up to the order of the siblings after the first child", "why_tests_cant": "every move changes the rows the next one works on, and the objects for the children and the node are those from before the loop", "anchors": ["treebeard/mp_tree.py: MP_MoveHandler", "treebeard/ns_tree.py: move", "treebeard/al_tree.py: move", "treebeard/ltree/__init__.py: move", "treebeard/models.py: delete"]}
{"id": "C88", "title": "Many-to-many relations survive dump and load", "statement": "Loading nested data with many-to-many relations does to the tree what it does without them; every loaded node is then related to exactly the objects that its data gives, and no other relation changes. With bulk_create the relations end the same. Dumping a whole tree and loading it into an empty table gives every node the related objects it had.", "quantifier": "every table, parent, nested data of any depth with different keys, and earlier relations; for the round trip every tree for which C19 holds, any number of many-to-many fields, with and without keep_ids", "why_tests_cant": "unbounded recursive structures; bulk_create stores the nodes in another order than the data has and pairs the created objects with their sources again", "anchors": ["treebeard/utils.py: save_m2m, prepare_dumpdata_for_loading", "treebeard/models.py: NodeManager.load_bulk", "treebeard/mp_tree.py: load_bulk, dump_bulk", "treebeard/ns_tree.py: dump_bulk", "treebeard/al_tree.py: dump_bulk", "treebeard/ltree/__init__.py: dump_bulk"]}
{"id": "C89", "title": "A tree can be sorted anew", "statement": "With node_order_by, moving each of the nodes of a group once to sorted-sibling of itself sorts the group, whatever the order before (values were edited with save() or update(), or node_order_by is new): nodes with equal values are in the order in which they were moved, no node changes its parent, data and the groups without a moved node are as before, and the table is consistent. With all nodes of the tree moved the whole tree is sorted.", "quantifier": "every consistent tree of any kind, any values that are not null, any list of different nodes, fetched anew before each move; for MP the greater siblings first", "why_tests_cant": "the siblings that make room are those greater than the moved one, which are any subset of the siblings as long as the tree is not sorted; unbounded number of moves", "anchors": ["treebeard/models.py: NodeManager.get_sorted_pos_queryset", "treebeard/mp_tree.py: move", "treebeard/ns_tree.py: move", "treebeard/al_tree.py: move", "treebeard/ltree/__init__.py: move"]}
{"id": "C90", "title": "The form's list of nodes shows the tree", "statement": "The choices of the field 'Relative to' of the move form, and of the admin, are '-- root --' and then the nodes in depth-first order without the edited node and what is below it. Each label shows four non-breaking spaces per level above the node and then the node's text, escaped unless it is marked safe. Reading the indentation gives back exactly the parents, children and order of siblings, so two trees whose forms show the same list are the same.", "quantifier": "every consistent tree of any kind and size, every edited node or none, any texts (for the last sentence: that do not begin with a non-breaking space)", "why_tests_cant": "the list must be readable for trees of all shapes; the claim compares all pairs of trees", "anchors": ["treebeard/forms.py: TreeNodeChoiceField, MoveNodeForm._set_ref_model_queryset", "treebeard/*_tree.py: get_tree, get_descendants, get_depth"]}
{"id": "C91", "title": "Loading data in any order into a sorted tree", "statement": "With node_order_by, load_bulk of nested data in any order gives a consistent tree: every item is a child of the node that it is a child of in the data (of the given parent, or a root), every group of siblings is sorted, siblings with equal values are in the order of the data behind those that were there before, and no other node or value changes. This determines the result. The primary keys returned are those of the data in its order.", "quantifier": "every consistent sorted tree, parent or none, nested data of any size and depth with new keys and no nulls in the order fields", "why_tests_cant": "unbounded nested data in all orders, with every addition moving earlier ones to other paths or positions", "anchors": ["treebeard/models.py: load_bulk", "treebeard/mp_tree.py, ns_tree.py, al_tree.py, ltree/__init__.py: add_root, add_child", "treebeard/models.py: get_sorted_pos_queryset"]}
{"id": "C92", "title": "A sorted tree is the unsorted tree, sorted", "statement": "Take any history of additions, moves and deletions on a model with node_order_by, and run it again on a model without it, with every added or moved node put behind its new siblings (calls that node_order_by refuses are left out). The first tree is the second one with every group of siblings sorted by the order fields, equal siblings in the order of the second tree; the nodes are the same. Hence two histories that give the same values without ties, and the same parents without order, give the same sorted tree.", "quantifier": "all histories of any length from the empty table, no nulls in the order fields", "why_tests_cant": "two runs of unbounded histories compared, the stability over all moves and ties", "anchors": ["treebeard/models.py: get_sorted_pos_queryset, _prepare_pos_var_for_add_sibling, _prepare_pos_var_for_move", "treebeard/mp_tree.py, ns_tree.py, al_tree.py, ltree/__init__.py: add_root, add_child, add_sibling, move, delete"]}
{"id": "C93", "title": "Merging and dissolving nodes of a sorted tree", "statement": "With node_order_by: when the children of a node are fetched and moved one by one with sorted-child to another node (outside its branch), or with sorted-sibling next to the node itself, and the node is then deleted, exactly this node is gone; its children, with their branches, are children of the other node (of the node's parent, or roots); every group of siblings is sorted, equal siblings keep their order with the moved ones last; all other nodes and all data are as before and the table is consistent.", "quantifier": "every consistent sorted tree, every node and every other node not below it, any number of children", "why_tests_cant": "unbounded trees and numbers of children; the stability among equal values over the whole loop", "anchors": ["treebeard/mp_tree.py, ns_tree.py, al_tree.py, ltree/__init__.py: move, delete", "treebeard/models.py: get_sorted_pos_queryset"]}
{"id": "C94", "title": "The deprecated methods of the model are those of the manager", "statement": "For every kind of tree: Model.name(...) and node.name(...) for the 25 moved names, Model.add_root, node.add_child, node.add_sibling and node.move show one warning that names the method and then do, return and raise exactly what Model.objects.name does with the same arguments (the node first, the keywords of the add methods as create_kwargs); overrides in the author's own manager class are used. The manager has each of these methods, except fix_tree (NS, AL, LT) and find_problems (AL, LT), which are an AttributeError and change nothing.", "quantifier": "all four backends, all of the names, every model whose own classes do not define the name, every manager class, all arguments (no keyword called treebeard_method; no field called instance or pos) and states", "why_tests_cant": "the methods are injected at import for all models; user-written models and managers and argument lists are unbounded", "anchors": ["treebeard/models.py:58-95, 136-176", "treebeard/deprecation.py"]}
{"id": "C95", "title": "A model that passes the check can be used as a tree", "statement": "If the system check (treebeard.E001) reports nothing, Model.objects is a manager of the model's kind of tree, so that every tree method is found; and a model all of whose managers are subclasses of treebeard's passes the check.", "quantifier": "every model of the four backends, any number of own managers in any order, with or without default_manager_name", "why_tests_cant": "author-written classes and orders of declaration are unbounded", "anchors": ["treebeard/models.py:114-128"]}
{"id": "C96", "title": "Copying a branch in a sorted tree", "statement": "With node_order_by: load_bulk(dump_bulk(node, keep_ids=False), parent) adds a copy of the branch of the node: new nodes, one for each node of the branch, with the same data and, below the top, the same children in the same order; the top of the copy stands below the given parent (or among the roots) behind every sibling that is not greater and before the greater ones; all other nodes, their order and their data are as before; the table is consistent and sorted.", "quantifier": "every consistent sorted tree, every node, every parent (also inside of the branch itself) or none, all sequences of new keys", "why_tests_cant": "unbounded branches; the copy is always equal to its original, so that ties are the rule", "anchors": ["treebeard/models.py: load_bulk", "treebeard/mp_tree.py, ns_tree.py, al_tree.py, ltree/__init__.py: dump_bulk, add_root, add_child"]}
{"id": "C97", "title": "Loads and copies fail only for lack of room", "statement": "MP with node_order_by: if no node has a position beyond M, and M plus the number of loaded nodes stays below the number of positions that steplen characters can write (less one), and the levels of the new nodes fit in the path field, then load_bulk succeeds (with the result of C91), and so does the copy of a branch (with the result of C96), and, counting the children that are handed over, merging or dissolving a node (with the result of C93): PathOverflow is not raised, though every single sorted insertion may shift the positions of all later siblings.", "quantifier": "every consistent sorted table, every structure of new nodes, all their values, every parent or none; all alphabets, steplen and lengths of the path field", "why_tests_cant": "the position counters of every group of siblings, over any number of insertions", "anchors": ["treebeard/models.py: load_bulk", "treebeard/mp_tree.py: MP_AddRootHandler, MP_AddChildHandler, MP_AddSiblingHandler, reorder_nodes_before_add_or_move, _int2str, _inc_path"]}
{"id": "C98", "title": "An object is up to date after refresh_from_db()", "statement": "After refresh_from_db() every field of the object has the stored value, none of the names in _cached_attributes is left among its attributes (whichever of them were set before), every other attribute is as before, and a cached foreign key object is dropped; so get_parent() (MP, NS) and get_parent(), get_ancestors(), get_root(), get_depth() (AL) then answer as the stored tree implies, with and without update=True. With fields=... the queries answer so too if the fields that place the node are among them (MP: path; NS: tree_id, lft, rgt; AL: parent). If the node is gone, DoesNotExist is raised.", "quantifier": "every consistent table, every node, every object of it with any field values and any cached attributes (stale ones too), every list of additional _cached_attributes", "why_tests_cant": "objects with arbitrary stale state; any subset of the names may be missing from the object", "anchors": ["treebeard/models.py: refresh_from_db, _clear_cached_attributes, _cached_attributes", "treebeard/al_tree.py: get_depth, get_ancestors", "treebeard/mp_tree.py: get_parent", "treebeard/ns_tree.py: get_parent"]}
{"id": "C99", "title": "A branch cut out and pasted in a sorted tree", "statement": "With node_order_by: dumping the branch of a node with its primary keys, deleting the node and loading the dump below another node (or among the roots) with keep_ids moves the branch: the node stands behind all its new siblings that are not greater and before the greater ones, all other groups of siblings (inside of the branch too) keep their order, data and primary keys are the same, and the table is consistent and sorted. This is the tree that move(..., 'sorted-child') gives.", "quantifier": "every consistent sorted tree without nulls in the order fields, every node, every new parent outside of its branch or none", "why_tests_cant": "unbounded trees and branches; three operations in a row, equal siblings", "anchors": ["treebeard/models.py: load_bulk, delete", "treebeard/mp_tree.py, ns_tree.py, al_tree.py, ltree/__init__.py: dump_bulk, delete", "treebeard/models.py: get_sorted_pos_queryset"]}
{"id": "C100", "title": "Of several moves of a node only the last one counts", "statement": "If a node object is moved several times in a row (targets fetched before each move, the object used as the move before left it, any mixture of positions), all moves succeed, and the last target is not the node itself, then moving the node by the last of the moves only would have succeeded too and given the same tree with the same data; nothing of the moves before is left (no gap, no changed order of the other nodes, no wrong count).", "quantifier": "every consistent tree, every node, every list of moves of any length, with and without node_order_by", "why_tests_cant": "lists of moves of any length over any tree; gaps and shifted siblings that a move leaves show only after several more", "anchors": ["treebeard/mp_tree.py: move", "treebeard/ns_tree.py: move", "treebeard/al_tree.py: move", "treebeard/ltree/__init__.py: move"]}
{"id": "C101", "title": "A deletion takes the same away wherever the node was moved before", "statement": "If a node is moved any number of times and then deleted, alone or in a queryset with any other nodes, the tree and the data that remain are those that the same deletion leaves without the moves: exactly the chosen nodes and what is below them go, nothing that the node was moved to goes with it, and the order (and for MP the child counts) of the remaining nodes show no trace of the moves.", "quantifier": "every consistent tree, every node, every list of successful moves, every set of nodes deleted with it", "why_tests_cant": "unbounded lists of moves and arbitrary sets of nodes, nested in each other", "anchors": ["treebeard/mp_tree.py: move, delete", "treebeard/ns_tree.py: move, delete", "treebeard/al_tree.py: move", "treebeard/ltree/__init__.py: move, delete"]}
{"id": "C102", "title": "Nodes that come and go leave no trace", "statement": "Any history of calls that add, load, move, edit and delete only new nodes (guests), with the nodes that were there before serving as targets and parents only, followed by the deletion of all the guests, gives back the tree as it was: the same nodes with the same values and child counts, below the same parents, in the same order. Calls that raise on the way make no difference.", "quantifier": "every consistent tree, every set of unused keys, every history of add_root, add_child, add_sibling, move, save, load_bulk, delete and fix_tree calls that concern only nodes with these keys, with any targets, positions and values, with or without node_order_by", "why_tests_cant": "unbounded histories of interleaved calls, with guests below guests and below every other node", "anchors": ["treebeard/mp_tree.py: add_root, add_child, add_sibling, move, delete, fix_tree", "treebeard/ns_tree.py: add_root, add_child, add_sibling, move, delete", "treebeard/al_tree.py: add_root, add_child, add_sibling, move", "treebeard/ltree/__init__.py: add_root, add_child, add_sibling, move, delete", "treebeard/models.py: load_bulk"]}
{"id": "C103", "title": "Only the fields of node_order_by matter to the tree", "statement": "Two tables that show the same tree, and two histories of calls that are the same but for the values of fields that are not in node_order_by, give the same tree: the same nodes below the same parents in the same order. Without node_order_by no value matters, and saving a node with any new values, at any time and any number of times, makes no difference to where nodes are or go.", "quantifier": "every pair of consistent tables that show the same tree with the same values in the fields of node_order_by, every pair of histories of add_root, add_child, add_sibling, move, delete, save, load_bulk and fix_tree that agree but for other values (without node_order_by: but for values and for edits on either side)", "why_tests_cant": "it compares two runs, over all histories and all values", "anchors": ["treebeard/models.py: get_sorted_pos_queryset, load_bulk", "treebeard/mp_tree.py: add_root, add_child, add_sibling, move", "treebeard/ns_tree.py: add_root, add_child, add_sibling, move", "treebeard/al_tree.py: add_root, add_child, add_sibling, move", "treebeard/ltree/__init__.py: add_root, add_child, add_sibling, move"]}
{"id": "C104", "title": "Primary keys are only names", "statement": "Two tables that show the same tree and data but for the primary keys, and the same history of calls on either with the keys translated, give the same tree and data but for the keys: which keys the nodes have, and how they compare, makes no difference to where nodes are or go, which calls raise, and what is deleted.", "quantifier": "every injective translation of keys, every pair of consistent tables that show the same tree up to the translation, every history of add_root, add_child, add_sibling, move, delete, save, load_bulk and fix_tree, with or without node_order_by", "why_tests_cant": "it compares two runs, over all histories and all translations of keys; tests use the keys that the database hands out", "anchors": ["treebeard/mp_tree.py: add_root, add_child, add_sibling, move, delete", "treebeard/ns_tree.py: add_root, add_child, add_sibling, move, delete", "treebeard/al_tree.py: get_siblings, add_root, add_child, add_sibling, move", "treebeard/ltree/__init__.py: add_root, add_child, add_sibling, move, delete", "treebeard/models.py: load_bulk"]}
