{
 "claims": [
  {
   "property": "C01",
   "status": "proved",
   "theorems": [
    "Verif.C01_round_trip",
    "Verif.C01_round_trip_str"
   ],
   "note": ""
  },
  {
   "property": "C02",
   "status": "proved",
   "theorems": [
    "Verif.C02_steps_sort",
    "Verif.C02_no_room_misorders"
   ],
   "note": "C02_no_room_misorders shows that the fitting hypothesis is needed."
  },
  {
   "property": "C03",
   "status": "proved",
   "theorems": [
    "Verif.C03_alphabet",
    "Verif.C03_alphabet_ok",
    "Verif.C03_negative",
    "Verif.C03_digits",
    "Verif.C03_degenerate_alphabets"
   ],
   "note": "Alphabets of 0 or 1 characters are accepted by the constructor and then fail or loop: C03_degenerate_alphabets."
  },
  {
   "property": "C04",
   "status": "partial",
   "theorems": [
    "Verif.C04_history_partial",
    "Verif.C04_history_sorted"
   ],
   "note": "With node_order_by all histories without nulls. Without it, moves to the left among siblings under MoveFits (C12_move_corrupts)."
  },
  {
   "property": "C05",
   "status": "proved",
   "theorems": [
    "Verif.C05_add_root",
    "Verif.C05_add_child"
   ],
   "note": ""
  },
  {
   "property": "C06",
   "status": "proved",
   "theorems": [
    "Verif.C06_add_sibling"
   ],
   "note": ""
  },
  {
   "property": "C07",
   "status": "partial",
   "theorems": [
    "Verif.C07_move_partial",
    "Verif.C07_move_free",
    "Verif.C12_move_corrupts"
   ],
   "note": "Guard MoveFits, only for moves to the left among siblings: without it the code corrupts the tree (C12_move_corrupts). C07_move_free: no guard for a new parent, the last place, and beside a later sibling."
  },
  {
   "property": "C08",
   "status": "proved",
   "theorems": [
    "Verif.C08_mp",
    "Verif.NS.C08_ns",
    "Verif.AL.C08_al",
    "Verif.LT.C08_lt"
   ],
   "note": ""
  },
  {
   "property": "C09",
   "status": "proved",
   "theorems": [
    "Verif.C09_delete"
   ],
   "note": ""
  },
  {
   "property": "C10",
   "status": "proved",
   "theorems": [
    "Verif.C10_nav",
    "Verif.C10_pair"
   ],
   "note": ""
  },
  {
   "property": "C100",
   "status": "partial",
   "theorems": [
    "Verif.NS.C100_ns",
    "Verif.NS.C100_ns_sorted",
    "Verif.AL.C100_al",
    "Verif.AL.C100_al_sorted",
    "Verif.MP.C100_mp_partial",
    "Verif.MP.C100_mp_sorted",
    "Verif.MP.C100_mp_fails",
    "Verif.LT.C100_lt_partial",
    "Verif.LT.C100_lt_fails"
   ],
   "note": "Full for NS and AL, sorted and unsorted (AL sorted: the very same rows). MP sorted: or the direct move ends with PathOverflow, with the last position taken; MP unsorted: while there is room for one more position per move (C100_mp_fails without it). LT: unsorted and to last places only, the code violates it otherwise (C100_lt_fails)."
  },
  {
   "property": "C101",
   "status": "partial",
   "theorems": [
    "Verif.NS.C101_ns",
    "Verif.NS.C101_ns_sorted",
    "Verif.AL.C101_al",
    "Verif.AL.C101_al_sorted",
    "Verif.MP.C101_mp_partial",
    "Verif.MP.C101_mp_sorted",
    "Verif.LT.C101_lt_partial",
    "Verif.LT.C101_lt_fails"
   ],
   "note": "Full for NS and AL, sorted and unsorted (AL sorted: the very same rows), and for MP sorted. MP unsorted: while there is room for one more position per move. LT: unsorted and to last places only, the code violates it otherwise (C101_lt_fails)."
  },
  {
   "property": "C102",
   "status": "partial",
   "theorems": [
    "Verif.NS.C102_ns",
    "Verif.AL.C102_al",
    "Verif.AL.C102_al_sorted",
    "Verif.MP.C102_mp_partial",
    "Verif.MP.C102_mp_fails",
    "Verif.LT.C102_lt_partial",
    "Verif.LT.C102_lt_fails"
   ],
   "note": "Full for NS, sorted and unsorted, and for AL unsorted. AL sorted: up to the order of siblings, which is computed when they are read. MP, sorted and unsorted: while the moves have the room that they do not check, the code violates it otherwise (C102_mp_fails: a child count of -1 stays behind). LT: up to the order of siblings, the code violates it otherwise (C102_lt_fails)."
  },
  {
   "property": "C103",
   "status": "partial",
   "theorems": [
    "Verif.NS.C103_ns",
    "Verif.AL.C103_al",
    "Verif.AL.C103_al_sorted",
    "Verif.MP.C103_mp_partial",
    "Verif.LT.C103_lt_partial",
    "Verif.LT.C103_lt_fails"
   ],
   "note": "Full for NS, sorted and unsorted, and for AL unsorted. AL sorted: up to the order of siblings, which is computed when they are read. MP: when no call is refused for want of room and the moves have the room that they do not check (two tables that show the same tree may have different gaps, hence different room). LT: no call refused, and up to the order of siblings; the code violates it otherwise (C103_lt_fails)."
  },
  {
   "property": "C104",
   "status": "partial",
   "theorems": [
    "Verif.NS.C104_ns",
    "Verif.AL.C104_al",
    "Verif.AL.C104_al_sorted",
    "Verif.MP.C104_mp_partial",
    "Verif.LT.C104_lt_partial",
    "Verif.AL.C66_al_add_zero"
   ],
   "note": "Full for NS, sorted and unsorted. AL: with get_siblings that takes the key as it is; the code treats the key 0 as no key, which violates the property (C66_al_add_zero). AL sorted: up to the order of siblings, which is computed when they are read. MP: when no call is refused for want of room and the moves have the room that they do not check. LT: no call refused, and up to the order of siblings, which depends on the labels (C103_lt_fails)."
  },
  {
   "property": "C11",
   "status": "proved",
   "theorems": [
    "Verif.C11_mp",
    "Verif.NS.C11_ns",
    "Verif.AL.C11_al",
    "Verif.LT.C11_lt",
    "Verif.LT.C11_lt_zero"
   ],
   "note": "For NS, AL and LT max_depth=0 means no limit."
  },
  {
   "property": "C12",
   "status": "partial",
   "theorems": [
    "Verif.C12_move_corrupts",
    "Verif.C05_add_root",
    "Verif.C05_add_child",
    "Verif.C06_add_sibling",
    "Verif.C07_move_partial"
   ],
   "note": "The code violates it for moves among siblings: C12_move_corrupts is the negation with a witness. For additions it holds (C05, C06), for moves under MoveFits (C07_move_partial)."
  },
  {
   "property": "C13",
   "status": "proved",
   "theorems": [
    "Verif.C13_fix_tree",
    "Verif.C13_fix_branch"
   ],
   "note": ""
  },
  {
   "property": "C14",
   "status": "proved",
   "theorems": [
    "Verif.C14_fix_paths",
    "Verif.C14_tables",
    "Verif.C14_consistent",
    "Verif.stableOrder_orders",
    "Verif.C14_overflow_swap"
   ],
   "note": "Every order the database may return; PathOverflow only with node_order_by, in which case the depth and numchild repairs stay."
  },
  {
   "property": "C15",
   "status": "proved",
   "theorems": [
    "Verif.C15_find_problems",
    "Verif.C15_listed_once",
    "Verif.C15_lists",
    "Verif.C15_accepts_degenerate"
   ],
   "note": ""
  },
  {
   "property": "C16",
   "status": "partial",
   "theorems": [
    "Verif.C16_add_root",
    "Verif.C16_add_child",
    "Verif.C16_add_sibling",
    "Verif.C16_move_partial",
    "Verif.C16_move",
    "Verif.NS.C16_ns_add_root",
    "Verif.NS.C16_ns_add_child",
    "Verif.NS.C16_ns_add_sibling",
    "Verif.NS.C16_ns_move",
    "Verif.AL.C16_al_sorted",
    "Verif.AL.C16_al_add_root_partial",
    "Verif.AL.C16_al_add_child_partial",
    "Verif.AL.C16_al_add_sibling_partial",
    "Verif.AL.C16_al_move_partial",
    "Verif.AL.C16_al_ties",
    "Verif.LT.C16_lt_add_root_partial",
    "Verif.LT.C16_lt_add_child_partial",
    "Verif.LT.C16_lt_add_sibling_partial",
    "Verif.LT.C16_lt_move_partial",
    "Verif.LT.C16_lt_fails"
   ],
   "note": "Non-null values; MP moves of a node with edited values under MoveFits. For AL the place among equal siblings is the database's choice: C16_al_ties. False for LT: C16_lt_fails; the partial theorems say when the sorted place is reached."
  },
  {
   "property": "C17",
   "status": "proved",
   "theorems": [
    "Verif.MP.C17_call",
    "Verif.MP.C17_history",
    "Verif.MP.C17_history_depths"
   ],
   "note": "C17_history: any table; the depth is recomputed only when the path length changes, as the code does. C17_history_depths: recomputed always, from a consistent table."
  },
  {
   "property": "C18",
   "status": "proved",
   "theorems": [
    "Verif.C18_crash",
    "Verif.C18_needs_fix_tree"
   ],
   "note": ""
  },
  {
   "property": "C19",
   "status": "partial",
   "theorems": [
    "Verif.MP.C19_mp_dump",
    "Verif.MP.C19_mp_load",
    "Verif.MP.C19_mp",
    "Verif.NS.C19_ns_dump",
    "Verif.NS.C19_ns_load",
    "Verif.NS.C19_ns",
    "Verif.AL.C19_al_dump",
    "Verif.AL.C19_al_load",
    "Verif.AL.C19_al_load_sorted_partial",
    "Verif.AL.C19_al",
    "Verif.AL.C19_al_sorted_partial",
    "Verif.AL.C19_al_ties",
    "Verif.LT.C19_lt_dump",
    "Verif.LT.C19_lt_load",
    "Verif.LT.C19_lt_load_partial",
    "Verif.LT.C19_lt_partial",
    "Verif.LT.C19_lt_fails"
   ],
   "note": "MP and NS without guard. AL with node_order_by: the order of equal siblings must be certain (C19_al_ties). LT: false with 27 roots (C19_lt_fails); holds for up to 26 roots, and with node_order_by up to 26 children."
  },
  {
   "property": "C20",
   "status": "partial",
   "theorems": [
    "Verif.MP.C20_mp_partial",
    "Verif.MP.C20_mp_overflow",
    "Verif.MP.C20_mp_wrong_parent"
   ],
   "note": "Whenever load_bulk succeeds, with data in sorted order if there is node_order_by. False otherwise: C20_mp_overflow, C20_mp_wrong_parent."
  },
  {
   "property": "C21",
   "status": "proved",
   "theorems": [
    "Verif.NS.C21_history"
   ],
   "note": ""
  },
  {
   "property": "C22",
   "status": "proved",
   "theorems": [
    "Verif.NS.C22_add_root",
    "Verif.NS.C22_add_child",
    "Verif.NS.C22_add_sibling"
   ],
   "note": ""
  },
  {
   "property": "C23",
   "status": "proved",
   "theorems": [
    "Verif.NS.C23_move"
   ],
   "note": ""
  },
  {
   "property": "C24",
   "status": "proved",
   "theorems": [
    "Verif.NS.C24_delete"
   ],
   "note": ""
  },
  {
   "property": "C25",
   "status": "proved",
   "theorems": [
    "Verif.NS.C25_nav",
    "Verif.NS.C25_pair",
    "Verif.NS.C25_count"
   ],
   "note": ""
  },
  {
   "property": "C26",
   "status": "proved",
   "theorems": [
    "Verif.NS.C26_iff",
    "Verif.NS.C26_iff_parent",
    "Verif.NS.C26_sound",
    "Verif.NS.C26_reversed",
    "Verif.NS.C26_misses"
   ],
   "note": "C26_misses: gaps and a root that does not start at 1 are not reported."
  },
  {
   "property": "C27",
   "status": "partial",
   "theorems": [
    "Verif.C27_mp_target",
    "Verif.NS.C27_ns_leaf_partial",
    "Verif.NS.C27_ns_stale"
   ],
   "note": "False for NS targets with children: C27_ns_stale."
  },
  {
   "property": "C28",
   "status": "proved",
   "theorems": [
    "Verif.NS.C28_crash"
   ],
   "note": ""
  },
  {
   "property": "C29",
   "status": "proved",
   "theorems": [
    "Verif.NS.C29_call",
    "Verif.NS.C29_history",
    "Verif.NS.C29_history_empty"
   ],
   "note": ""
  },
  {
   "property": "C30",
   "status": "proved",
   "theorems": [
    "Verif.AL.C30_history",
    "Verif.AL.C30_history_sorted"
   ],
   "note": ""
  },
  {
   "property": "C31",
   "status": "proved",
   "theorems": [
    "Verif.AL.C31_add_root",
    "Verif.AL.C31_add_child",
    "Verif.AL.C31_add_sibling",
    "Verif.AL.C31_move",
    "Verif.AL.C31_delete"
   ],
   "note": ""
  },
  {
   "property": "C32",
   "status": "proved",
   "theorems": [
    "Verif.AL.C32_nav",
    "Verif.AL.C32_nav_partial",
    "Verif.AL.C32_pair",
    "Verif.AL.C11_al",
    "Verif.AL.C32_sorted_prev_next_raise"
   ],
   "note": "With node_order_by get_prev_sibling and get_next_sibling raise (C32_sorted_prev_next_raise); the other queries are exact (C32_nav_partial)."
  },
  {
   "property": "C33",
   "status": "proved",
   "theorems": [
    "Verif.LT.C33_label"
   ],
   "note": ""
  },
  {
   "property": "C34",
   "status": "partial",
   "theorems": [
    "Verif.LT.C34_after",
    "Verif.LT.C34_before_partial",
    "Verif.LT.C34_before_fails",
    "Verif.LT.C34_empty",
    "Verif.LT.C34_unbounded"
   ],
   "note": "False for before='00' (C34_before_fails); true otherwise."
  },
  {
   "property": "C35",
   "status": "proved",
   "theorems": [
    "Verif.LT.C35_history",
    "Verif.LT.C35_history_empty"
   ],
   "note": ""
  },
  {
   "property": "C36",
   "status": "partial",
   "theorems": [
    "Verif.LT.C36_add_child",
    "Verif.LT.C36_add_root_partial",
    "Verif.LT.C36_add_sibling_partial",
    "Verif.LT.C36_move_partial",
    "Verif.LT.C36_add_root_fails",
    "Verif.LT.C36_add_sibling_fails",
    "Verif.LT.C36_move_fails"
   ],
   "note": "False in general: the three _fails theorems. The partial theorems hold without guard up to the order of the siblings to the right, and exactly for tidy labels."
  },
  {
   "property": "C37",
   "status": "proved",
   "theorems": [
    "Verif.LT.C37_nav",
    "Verif.LT.C37_pair",
    "Verif.LT.C37_delete",
    "Verif.LT.C11_lt"
   ],
   "note": ""
  },
  {
   "property": "C38",
   "status": "proved",
   "theorems": [
    "Verif.C38_add_sibling",
    "Verif.C38_move",
    "Verif.C38_mp"
   ],
   "note": ""
  },
  {
   "property": "C39",
   "status": "proved",
   "theorems": [
    "Verif.C39_sorted_pos",
    "Verif.C39_all_null",
    "Verif.C39_nulls"
   ],
   "note": ""
  },
  {
   "property": "C40",
   "status": "proved",
   "theorems": [
    "Verif.C40_mp",
    "Verif.NS.C40_ns",
    "Verif.AL.C40_al",
    "Verif.LT.C40_lt",
    "Verif.AL.C40_al_max_depth_raises",
    "Verif.LT.C40_lt_max_depth_raises"
   ],
   "note": "With max_depth too for MP and NS; AL and LT raise then."
  },
  {
   "property": "C41",
   "status": "partial",
   "theorems": [
    "Verif.C41_mp",
    "Verif.C41_mp_sorted",
    "Verif.NS.C41_ns",
    "Verif.NS.C41_ns_sorted",
    "Verif.AL.C41_al",
    "Verif.AL.C41_al_sorted_partial",
    "Verif.AL.C41_al_sorted_adds_partial",
    "Verif.LT.C41_lt_partial",
    "Verif.LT.C41_lt_parents_partial",
    "Verif.LT.C41_lt_parents_short",
    "Verif.LT.C41_lt_sorted_parents_partial",
    "Verif.LT.C41_lt_sorted_parents_short",
    "Verif.C41_ns_al",
    "Verif.C41_mp_ns_partial",
    "Verif.C41_lt_ns_partial",
    "Verif.C41_mp_ns_sorted_partial",
    "Verif.C41_al_ns_sorted_partial"
   ],
   "note": "NS and AL always agree. MP under its guards (MoveFits, room for the paths). LT up to the order of siblings, exactly for smooth histories."
  },
  {
   "property": "C42",
   "status": "partial",
   "theorems": [
    "Verif.C42_both_partial",
    "Verif.C42_neither",
    "Verif.C42_saved",
    "Verif.C42_instance",
    "Verif.C42_kwargs",
    "Verif.C42_bad_kwargs",
    "Verif.C42_empty_kwargs",
    "Verif.C42_method_neither",
    "Verif.C42_method_both",
    "Verif.C42_method_saved",
    "Verif.C42_method_instance"
   ],
   "note": "True unless create_kwargs is an empty dictionary given together with an instance, which is accepted (C42_empty_kwargs)."
  },
  {
   "property": "C43",
   "status": "proved",
   "theorems": [
    "Verif.C43_one_parent",
    "Verif.C43_any_parents",
    "Verif.C43_one_parent_sorted",
    "Verif.NS.C43_ns_one_parent",
    "Verif.LT.C43_lt_one_parent",
    "Verif.LT.C43_lt_one_parent_sorted",
    "Verif.Txn.serial_of_key",
    "Verif.Txn.progress",
    "Verif.Txn.exists_end"
   ],
   "note": "With row locks and READ COMMITTED. LT with node_order_by: the new children are somewhere between the old ones, as in C16. progress: no deadlock; exists_end: every run can be completed."
  },
  {
   "property": "C44",
   "status": "partial",
   "theorems": [
    "Verif.C44_submit_new",
    "Verif.MP.C44_mp_submit_partial",
    "Verif.MP.C44_mp_submit_sorted_partial",
    "Verif.NS.C44_ns_submit",
    "Verif.NS.C44_ns_submit_sorted",
    "Verif.AL.C44_al_submit",
    "Verif.AL.C44_al_submit_sorted_partial",
    "Verif.LT.C44_lt_submit_partial",
    "Verif.MP.C44_mp_edit_partial",
    "Verif.MP.C44_mp_edit_root_partial",
    "Verif.MP.C44_mp_unchanged",
    "Verif.MP.C44_mp_edit_sorted_partial",
    "Verif.MP.C44_mp_edit_root_sorted_partial",
    "Verif.MP.C44_mp_add_partial",
    "Verif.MP.C44_mp_add_root",
    "Verif.MP.C44_mp_add_root_sorted",
    "Verif.MP.C44_mp_add_sorted",
    "Verif.MP.C44_mp_initial",
    "Verif.MP.C44_mp_offered",
    "Verif.MP.C44_descending_unsorted",
    "Verif.MP.C44_mp_needless_overflow",
    "Verif.NS.C44_ns_edit",
    "Verif.NS.C44_ns_edit_root",
    "Verif.NS.C44_ns_unchanged",
    "Verif.NS.C44_ns_edit_sorted",
    "Verif.NS.C44_ns_edit_root_sorted",
    "Verif.NS.C44_ns_add_partial",
    "Verif.NS.C44_ns_add_root",
    "Verif.NS.C44_ns_add_root_sorted",
    "Verif.NS.C44_ns_add_sorted_partial",
    "Verif.NS.C44_ns_initial",
    "Verif.NS.C44_ns_offered",
    "Verif.NS.C44_ns_add_fails",
    "Verif.NS.C44_ns_add_corrupts",
    "Verif.AL.C44_al_edit",
    "Verif.AL.C44_al_edit_root",
    "Verif.AL.C44_al_unchanged",
    "Verif.AL.C44_al_unchanged_sorted",
    "Verif.AL.C44_al_edit_sorted_partial",
    "Verif.AL.C44_al_edit_root_sorted_partial",
    "Verif.AL.C44_al_add",
    "Verif.AL.C44_al_add_root",
    "Verif.AL.C44_al_add_root_sorted_partial",
    "Verif.AL.C44_al_add_sorted_partial",
    "Verif.AL.C44_al_initial",
    "Verif.AL.C44_al_initial_sorted",
    "Verif.AL.C44_al_offered",
    "Verif.AL.C44_al_accepts_branch",
    "Verif.LT.C44_lt_edit_partial",
    "Verif.LT.C44_lt_edit_root_partial",
    "Verif.LT.C44_lt_unchanged",
    "Verif.LT.C44_lt_edit_sorted_partial",
    "Verif.LT.C44_lt_edit_root_sorted_partial",
    "Verif.LT.C44_lt_add_partial",
    "Verif.LT.C44_lt_add_root_partial",
    "Verif.LT.C44_lt_add_root_sorted_partial",
    "Verif.LT.C44_lt_add_sorted_partial",
    "Verif.LT.C44_lt_initial",
    "Verif.LT.C44_lt_offered"
   ],
   "note": "Editing: true for NS and AL (with node_order_by in AL up to the order of equal siblings), for MP if no path gets too long in between, for LT if the labels are tidy. Adding: false for NS (C44_ns_add_fails, C44_ns_add_corrupts), may fail without need for MP (C44_mp_needless_overflow). Descending order fields are ignored (C44_descending_unsorted)."
  },
  {
   "property": "C45",
   "status": "partial",
   "theorems": [
    "Verif.C45_missing_key",
    "Verif.C45_mp_overwrites",
    "Verif.C45_ns_overwrites",
    "Verif.C45_al_overwrites",
    "Verif.C45_lt_overwrites",
    "Verif.MP.C45_mp_bulk_create_partial"
   ],
   "note": "False in all four backends: save() updates the row with the key, see the _overwrites theorems. Missing keys do raise, and so do used keys below the first level with bulk_create."
  },
  {
   "property": "C46",
   "status": "partial",
   "theorems": [
    "Verif.MP.C46_mp_node",
    "Verif.MP.C46_mp_target",
    "Verif.MP.C46_mp_target_child_partial",
    "Verif.MP.C46_mp_stale_count",
    "Verif.NS.C46_ns",
    "Verif.NS.C46_ns_sorted",
    "Verif.AL.C46_al_node_partial",
    "Verif.AL.C46_al_stale_depth",
    "Verif.AL.C46_al_stale_target",
    "Verif.LT.C46_lt_node_partial",
    "Verif.LT.C46_lt_target_partial",
    "Verif.LT.C46_lt_stale_target"
   ],
   "note": "True for NS. MP: true except for a move among the children of the target (C46_mp_stale_count). AL: the node row is up to date, but not the cached depth and not the target. LT: true except for a move to the first place among the siblings of the target (C46_lt_stale_target)."
  },
  {
   "property": "C47",
   "status": "proved",
   "theorems": [
    "Verif.C47_stale_target"
   ],
   "note": ""
  },
  {
   "property": "C48",
   "status": "partial",
   "theorems": [
    "Verif.MP.C48_mp_add_root_partial",
    "Verif.MP.C48_mp_add_child_partial",
    "Verif.MP.C48_mp_add_sibling_partial",
    "Verif.MP.C48_mp_edited",
    "Verif.MP.C48_mp_null",
    "Verif.NS.C48_ns_add_root",
    "Verif.NS.C48_ns_add_child",
    "Verif.NS.C48_ns_add_sibling",
    "Verif.AL.C48_al_add_root",
    "Verif.AL.C48_al_add_child",
    "Verif.AL.C48_al_add_sibling",
    "Verif.LT.C48_lt_add_root_partial",
    "Verif.LT.C48_lt_add_child_partial",
    "Verif.LT.C48_lt_add_sibling_partial"
   ],
   "note": "True for NS and AL. False for MP: IntegrityError is possible if the siblings are out of order, also by a null value of the new node (C48_mp_edited, C48_mp_null). LT: a node after all siblings may get any place, as in C16."
  },
  {
   "property": "C49",
   "status": "partial",
   "theorems": [
    "Verif.MP.C49_mp_add_root",
    "Verif.MP.C49_mp_add_child",
    "Verif.MP.C49_mp_add_sibling",
    "Verif.MP.C49_mp_move_partial",
    "Verif.MP.C49_mp_move_sorted_partial",
    "Verif.MP.C49_mp_delete",
    "Verif.MP.C49_mp_load",
    "Verif.MP.C49_mp_move_fails",
    "Verif.MP.C49_mp_load_fails"
   ],
   "note": "Proved for the additions, load_bulk without bulk_create, and deletion. The code does not check the length in move and load_bulk(bulk_create=True): witnesses; for move it is proved that the paths fit exactly if the branch fits below its new parent (under the guard MoveFits of C07). add_root on an empty table assumes steplen <= max_length."
  },
  {
   "property": "C50",
   "status": "proved",
   "theorems": [
    "Verif.LT.C50_call",
    "Verif.LT.C50_history",
    "Verif.LT.C50_history_empty"
   ],
   "note": ""
  },
  {
   "property": "C51",
   "status": "proved",
   "theorems": [
    "Verif.C51_mp",
    "Verif.NS.C51_ns",
    "Verif.AL.C51_al",
    "Verif.LT.C51_lt"
   ],
   "note": ""
  },
  {
   "property": "C52",
   "status": "partial",
   "theorems": [
    "Verif.MP.C52_mp_partial",
    "Verif.MP.C52_mp_sorted",
    "Verif.NS.C52_ns",
    "Verif.NS.C52_ns_sorted",
    "Verif.AL.C52_al",
    "Verif.AL.C52_al_sorted_partial",
    "Verif.LT.C52_lt_partial",
    "Verif.LT.C52_lt_sorted_partial"
   ],
   "note": "NS and AL without guard (AL with node_order_by up to the order of equal siblings). MP: no path may get too long in between. LT: siblings to the right may change places unless the labels are tidy."
  },
  {
   "property": "C53",
   "status": "partial",
   "theorems": [
    "Verif.C53_mp_roots",
    "Verif.MP.C53_mp_clash",
    "Verif.LT.C53_lt_roots",
    "Verif.LT.C53_lt_clash",
    "Verif.NS.C53_ns_corrupts",
    "Verif.AL.C53_al_partial",
    "Verif.AL.C53_al_clash"
   ],
   "note": "True for MP and LT, where a client may get IntegrityError (the _clash theorems). False for NS (C53_ns_corrupts). AL: the tree is well formed but two siblings may get the same position (C53_al_clash)."
  },
  {
   "property": "C54",
   "status": "proved",
   "theorems": [
    "Verif.MP.C54_mp",
    "Verif.NS.C54_ns",
    "Verif.AL.C54_al",
    "Verif.LT.C54_lt"
   ],
   "note": "Without search, filters, paging and an ordering of the admin class."
  },
  {
   "property": "C55",
   "status": "partial",
   "theorems": [
    "Verif.MP.C55_mp",
    "Verif.NS.C55_ns_partial",
    "Verif.NS.C55_ns_corrupts",
    "Verif.AL.C55_al",
    "Verif.LT.C55_lt_partial"
   ],
   "note": "True for MP and AL. False for NS with last-sibling next to the first child, whose cached parent is stale (C55_ns_corrupts); true for all other objects and positions. LT: exact for last-sibling and tidy labels, else up to the order of the siblings to the right, as in C36."
  },
  {
   "property": "C56",
   "status": "partial",
   "theorems": [
    "Verif.MP.C56_mp_partial",
    "Verif.MP.C56_mp_numchild",
    "Verif.NS.C56_ns",
    "Verif.AL.C56_al_partial",
    "Verif.AL.C56_al_sorted_partial",
    "Verif.AL.C56_al_root",
    "Verif.LT.C56_lt"
   ],
   "note": "True for NS and LT. The code violates it for MP numchild (C56_mp_numchild) and for parent in AL add_root (C56_al_root); all other fields have no effect."
  },
  {
   "property": "C57",
   "status": "proved",
   "theorems": [
    "Verif.LT.C57_roundtrip",
    "Verif.LT.C57_validator",
    "Verif.LT.C57_stored",
    "Verif.LT.C57_lost"
   ],
   "note": "C57_lost shows what happens outside the stated labels: an empty label, a dot or a space inside a label, and a tuple."
  },
  {
   "property": "C58",
   "status": "proved",
   "theorems": [
    "Verif.C58_add",
    "Verif.C58_move",
    "Verif.C58_delete",
    "Verif.C58_queries",
    "Verif.C58_repair",
    "Verif.C58_default",
    "Verif.C58_mixed_case_fails"
   ],
   "note": "C58_mixed_case_fails is the witness for alphabets with letters in both cases."
  },
  {
   "property": "C59",
   "status": "partial",
   "theorems": [
    "Verif.C59_add",
    "Verif.C59_move_partial",
    "Verif.C59_delete",
    "Verif.C59_cramped"
   ],
   "note": "Moves under the guard MoveFits of C07, and with node_order_by for a node without null values. Without room for the temporary place IntegrityError is possible (C59_cramped)."
  },
  {
   "property": "C60",
   "status": "partial",
   "theorems": [
    "Verif.MP.C60_mp_move_partial",
    "Verif.MP.C60_mp_edited",
    "Verif.MP.C60_mp_corrupts",
    "Verif.NS.C60_ns_move",
    "Verif.AL.C60_al_move",
    "Verif.LT.C60_lt_move_partial"
   ],
   "note": "True for NS and AL. False for MP: IntegrityError is possible if the siblings are out of order (C60_mp_edited), and without room for the temporary position the tree is overwritten silently (C60_mp_corrupts). LT: a node after all siblings may get any place, as in C16 and C48."
  },
  {
   "property": "C61",
   "status": "partial",
   "theorems": [
    "Verif.MP.C61_mp_partial",
    "Verif.MP.C61_mp_stale",
    "Verif.MP.C61_mp_stale_path",
    "Verif.NS.C61_ns_partial",
    "Verif.NS.C61_ns_stale",
    "Verif.AL.C61_al_partial",
    "Verif.AL.C61_al_sorted_partial",
    "Verif.AL.C61_al_stale",
    "Verif.LT.C61_lt_partial",
    "Verif.LT.C61_lt_stale"
   ],
   "note": "True for objects whose tree fields are still those of the stored row (C61_*_partial). False for stale objects in all four backends: save() writes the old tree fields back (C61_*_stale)."
  },
  {
   "property": "C62",
   "status": "partial",
   "theorems": [
    "Verif.NS.C62_ns",
    "Verif.AL.C62_al",
    "Verif.AL.C62_al_sorted",
    "Verif.MP.C62_mp_partial",
    "Verif.LT.C62_lt_partial"
   ],
   "note": "True for NS, with and without node_order_by, and for AL (with node_order_by the order of siblings is that of the values). MP: moves need the room that they do not check (C12_move_corrupts, C60_mp_corrupts), calls may raise PathOverflow, and with node_order_by IntegrityError if the siblings are out of order (C60_mp_edited); the calls that did not raise these do what they ask for. LT: parents and data only, not the order of siblings (C36 failures), and calls may raise ValueError if no label is left."
  },
  {
   "property": "C63",
   "status": "partial",
   "theorems": [
    "Verif.NS.C63_ns",
    "Verif.AL.C63_al",
    "Verif.LT.C63_lt",
    "Verif.MP.C63_mp_partial",
    "Verif.MP.C63_mp_refused"
   ],
   "note": "True for NS, AL and LT. False for MP: the children counts of the parents are lowered before the deletion and outside of a transaction, so a refused deletion hides nodes and makes add_child fail (C63_mp_refused); C63_mp_partial: this happens exactly if a chosen branch has a parent that stays, everything else is as before, and fix_tree gives the old table back."
  },
  {
   "property": "C64",
   "status": "partial",
   "theorems": [
    "Verif.MP.C64_mp_partial",
    "Verif.AL.C64_al_partial",
    "Verif.NS.C64_ns_partial",
    "Verif.LT.C64_lt_partial",
    "Verif.MP.C64_mp_left",
    "Verif.MP.C64_mp_first_right",
    "Verif.AL.C64_al_left",
    "Verif.AL.C64_al_first_right",
    "Verif.NS.C64_ns_left",
    "Verif.NS.C64_ns_last",
    "Verif.NS.C64_ns_corrupts",
    "Verif.LT.C64_lt_first_right"
   ],
   "note": "False: the calls move the target row without updating the target object. MP and AL: left twice, or first-sibling and then right, gives the wrong order; NS: last-sibling twice gives the wrong order, and first-sibling three times corrupts the table; LT: first-sibling and then right goes to the wrong side. The partial theorems give the sequences that work: for MP and AL right and last-sibling, or first-sibling and last-sibling; for NS right, for a root target as for MP; for LT first- and last-sibling, or left, right and last-sibling, up to the order that LT itself may change."
  },
  {
   "property": "C65",
   "status": "partial",
   "theorems": [
    "Verif.MP.C65_mp_partial",
    "Verif.NS.C65_ns_partial",
    "Verif.NS.C65_ns_add_partial",
    "Verif.NS.C65_ns_move_partial",
    "Verif.AL.C65_al_partial",
    "Verif.AL.C65_al_proxy",
    "Verif.MP.C65_mp_stale",
    "Verif.NS.C65_ns_stale",
    "Verif.AL.C65_al_stale"
   ],
   "note": "False: with stale caches MP's get_parent() gives a former parent, NS's add_sibling puts the node to the wrong place, and AL's get_ancestors, get_root and get_depth, the last even with update=True, give the old answers. The partial theorems say what the cached objects must have right: the parent's key; for NS's add_sibling and move its rgt; for AL the parent links of the chain. get_parent(update=True) of MP and NS is exact without any hypothesis on the cache, and so are the get_parent, get_ancestors and get_root of AL for proxy models (C65_al_proxy)."
  },
  {
   "property": "C66",
   "status": "partial",
   "theorems": [
    "Verif.AL.C66_al_nav_partial",
    "Verif.AL.C66_al_add_sibling_partial",
    "Verif.AL.C66_al_move_partial",
    "Verif.AL.C66_al_siblings_zero",
    "Verif.AL.C66_al_add_zero",
    "Verif.AL.C66_al_move_zero"
   ],
   "note": "False: get_siblings tests `if node.parent_id:`, which is false for the key 0, so for every child of the node with key 0 it returns the root nodes (C66_al_siblings_zero), and add_sibling and move then give wrong and clashing positions. The partial theorems hold for nodes and targets that are not children of the node with key 0 (and, for the child positions of move, for targets other than that node); the key 0 may be in use elsewhere. The other AL theorems use the siblings by the parent's key, and apply to the code in the same cases."
  },
  {
   "property": "C67",
   "status": "partial",
   "theorems": [
    "Verif.AL.C67_al_add_sibling",
    "Verif.AL.C67_al_move",
    "Verif.AL.C67_al_refused_partial",
    "Verif.AL.C67_al_self",
    "Verif.LT.C67_lt_move_partial",
    "Verif.LT.C67_lt_self",
    "Verif.NS.C67_ns_add_sibling_partial",
    "Verif.NS.C67_ns_add_sibling_sorted",
    "Verif.NS.C67_ns_add_right",
    "Verif.NS.C67_ns_move_partial",
    "Verif.NS.C67_ns_move_sorted_partial",
    "Verif.NS.C67_ns_move_right",
    "Verif.NS.C67_ns_refused_partial",
    "Verif.NS.C67_ns_self",
    "Verif.C67_mp_add_sibling_partial",
    "Verif.C67_mp_move_partial",
    "Verif.C67_mp_move_unsorted_partial",
    "Verif.C67_mp_refused_partial",
    "Verif.C67_mp_add_right",
    "Verif.C67_mp_move_right",
    "Verif.C67_mp_noop",
    "Verif.C67_mp_self"
   ],
   "note": "False: NS puts a node on the left when it is asked to put it on the right of an inherited target (C67_ns_add_right for all targets that are no roots, C67_ns_move_right for all other targets); MP writes a step that is too long on the right of an inherited last sibling at the last position, and raises PathOverflow for moves that change nothing; all four backends let a leaf (LT: any node) be moved below itself through an object of another class, and lose it. The partial theorems cover all other cases; for MP moves they ask for two free positions after the new siblings."
  },
  {
   "property": "C68",
   "status": "proved",
   "theorems": [
    "Verif.NS.C68_ns_add_root",
    "Verif.NS.C68_ns_add_child",
    "Verif.NS.C68_ns_add_sibling",
    "Verif.NS.C68_ns_move",
    "Verif.NS.C68_ns_delete",
    "Verif.NS.C68_ns_history",
    "Verif.NS.C68_ns_history_empty",
    "Verif.NS.C68_ns_transient",
    "Verif.NS.C68_ns_exhausts",
    "Verif.AL.C68_al_add_root",
    "Verif.AL.C68_al_add_child",
    "Verif.AL.C68_al_add_sibling",
    "Verif.AL.C68_al_move",
    "Verif.AL.C68_al_history",
    "Verif.AL.C68_al_exhausts"
   ],
   "note": "Proved for histories of any length with the room as stated. C68_ns_transient and C68_ns_exhausts / C68_al_exhausts show that the room is needed: the number of rows alone does not bound the numbers. MP: numchild as a PositiveIntegerField is C59."
  },
  {
   "property": "C69",
   "status": "partial",
   "theorems": [
    "Verif.NS.C69_ns_trees",
    "Verif.NS.C69_ns_corrupts",
    "Verif.NS.C69_ns_roots",
    "Verif.MP.C69_mp_trees",
    "Verif.MP.C69_mp_orphan",
    "Verif.MP.C69_mp_roots",
    "Verif.LT.C69_lt_trees",
    "Verif.LT.C69_lt_orphan",
    "Verif.LT.C69_lt_roots",
    "Verif.AL.C69_al_apart",
    "Verif.AL.C69_al_cycle"
   ],
   "note": "Proved for NS, MP and LT calls in trees of their own and for AL calls that do not move into moved branches. The code violates it otherwise: C69_ns_corrupts, C69_ns_roots, C69_mp_orphan, C69_mp_roots, C69_lt_orphan, C69_lt_roots, C69_al_cycle."
  },
  {
   "property": "C70",
   "status": "partial",
   "theorems": [
    "Verif.MP.C70_mp_add_child",
    "Verif.MP.C70_mp_move",
    "Verif.MP.C70_mp_move_to_partial",
    "Verif.MP.C70_mp_delete",
    "Verif.MP.C70_mp_reused",
    "Verif.MP.C70_mp_orphan",
    "Verif.NS.C70_ns_add_child",
    "Verif.NS.C70_ns_move",
    "Verif.NS.C70_ns_delete",
    "Verif.NS.C70_ns_corrupts",
    "Verif.AL.C70_al_add_child",
    "Verif.AL.C70_al_delete",
    "Verif.AL.C70_al_add_sibling",
    "Verif.AL.C70_al_move_below",
    "Verif.AL.C70_al_move_next",
    "Verif.AL.C70_al_back",
    "Verif.AL.C70_al_cycle",
    "Verif.LT.C70_lt_add_child",
    "Verif.LT.C70_lt_delete",
    "Verif.LT.C70_lt_back",
    "Verif.LT.C70_lt_orphan",
    "Verif.LT.C70_lt_add_orphan"
   ],
   "note": "Proved where the code refreshes or the foreign key protects. The code violates it otherwise: C70_mp_reused, C70_mp_orphan, C70_ns_corrupts, C70_al_back, C70_al_cycle, C70_lt_back, C70_lt_orphan, C70_lt_add_orphan."
  },
  {
   "property": "C71",
   "status": "proved",
   "theorems": [
    "Verif.LT.C71_lt_history",
    "Verif.LT.C71_lt_limit",
    "Verif.LT.C71_lt_grows",
    "Verif.LT.C71_lt_exceeds"
   ],
   "note": "C71_lt_grows and C71_lt_exceeds show that the bound is reached, and with it every limit of the database."
  },
  {
   "property": "C72",
   "status": "proved",
   "theorems": [
    "Verif.MP.C72_mp_history",
    "Verif.MP.C72_mp_tree",
    "Verif.MP.C72_mp_tree_sorted",
    "Verif.MP.C72_mp_small",
    "Verif.MP.C72_mp_small_sorted",
    "Verif.MP.C72_mp_exhausts",
    "Verif.C72_mp_ns"
   ],
   "note": "C72_mp_history: from any consistent table. C72_mp_exhausts: the bound is reached, for every alphabet and steplen."
  },
  {
   "property": "C73",
   "status": "partial",
   "theorems": [
    "Verif.C73_page",
    "Verif.C73_whole",
    "Verif.MP.C73_mp_partial",
    "Verif.NS.C73_ns_partial",
    "Verif.AL.C73_al_partial",
    "Verif.LT.C73_lt_partial",
    "Verif.MP.C73_hidden_parent",
    "Verif.MP.C73_both_classes",
    "Verif.MP.C73_key_zero",
    "Verif.MP.C73_show_all"
   ],
   "note": "Proved for trees without the primary key 0 and without the parameter all for lists that it affects; the last four theorems are the negations, with witnesses."
  },
  {
   "property": "C74",
   "status": "proved",
   "theorems": [
    "Verif.LT.C74_lt_add_root_iff",
    "Verif.LT.C74_lt_add_root_sorted_iff",
    "Verif.LT.C74_lt_add_child_sorted_iff",
    "Verif.LT.C74_lt_limit",
    "Verif.LT.C74_lt_history",
    "Verif.LT.C74_lt_sorted_limit",
    "Verif.LT.C74_lt_load",
    "Verif.LT.C74_lt_round_trip",
    "Verif.LT.C74_lt_siblings",
    "Verif.NS.C74_ns",
    "Verif.AL.C74_al",
    "Verif.MP.C74_mp_limit"
   ],
   "note": ""
  },
  {
   "property": "C75",
   "status": "partial",
   "theorems": [
    "Verif.C75_page_partial",
    "Verif.C75_page_saved",
    "Verif.C75_page_errors",
    "Verif.C75_page_either",
    "Verif.C75_page_kept",
    "Verif.C75_move_unmoved",
    "Verif.C75_move_refusing",
    "Verif.MP.C75_mp_page_partial",
    "Verif.MP.C75_mp_move_partial",
    "Verif.MP.C75_mp_move_sorted",
    "Verif.MP.C75_page_other",
    "Verif.MP.C75_move_refused_moved",
    "Verif.NS.C75_ns_page",
    "Verif.NS.C75_ns_move",
    "Verif.NS.C75_ns_move_sorted",
    "Verif.AL.C75_al_page",
    "Verif.AL.C75_al_move",
    "Verif.AL.C75_al_move_sorted_partial",
    "Verif.LT.C75_lt_page_partial",
    "Verif.LT.C75_lt_move_partial",
    "Verif.LT.C75_lt_move_sorted_partial"
   ],
   "note": "The code violates the claim for trees outside the default database: set_rollback is about the default one, so with ATOMIC_REQUESTS there a page shown again with errors has written (C75_page_kept, C75_page_other). A drop is not one transaction: if saving the moved node raises, the answer is an error and the node has moved (C75_move_refusing, C75_move_refused_moved). The rest is proved, with the limits of C44 and C52."
  },
  {
   "property": "C76",
   "status": "partial",
   "theorems": [
    "Verif.C76_complete_iff",
    "Verif.C76_selected",
    "Verif.C76_nothing",
    "Verif.C76_across_iff",
    "Verif.MP.C76_mp_search",
    "Verif.MP.C76_mp_across_partial",
    "Verif.MP.C76_mp_confirm_partial",
    "Verif.NS.C76_ns_search",
    "Verif.NS.C76_ns_across_partial",
    "Verif.NS.C76_ns_confirm_partial",
    "Verif.AL.C76_al_search",
    "Verif.AL.C76_al_across_partial",
    "Verif.AL.C76_al_confirm",
    "Verif.LT.C76_lt_search",
    "Verif.LT.C76_lt_across_partial",
    "Verif.LT.C76_lt_confirm_partial",
    "Verif.MP.C76_hit_not_shown",
    "Verif.MP.C76_empty_button",
    "Verif.MP.C76_across_more",
    "Verif.MP.C76_confirm_less"
   ],
   "note": "The code violates three of the claims. Exactly the hits with only hits above them are found, so everything is found iff the hits are closed under ancestors (C76_*_search, C76_complete_iff, witness C76_hit_not_shown). Select all counts the roots and is applied to the whole tree; the two agree iff no hit is below a root (C76_*_across_partial, C76_across_more). The confirmation lists the chosen nodes only, for MP, NS and LT; it is exact iff everything below them was chosen (C76_*_confirm_partial, C76_confirm_less); for AL it is exact."
  },
  {
   "property": "C77",
   "status": "partial",
   "theorems": [
    "Verif.C77_complete_iff",
    "Verif.C77_uniform",
    "Verif.MP.C77_mp_list_partial",
    "Verif.NS.C77_ns_list_partial",
    "Verif.AL.C77_al_list_partial",
    "Verif.LT.C77_lt_list_partial",
    "Verif.AL.C77_al_list_sorted_partial",
    "Verif.AL.C77_al_offered_partial",
    "Verif.AL.C77_al_accepts",
    "Verif.AL.C77_al_unchanged_partial",
    "Verif.AL.C77_al_unchanged_sorted_partial",
    "Verif.C77_never_shown",
    "Verif.C77_empty_button",
    "Verif.C77_al_rejected"
   ],
   "note": "Every request shows the right nodes; the code violates the rest. Exactly the nodes with only nodes of the model above them are found, so all are found iff the model is closed under ancestors (C77_*_list_partial, C77_complete_iff, witness C77_never_shown). Buttons: exact for AL; MP and NS need any child, LT any node of the model below (Buttons in the same theorems, witness C77_empty_button). AL form: the edited node itself is listed for an inherited model, only nodes of the model are accepted, and the unchanged form is accepted iff the shown reference is of the model (witness C77_al_rejected). The forms of the other managers use query sets of the tree model and primary keys and are those of C44."
  },
  {
   "property": "C78",
   "status": "partial",
   "theorems": [
    "Verif.LT.C78_lt_alone",
    "Verif.LT.C78_lt_any",
    "Verif.LT.C78_lt_orphan",
    "Verif.LT.C78_lt",
    "Verif.AL.C78_al",
    "Verif.AL.C78_al_alone",
    "Verif.AL.C78_al_sorted",
    "Verif.AL.C78_al_any",
    "Verif.MP.C78_mp_alone",
    "Verif.MP.C78_mp_partial",
    "Verif.MP.C78_mp_twice",
    "Verif.MP.C78_mp_orphan",
    "Verif.MP.C78_mp_wrong_branch",
    "Verif.NS.C78_ns_alone",
    "Verif.NS.C78_ns_partial",
    "Verif.NS.C78_ns_wrong_node",
    "Verif.NS.C78_ns_broken",
    "Verif.NS.C78_ns_wrong_branch"
   ],
   "note": "Several deletions: proved in full for LT and AL, at every moment of every interleaving. MP needs that no node is chosen twice (otherwise the number of children of the parent is lowered twice, C78_mp_twice), NS that no two clients choose nodes of one tree (otherwise an unchosen node is deleted or the numbers break, C78_ns_wrong_node, C78_ns_broken); both need that no client dies half way. Among other calls: AL never leaves an inconsistent table (C78_al_any), LT does not when Django deletes with one statement (C78_lt_any); otherwise the code violates the property (C78_lt_orphan, C78_mp_orphan, C78_mp_wrong_branch, C78_ns_wrong_branch)."
  },
  {
   "property": "C79",
   "status": "partial",
   "theorems": [
    "Verif.MP.C79_mp_partial",
    "Verif.MP.C79_mp_flatten",
    "Verif.MP.C79_mp_first",
    "Verif.NS.C79_ns_partial",
    "Verif.NS.C79_ns_parent_after",
    "Verif.NS.C79_ns_same_tree",
    "Verif.NS.C79_ns_before",
    "Verif.NS.C79_ns_after",
    "Verif.NS.C79_ns_fresh",
    "Verif.AL.C79_al_partial",
    "Verif.AL.C79_al_left",
    "Verif.LT.C79_lt_partial",
    "Verif.LT.C79_lt_flatten",
    "Verif.LT.C79_lt_left"
   ],
   "note": "Proved for lists of any length where the code is right: MP and LT when no node is below an earlier one and the place is the last one or below a parent with none of the nodes below it; NS when no node is above an earlier one and the nodes are not in the tree of the target or go next to a root (with node_order_by too), and for last-child also in the tree of the target if they end before it does (C79_ns_before) or follow it in order (C79_ns_after); NS with objects fetched anew always (C79_ns_fresh); AL for all positions but left. Elsewhere the code violates the property: C79_mp_flatten, C79_mp_first, C79_ns_parent_after, C79_ns_same_tree, C79_al_left, C79_lt_flatten, C79_lt_left. Without node_order_by for MP, AL and LT; for LT the order is claimed for the last place only, since C36 fails for the others."
  },
  {
   "property": "C80",
   "status": "proved",
   "theorems": [
    "Verif.MP.C80_mp",
    "Verif.MP.C80_mp_batches",
    "Verif.NS.C80_ns",
    "Verif.NS.C80_ns_batches",
    "Verif.AL.C80_al",
    "Verif.AL.C80_al_batches",
    "Verif.LT.C80_lt",
    "Verif.LT.C80_lt_batches"
   ],
   "note": "For MP and LT every row, and for AL the whole table, is as after one deletion of all the nodes; for NS the tree and the data are (the numbers are consistent). The effect itself (Goes, prune) is stated too."
  },
  {
   "property": "C81",
   "status": "partial",
   "theorems": [
    "Verif.MP.C81_mp",
    "Verif.NS.C81_ns",
    "Verif.AL.C81_al",
    "Verif.LT.C81_lt_partial",
    "Verif.LT.C81_lt_root_partial",
    "Verif.LT.C81_lt_root_fails"
   ],
   "note": "MP, NS and AL in full, LT below a node. As an LT root the copy takes the first free label, so it may come before other roots (C81_lt_root_fails); C81_lt_root_partial covers roots labelled by the first letters."
  },
  {
   "property": "C82",
   "status": "partial",
   "theorems": [
    "Verif.C82_dumps",
    "Verif.C82_mp",
    "Verif.C82_ns",
    "Verif.C82_al",
    "Verif.C82_al_sorted_partial",
    "Verif.C82_lt_partial",
    "Verif.C82_chain",
    "Verif.C82_back",
    "Verif.C82_lt_fails",
    "Verif.C82_mp_full"
   ],
   "note": "From all kinds to MP, NS and AL without node_order_by in full. To LT with at most 26 roots (C82_lt_fails shows that 27 come out in another order); to AL with node_order_by where the order of equal siblings is certain. C82_mp_full shows that the positions are needed for MP."
  },
  {
   "property": "C83",
   "status": "partial",
   "theorems": [
    "Verif.MP.C83_mp",
    "Verif.NS.C83_ns",
    "Verif.NS.C83_ns_roots_partial",
    "Verif.NS.C83_ns_sibling_fails",
    "Verif.AL.C83_al",
    "Verif.LT.C83_lt",
    "Verif.Forest.Arranged.order",
    "Verif.Forest.Arranged.order_after"
   ],
   "note": "For last-child in full for all kinds. For last-sibling in full for MP and LT, for AL when the target is not in the list, for NS when they are roots and the target is not in the list; C83_ns_sibling_fails shows that for other siblings in NS the second move can be refused wrongly. For MP the loop may stop with a path overflow, with the moves before it done."
  },
  {
   "property": "C84",
   "status": "proved",
   "theorems": [
    "Verif.MP.C84_mp",
    "Verif.NS.C84_ns",
    "Verif.AL.C84_al",
    "Verif.LT.C84_lt"
   ],
   "note": "All kinds, without node_order_by."
  },
  {
   "property": "C85",
   "status": "partial",
   "theorems": [
    "Verif.NS.C85_ns",
    "Verif.AL.C85_al",
    "Verif.MP.C85_mp_partial",
    "Verif.MP.C85_mp_away",
    "Verif.MP.C85_mp_fails",
    "Verif.LT.C85_lt_partial",
    "Verif.LT.C85_lt_fails",
    "Verif.Forest.wasAt_exists"
   ],
   "note": "NS and AL in full. MP: restored or a path overflow on the way back (C85_mp_fails shows that it happens), to another parent and back without any guard, below the same parent under the guard of C07. LT: where C36 gives the order; C85_lt_fails shows that the order of other nodes can be lost."
  },
  {
   "property": "C86",
   "status": "partial",
   "theorems": [
    "Verif.NS.C86_ns",
    "Verif.AL.C86_al",
    "Verif.MP.C86_mp_partial",
    "Verif.MP.C86_mp_fails",
    "Verif.LT.C86_lt_partial",
    "Verif.LT.C86_lt_root_partial",
    "Verif.LT.C86_lt_root_fails"
   ],
   "note": "NS and AL in full. MP where there is a position after the last child and the new paths fit; C86_mp_fails shows that otherwise the branch is lost. LT below a parent, and as a root where the labels of the other roots are the first letters; C86_lt_root_fails shows that it is not the last root otherwise."
  },
  {
   "property": "C87",
   "status": "partial",
   "theorems": [
    "Verif.MP.C87_mp",
    "Verif.NS.C87_ns",
    "Verif.AL.C87_al",
    "Verif.LT.C87_lt_partial",
    "Verif.LT.C87_lt_fails"
   ],
   "note": "MP, NS and AL in full; for MP with what is left when PathOverflow ends the program. For LT all but the order of the siblings after the first child; C87_lt_fails shows that siblings of the node change places."
  },
  {
   "property": "C88",
   "status": "partial",
   "theorems": [
    "Verif.MP.C88_mp_load",
    "Verif.MP.C88_mp_create",
    "Verif.MP.C88_mp_same",
    "Verif.MP.C88_mp",
    "Verif.NS.C88_ns_load",
    "Verif.NS.C88_ns",
    "Verif.AL.C88_al_load",
    "Verif.AL.C88_al",
    "Verif.AL.C88_al_sorted_partial",
    "Verif.LT.C88_lt_load",
    "Verif.LT.C88_lt_partial",
    "Verif.C88_own_nodes"
   ],
   "note": "Loading in full, for all kinds and for bulk_create. The round trip holds where C19 holds: in full for MP, NS and AL without node_order_by; AL with node_order_by and LT with the guards of C19. C88_own_nodes shows that the keys in a relation of a model with itself are not translated without keep_ids."
  },
  {
   "property": "C89",
   "status": "partial",
   "theorems": [
    "Verif.MP.C89_mp_partial",
    "Verif.MP.C89_mp_tree",
    "Verif.MP.C89_mp_order",
    "Verif.MP.C89_mp_corrupts",
    "Verif.NS.C89_ns",
    "Verif.NS.C89_ns_tree",
    "Verif.AL.C89_al",
    "Verif.LT.C89_lt_partial",
    "Verif.LT.C89_lt_unsorts",
    "Verif.LT.C89_lt_descending"
   ],
   "note": "NS in full, in any order of the moves; AL in full, as nothing is stored. MP with the greater siblings first, then without any guard and with PathOverflow as the only error (what is left then is stated); in another order C89_mp_order (IntegrityError) and C89_mp_corrupts. LT keeps parents, data and consistency; the siblings need not be sorted, and sorted ones do not stay so (C89_lt_unsorts), also with the greater ones first (C89_lt_descending)."
  },
  {
   "property": "C90",
   "status": "partial",
   "theorems": [
    "Verif.MP.C90_mp",
    "Verif.NS.C90_ns",
    "Verif.LT.C90_lt",
    "Verif.AL.C90_al",
    "Verif.C90_determines",
    "Verif.C90_escaped",
    "Verif.C90_text_indents",
    "Verif.AL.C90_al_unnamed"
   ],
   "note": "In full for MP, NS and LT; AL in full but for the name of the first choice, which is -------- (C90_al_unnamed). That no text may begin with a non-breaking space is necessary (C90_text_indents)."
  },
  {
   "property": "C91",
   "status": "partial",
   "theorems": [
    "Verif.MP.C91_mp",
    "Verif.NS.C91_ns",
    "Verif.AL.C91_al_partial",
    "Verif.LT.C91_lt_partial",
    "Verif.C91_determines",
    "Verif.LT.C91_lt_fails"
   ],
   "note": "In full for NS and for MP (or PathOverflow and nothing stored). AL in full but for the order of equal siblings, which is the choice of the database. LT: parents, keys and data (or ValueError and nothing stored); the order fails even for four items in an empty table (C91_lt_fails). Not for bulk_create=True, which stores children below the wrong parent (C20_mp_wrong_parent)."
  },
  {
   "property": "C92",
   "status": "partial",
   "theorems": [
    "Verif.C92_spec",
    "Verif.NS.C92_ns",
    "Verif.MP.C92_mp",
    "Verif.NS.C92_ns_determined",
    "Verif.NS.C92_ns_from",
    "Verif.MP.C92_mp_from",
    "Verif.AL.C92_al_partial",
    "Verif.LT.C92_lt_partial",
    "Verif.AL.C92_al_fails",
    "Verif.LT.C92_lt_fails"
   ],
   "note": "In full for NS; for MP when neither history runs out of positions (and the guard of C41 for moves without order). AL when the added rows differ in their order fields: with ties a moved node keeps its old place among its equals (C92_al_fails). LT: nodes and parents, for up to 701 operations; the order fails (C92_lt_fails)."
  },
  {
   "property": "C93",
   "status": "partial",
   "theorems": [
    "Verif.NS.C93_ns_merge",
    "Verif.NS.C93_ns_dissolve",
    "Verif.MP.C93_mp_merge",
    "Verif.MP.C93_mp_dissolve",
    "Verif.AL.C93_al_merge_partial",
    "Verif.AL.C93_al_dissolve_partial",
    "Verif.LT.C93_lt_merge_partial",
    "Verif.LT.C93_lt_dissolve_partial",
    "Verif.LT.C93_lt_fails"
   ],
   "note": "In full for NS, and for MP unless a move raises PathOverflow; each move with freshly fetched objects. AL when the rows differ in their order fields (the order of equal siblings is the database's choice). LT: nodes and parents, with at most 700 siblings; the order fails (C93_lt_fails)."
  },
  {
   "property": "C94",
   "status": "proved",
   "theorems": [
    "Verif.Dispatch.C94_classmethods",
    "Verif.Dispatch.C94_methods",
    "Verif.Dispatch.C94_add_root",
    "Verif.Dispatch.C94_add_root_instance",
    "Verif.Dispatch.C94_add_child",
    "Verif.Dispatch.C94_add_child_instance",
    "Verif.Dispatch.C94_add_sibling",
    "Verif.Dispatch.C94_move",
    "Verif.Dispatch.C94_found",
    "Verif.Dispatch.C94_missing",
    "Verif.Dispatch.C94_keyword_fails"
   ],
   "note": "The values, states and method bodies are abstract. A keyword called treebeard_method is outside of the claim: it selects another method (C94_keyword_fails). Warnings turned into errors are not modelled."
  },
  {
   "property": "C95",
   "status": "partial",
   "theorems": [
    "Verif.Dispatch.C95_all",
    "Verif.Dispatch.C95_partial",
    "Verif.Dispatch.C95_named_partial",
    "Verif.Dispatch.C95_methods",
    "Verif.Dispatch.C95_fails"
   ],
   "note": "The check looks at the default manager while the code goes through objects: a model with two managers can pass it and be unusable (C95_fails). Proved for at most one own manager, or when the default manager is the one called objects, and when all managers are of the right kind."
  },
  {
   "property": "C96",
   "status": "partial",
   "theorems": [
    "Verif.NS.C96_ns",
    "Verif.MP.C96_mp",
    "Verif.AL.C96_al_partial",
    "Verif.LT.C96_lt_partial",
    "Verif.LT.C96_lt_fails"
   ],
   "note": "In full for NS, and for MP unless PathOverflow is raised (then nothing is stored). AL: the copy and the order by value, but the order of equal siblings is the database's choice. LT: nodes, parents and data; the order fails (C96_lt_fails)."
  },
  {
   "property": "C97",
   "status": "proved",
   "theorems": [
    "Verif.MP.C97_load",
    "Verif.MP.C97_copy",
    "Verif.MP.C97_merge",
    "Verif.MP.C97_dissolve",
    "Verif.MP.C97_full",
    "Verif.MP.C97_deep"
   ],
   "note": "Without node_order_by: C19_mp_load and C72. C97_full and C97_deep: PathOverflow is raised where the bounds do not hold."
  },
  {
   "property": "C98",
   "status": "proved",
   "theorems": [
    "Verif.MP.C98_mp",
    "Verif.MP.C98_mp_fields",
    "Verif.MP.C98_mp_missing",
    "Verif.NS.C98_ns",
    "Verif.NS.C98_ns_fields",
    "Verif.NS.C98_ns_missing",
    "Verif.AL.C98_al",
    "Verif.AL.C98_al_fields",
    "Verif.AL.C98_al_missing",
    "Verif.LT.C98_lt",
    "Verif.LT.C98_lt_missing",
    "Verif.AL.C98_al_fails",
    "Verif.MP.C98_mp_fails"
   ],
   "note": "The witnesses show why the fields have to be among them: AL with fields that leave out parent keeps the cached parent, and so an old depth (C98_al_fails); MP without path keeps the old parent (C98_mp_fails). Deferred fields and the using argument are not modelled."
  },
  {
   "property": "C99",
   "status": "partial",
   "theorems": [
    "Verif.NS.C99_ns",
    "Verif.NS.C99_ns_move",
    "Verif.MP.C99_mp",
    "Verif.MP.C99_mp_move",
    "Verif.AL.C99_al_partial",
    "Verif.AL.C99_al_exact",
    "Verif.LT.C99_lt_partial",
    "Verif.LT.C99_lt_fails",
    "Verif.MovedSorted.unique"
   ],
   "note": "Full for NS, and for MP unless PathOverflow is raised (the branch is lost then, see C86_mp_fails). AL: parents and sortedness; exact if no two siblings are equal, for the database orders equal siblings as it likes. LT: parents only, the code violates the order (C99_lt_fails), or ValueError when no label is left."
  }
 ]
}