{
 "claims": [
  {
   "property": "C01",
   "status": "proved",
   "theorems": [
    "Lolly.HashMapProps.C01_get",
    "Lolly.HashMapProps.C01_contains",
    "Lolly.HashMapProps.C01_progress",
    "Lolly.HashMapProps.C01_last_write"
   ],
   "note": "All histories of new/set/touch/reset/resize/join/write_back/patches/copy/changes/invert; any hash function."
  },
  {
   "property": "C02",
   "status": "proved",
   "theorems": [
    "Lolly.HashMapProps.C02_generate_size",
    "Lolly.HashMapProps.C02_size_any",
    "Lolly.HashMapProps.C02_iterator"
   ],
   "note": "generate, N, empty and the iterator loop."
  },
  {
   "property": "C03",
   "status": "proved",
   "theorems": [
    "Lolly.HashMapProps.C03_value_unique",
    "Lolly.HashMapProps.C03_post_patch",
    "Lolly.HashMapProps.C03_pre_patch",
    "Lolly.HashMapProps.C03_changes",
    "Lolly.HashMapProps.C03_invert",
    "Lolly.HashMapProps.C03_undo"
   ],
   "note": "patch, base and h are distinct objects."
  },
  {
   "property": "C04",
   "status": "partial",
   "theorems": [
    "Lolly.HashMapProps.C04_complete",
    "Lolly.HashMapProps.C04_exact",
    "Lolly.HashMapProps.C04_partial",
    "Lolly.HashMapProps.C04_violated"
   ],
   "note": "The code violates it: == accepts maps with different keys when a stored value equals the other default (C04_violated). Proved: what == says for any two maps; same bindings imply ==; exactness when no stored value equals the default of the other side."
  },
  {
   "property": "C05",
   "status": "proved",
   "theorems": [
    "Lolly.HashSetProps.C05_progress",
    "Lolly.HashSetProps.C05_contains",
    "Lolly.HashSetProps.C05_size_iterate",
    "Lolly.HashSetProps.C05_le",
    "Lolly.HashSetProps.C05_lt",
    "Lolly.HashSetProps.C05_eq"
   ],
   "note": "All histories, any hash function."
  },
  {
   "property": "C06",
   "status": "proved",
   "theorems": [
    "Lolly.RelHashMapProps.C06_get",
    "Lolly.RelHashMapProps.C06_contains",
    "Lolly.RelHashMapProps.C06_set",
    "Lolly.RelHashMapProps.C06_set_visible",
    "Lolly.RelHashMapProps.C06_extend",
    "Lolly.RelHashMapProps.C06_single_throws",
    "Lolly.RelHashMapProps.C06_change",
    "Lolly.RelHashMapProps.C06_merge",
    "Lolly.RelHashMapProps.C06_discard",
    "Lolly.RelHashMapProps.C06_confirm",
    "Lolly.RelHashMapProps.C06_find_changes",
    "Lolly.RelHashMapProps.C06_find_differences"
   ],
   "note": "Layers are not shared with other relative hashmaps."
  },
  {
   "property": "C07",
   "status": "proved",
   "theorems": [
    "Lolly.RelHashMapProps.C07_memo"
   ],
   "note": "f is a pure function."
  },
  {
   "property": "C08",
   "status": "proved",
   "theorems": [
    "Lolly.ArrayProps.C08_progress",
    "Lolly.ArrayProps.C08_contents",
    "Lolly.ArrayProps.C08_block",
    "Lolly.ArrayProps.C08_realloc"
   ],
   "note": "Heap of arrays, any history; element type arbitrary; int lengths do not overflow."
  },
  {
   "property": "C09",
   "status": "partial",
   "theorems": [
    "Lolly.ArrayProps.C09_violated",
    "Lolly.ArrayProps.C09_partial",
    "Lolly.ArrayProps.C09_undefined"
   ],
   "note": "The code violates it: a << a re-reads N(b) after the resize and writes past the block (C09_violated). Proved: it works exactly when the rounded capacity leaves room for a third copy."
  },
  {
   "property": "C10",
   "status": "proved",
   "theorems": [
    "Lolly.ArrayProps.C10_contents",
    "Lolly.ArrayProps.C10_range",
    "Lolly.ArrayProps.C10_range_throws",
    "Lolly.ArrayProps.C10_range_violated",
    "Lolly.ArrayProps.C10_append",
    "Lolly.ArrayProps.C10_cons",
    "Lolly.ArrayProps.C10_reverse",
    "Lolly.ArrayProps.C10_scalar",
    "Lolly.ArrayProps.C10_contains",
    "Lolly.ArrayProps.C10_eq",
    "Lolly.ArrayProps.C10_hash",
    "Lolly.ArrayProps.C10_split",
    "Lolly.ArrayProps.C10_append_assoc",
    "Lolly.ArrayProps.C10_append_unit",
    "Lolly.ArrayProps.C10_reverse_reverse"
   ],
   "note": "All laws are proved for 0<=i<=j<=N(a), as stated. Outside of these bounds: range throws, but with crossed bounds i>j passes the assertion and asks for a negative block (C10_range_violated)."
  },
  {
   "property": "C100",
   "status": "partial",
   "theorems": [
    "Lolly.DigestProps.C100_partial",
    "Lolly.DigestProps.C100_empty_violated",
    "Lolly.DigestProps.C100_memory_violated"
   ],
   "note": "Proved for files that are not empty. Violated: an empty file stays open; each call leaves the name and the buffer allocated."
  },
  {
   "property": "C101",
   "status": "partial",
   "theorems": [
    "Lolly.HttpProps.C101_response_partial",
    "Lolly.HttpProps.C101_header",
    "Lolly.HttpProps.C101_set",
    "Lolly.HttpProps.C101_range",
    "Lolly.HttpProps.C101_init_partial",
    "Lolly.HttpProps.C101_labels",
    "Lolly.HttpProps.C101_equal",
    "Lolly.HttpProps.C101_nul_violated",
    "Lolly.HttpProps.C101_init_violated",
    "Lolly.HttpProps.C101_copy_violated",
    "Lolly.HttpProps.C101_equal_violated"
   ],
   "note": "Reading is proved in full but for NULs in texts, which cut them. Violated for copies (which lose all values), for equality (which ignores values: trees are equal exactly if their labels are) and for the label of the time in the initial answer. The library cpr is a function from requests to answers."
  },
  {
   "property": "C102",
   "status": "partial",
   "theorems": [
    "Lolly.HttpProps.C102_request_partial",
    "Lolly.HttpProps.C102_request_any",
    "Lolly.HttpProps.C102_case_violated"
   ],
   "note": "Proved if no two names agree without regard to case and there are no NULs. Violated otherwise: of the names that agree without regard to case only one line is sent; what is sent for any map is proved as well."
  },
  {
   "property": "C103",
   "status": "partial",
   "theorems": [
    "Lolly.HttpProps.C103_download_partial",
    "Lolly.HttpProps.C103_failure_violated",
    "Lolly.HttpProps.C103_file_violated"
   ],
   "note": "Proved for transfers that work. Violated for failures: the file is truncated first. Violated for targets of the protocol file."
  },
  {
   "property": "C104",
   "status": "partial",
   "theorems": [
    "Lolly.UriProps.C104_parts_partial",
    "Lolly.UriProps.C104_short_violated",
    "Lolly.UriProps.C104_file_violated"
   ],
   "note": "Proved for uris with a host and a path. Violated for protocol://host (children that do not exist are read) and for file:///a/b."
  },
  {
   "property": "C105",
   "status": "partial",
   "theorems": [
    "Lolly.UrlListProps.C105_read_partial",
    "Lolly.UrlListProps.C105_paths_partial",
    "Lolly.UrlListProps.C105_print_partial",
    "Lolly.UrlListProps.C105_round_trip_partial",
    "Lolly.UrlListProps.C105_local_violated",
    "Lolly.UrlListProps.C105_root_violated",
    "Lolly.UrlListProps.C105_inside_violated"
   ],
   "note": "Proved for lists of ordinary paths (names without : * [ and the special names). Violated for local:b, for the root as an alternative and for alternatives inside a path, which print in braces that are not read."
  },
  {
   "property": "C106",
   "status": "partial",
   "theorems": [
    "Lolly.UrlHomeProps.C106_home_partial",
    "Lolly.UrlHomeProps.C106_home_unset",
    "Lolly.UrlHomeProps.C106_variable_partial",
    "Lolly.UrlHomeProps.C106_slash_partial",
    "Lolly.UrlHomeProps.C106_relative_partial",
    "Lolly.UrlHomeProps.C106_any",
    "Lolly.UrlHomeProps.C106_web",
    "Lolly.UrlHomeProps.C106_inside_violated",
    "Lolly.UrlHomeProps.C106_cycle_violated",
    "Lolly.UrlHomeProps.C106_home_violated"
   ],
   "note": "Proved for ~ and $X at the beginning and values that are absolute paths of ordinary names, with or without / at the end, and for relative values; C106_any says what every other value gives. Violated for ~ after a name: a/~ puts the root inside the url; and for values that refer to themselves, such as HOME=~ or X=$Y, Y=$X: the recursion does not end."
  },
  {
   "property": "C107",
   "status": "partial",
   "theorems": [
    "Lolly.UrlRootProps.C107_reroot",
    "Lolly.UrlRootProps.C107_ramdisc",
    "Lolly.UrlRootProps.C107_unroot",
    "Lolly.UrlRootProps.C107_relative",
    "Lolly.UrlRootProps.C107_back",
    "Lolly.UrlRootProps.C107_alternatives_partial",
    "Lolly.UrlRootProps.C107_root_violated"
   ],
   "note": "Proved for paths and alternatives of paths. Violated for the root itself as an alternative: unroot makes it `.`."
  },
  {
   "property": "C108",
   "status": "partial",
   "theorems": [
    "Lolly.SysUtilsProps.C108_get",
    "Lolly.SysUtilsProps.C108_refines_partial",
    "Lolly.SysUtilsProps.C108_clear_violated",
    "Lolly.SysUtilsProps.C108_nul_violated"
   ],
   "note": "Proved for non-empty values without NUL, given that the values tbox loads are those between the colons (tbox is not in the repository). Violated for the empty value (a variable cannot be cleared) and for values with NUL."
  },
  {
   "property": "C109",
   "status": "partial",
   "theorems": [
    "Lolly.SharedLibProps.C109_refines_partial",
    "Lolly.SharedLibProps.C109_closed",
    "Lolly.SharedLibProps.C109_failure",
    "Lolly.SharedLibProps.C109_path_violated"
   ],
   "note": "Proved for all programs that load and unload. Violated for the path: under a name that is loaded another file is silently ignored."
  },
  {
   "property": "C11",
   "status": "proved",
   "theorems": [
    "Lolly.LinkedListProps.C11_length",
    "Lolly.LinkedListProps.C11_nth",
    "Lolly.LinkedListProps.C11_last_item",
    "Lolly.LinkedListProps.C11_copy",
    "Lolly.LinkedListProps.C11_snoc",
    "Lolly.LinkedListProps.C11_concat",
    "Lolly.LinkedListProps.C11_head",
    "Lolly.LinkedListProps.C11_tail",
    "Lolly.LinkedListProps.C11_reverse",
    "Lolly.LinkedListProps.C11_remove",
    "Lolly.LinkedListProps.C11_contains",
    "Lolly.LinkedListProps.C11_eq",
    "Lolly.LinkedListProps.C11_prefix",
    "Lolly.LinkedListProps.C11_frame"
   ],
   "note": "On a heap of nodes with sharing, for every acyclic chain."
  },
  {
   "property": "C110",
   "status": "partial",
   "theorems": [
    "Lolly.SysUtilsProps.C110_evaluate_partial",
    "Lolly.SysUtilsProps.C110_unread_violated"
   ],
   "note": "Proved under every schedule for programs that read all of their inputs, none of them empty. Violated if input is left unread: the status is -1."
  },
  {
   "property": "C111",
   "status": "partial",
   "theorems": [
    "Lolly.TreeLifeProps.C111_defined",
    "Lolly.TreeLifeProps.C111_alive_partial",
    "Lolly.TreeLifeProps.C111_kept",
    "Lolly.TreeLifeProps.C111_tree_partial",
    "Lolly.TreeLifeProps.C111_leak_violated",
    "Lolly.TreeLifeProps.C111_zero_violated"
   ],
   "note": "Proved for all programs whose nodes with children have positive operators. Violated for negative operators: the array of children is never destroyed; and for the operator 0: the destructor takes the array for a string. A leaf is a node whose only field is its string. The temporary array of default nodes in the constructors with children is left out."
  },
  {
   "property": "C112",
   "status": "partial",
   "theorems": [
    "Lolly.MoveProps.C112_move_partial",
    "Lolly.MoveProps.C112_copy_partial",
    "Lolly.MoveProps.C112_load_partial",
    "Lolly.MoveProps.C112_chdir",
    "Lolly.MoveProps.C112_web_violated",
    "Lolly.MoveProps.C112_or_violated",
    "Lolly.MoveProps.C112_silent_violated"
   ],
   "note": "Proved for paths of two different files. Violated: urls of the web and alternatives are taken for local files with names like http://h/x and a:b; failures are not reported. What the system does with directories, and with a file that is copied to itself, is not modelled."
  },
  {
   "property": "C113",
   "status": "partial",
   "theorems": [
    "Lolly.MoveProps.C113_temp_dir_partial",
    "Lolly.MoveProps.C113_removed_violated",
    "Lolly.MoveProps.C113_fork_violated",
    "Lolly.MoveProps.C113_blocked_violated"
   ],
   "note": "Proved for the first call and all later ones, if nothing is in the way. Violated: a directory that was removed is not made again, a forked process gets the directory of its parent, and a directory that cannot be made is not reported."
  },
  {
   "property": "C114",
   "status": "partial",
   "theorems": [
    "Lolly.Utf16Props.C114_to_utf16_partial",
    "Lolly.Utf16Props.C114_to_utf8_partial",
    "Lolly.Utf16Props.C114_round_trip_partial",
    "Lolly.Utf16Props.C114_encode",
    "Lolly.Utf16Props.C114_wchar",
    "Lolly.Utf16Props.C114_invalid_partial",
    "Lolly.Utf16Props.C114_nul_violated",
    "Lolly.Utf16Props.C114_error_violated",
    "Lolly.Utf16Props.C114_large_violated",
    "Lolly.Utf16Props.C114_long_violated"
   ],
   "note": "Proved for non-empty texts without NUL whose encodings have less than 2^29 bytes, for every converter that converts well-formed texts that fit into the buffer (tbox is not in the repository); the theorem on invalid input assumes that the converter stops at the first place where it can read no character. Violated: everything from a NUL on is lost on the way to UTF-16, an error of the converter gives undefined behaviour, and so do 2^29 bytes or more; a result of more than 2^30 bytes is never returned."
  },
  {
   "property": "C115",
   "status": "partial",
   "theorems": [
    "Lolly.TreeValueProps.C115_int_partial",
    "Lolly.TreeValueProps.C115_bool",
    "Lolly.TreeValueProps.C115_leaf",
    "Lolly.TreeValueProps.C115_node",
    "Lolly.TreeValueProps.C115_kinds",
    "Lolly.TreeValueProps.C115_accept_violated",
    "Lolly.TreeValueProps.C115_slice_violated"
   ],
   "note": "Proved for all trees. Left out: the least integer (C16). Violated: what the tests accept is not what the conversions know (`#t`, `+-1`), and t (i, i) of a leaf says it is a leaf but has no string."
  },
  {
   "property": "C116",
   "status": "partial",
   "theorems": [
    "Lolly.WinSpawnProps.C116_output_partial",
    "Lolly.WinSpawnProps.C116_terminates",
    "Lolly.WinSpawnProps.C116_blocked_only",
    "Lolly.WinSpawnProps.C116_no_deadlock_partial",
    "Lolly.WinSpawnProps.C116_total_partial",
    "Lolly.WinSpawnProps.C116_two_inputs_violated",
    "Lolly.WinSpawnProps.C116_empty_violated",
    "Lolly.WinSpawnProps.C116_slow_violated",
    "Lolly.WinSpawnProps.C116_start_violated"
   ],
   "note": "Proved for every program and schedule: the results when win_system returns, a bound on all runs, and the only ways in which it can block. No deadlock for one input, or inputs that fit into their pipes, if none is empty. Violated: two long inputs of which the program reads the second first, an empty input that the program reads, a thread that takes longer than five seconds, and a program that cannot be started."
  },
  {
   "property": "C117",
   "status": "partial",
   "theorems": [
    "Lolly.WinUrlProps.C117_drive_partial",
    "Lolly.WinUrlProps.C117_drive_top",
    "Lolly.WinUrlProps.C117_remote_partial",
    "Lolly.WinUrlProps.C117_relative_partial",
    "Lolly.WinUrlProps.C117_print_read",
    "Lolly.WinUrlProps.C117_head",
    "Lolly.WinUrlProps.C117_above_violated",
    "Lolly.WinUrlProps.C117_host_violated",
    "Lolly.WinUrlProps.C117_slash_violated",
    "Lolly.WinUrlProps.C117_ascii_violated"
   ],
   "note": "Proved for all drives, names of computers with at least two characters, and names of files without / \\ * : ; that are not . or ~ and do not begin with $. Violated: a relative path that goes up above a drive loses the drive, a computer with a name of one letter is taken for a drive, \\a is read as a relative path, and names that begin with a character that is not ASCII give undefined behaviour."
  },
  {
   "property": "C118",
   "status": "partial",
   "theorems": [
    "Lolly.ReadDirProps.C118_entries_partial",
    "Lolly.ReadDirProps.C118_web_violated",
    "Lolly.ReadDirProps.C118_colon_violated"
   ],
   "note": "Proved for directories with plain names and entries without colons that are not ~ and do not begin with $. Violated: urls of the web and alternatives clear the flag, and an entry n:n is given as n."
  },
  {
   "property": "C119",
   "status": "partial",
   "theorems": [
    "Lolly.WinFdProps.C119_child_partial",
    "Lolly.WinFdProps.C119_running_partial",
    "Lolly.WinFdProps.C119_after_partial",
    "Lolly.WinFdProps.C119_closed_violated",
    "Lolly.WinFdProps.C119_clash_violated",
    "Lolly.WinFdProps.C119_twice_violated",
    "Lolly.WinFdProps.C119_saved_violated",
    "Lolly.WinFdProps.C119_inherit_violated",
    "Lolly.WinFdProps.C119_full_violated"
   ],
   "note": "Proved for all tables and all choices of numbers, also if pipes fail, if the numbers asked for are different and open in the caller for processes to inherit, and every _dup succeeds. Violated: a number that is not open stays open afterwards as the end of the process, or is not given to the process at all; a channel without a number closes a number twice; copies of descriptors of the caller are inherited; a descriptor that is not inherited becomes inherited; and if _dup fails the descriptor of the caller is lost."
  },
  {
   "property": "C12",
   "status": "proved",
   "theorems": [
    "Lolly.LinkedListProps.C12_push_nil",
    "Lolly.LinkedListProps.C12_push",
    "Lolly.LinkedListProps.C12_join_nil",
    "Lolly.LinkedListProps.C12_join",
    "Lolly.LinkedListProps.C12_self_join_cyclic",
    "Lolly.LinkedListProps.C12_cons",
    "Lolly.LinkedListProps.C12_pop",
    "Lolly.LinkedListProps.C12_access_last",
    "Lolly.LinkedListProps.C12_suppress_last"
   ],
   "note": "On a heap of nodes with sharing; l << m makes a cycle whenever m shares a node with l (C12_self_join_cyclic, for all such lists)."
  },
  {
   "property": "C120",
   "status": "partial",
   "theorems": [
    "Lolly.WinListProps.C120_read_partial",
    "Lolly.WinListProps.C120_paths",
    "Lolly.WinListProps.C120_print",
    "Lolly.WinListProps.C120_round_trip",
    "Lolly.WinListProps.C120_web_violated",
    "Lolly.WinListProps.C120_local_violated"
   ],
   "note": "Proved for entries of every kind if the first entry has no :// and does not begin with local: or //. Violated: a list that begins with an address of the web is one address, and one that begins with local: is one file."
  },
  {
   "property": "C121",
   "status": "proved",
   "theorems": [
    "Lolly.WinHomeProps.C121_home",
    "Lolly.WinHomeProps.C121_home_unset",
    "Lolly.WinHomeProps.C121_variable",
    "Lolly.WinHomeProps.C121_trailing",
    "Lolly.WinHomeProps.C121_percent"
   ],
   "note": "Proved for values that are paths on a drive and for names other than .. after them."
  },
  {
   "property": "C122",
   "status": "partial",
   "theorems": [
    "Lolly.WinWebProps.C122_web_partial",
    "Lolly.WinWebProps.C122_www",
    "Lolly.WinWebProps.C122_file_drive",
    "Lolly.WinWebProps.C122_file_remote_partial",
    "Lolly.WinWebProps.C122_local",
    "Lolly.WinWebProps.C122_colon_violated",
    "Lolly.WinWebProps.C122_host_violated"
   ],
   "note": "Proved for all names without / (files: ordinary names, see C117). Violated: a name of one character and a colon loses the colon (http://h/c: is read as http://h/c), and file://h/a is file:///h:/a if h has one letter."
  },
  {
   "property": "C123",
   "status": "partial",
   "theorems": [
    "Lolly.UrlKindProps.C123_rooted",
    "Lolly.UrlKindProps.C123_names",
    "Lolly.UrlKindProps.C123_below_partial",
    "Lolly.UrlKindProps.C123_relative",
    "Lolly.UrlKindProps.C123_alternatives",
    "Lolly.UrlKindProps.C123_none_violated",
    "Lolly.UrlKindProps.C123_right_violated"
   ],
   "note": "Proved for all urls whose roots are at the beginning. Violated: url_none below an absolute url is url_none, and alternatives of absolute urls are put below the left factor instead of replacing it."
  },
  {
   "property": "C124",
   "status": "partial",
   "theorems": [
    "Lolly.RoundingProps.C124_nearest_partial",
    "Lolly.RoundingProps.C124_large",
    "Lolly.RoundingProps.C124_within_one",
    "Lolly.RoundingProps.C124_integer",
    "Lolly.RoundingProps.C124_monotone",
    "Lolly.RoundingProps.C124_special",
    "Lolly.RoundingProps.C124_int_partial",
    "Lolly.RoundingProps.C124_defined",
    "Lolly.RoundingProps.C124_violated",
    "Lolly.RoundingProps.C124_int_violated"
   ],
   "note": "Proved for all doubles below 2^52 except one; beyond, and for the exception, the exact result is given and is off by at most one. Violated: 0.49999999999999994 becomes 1, and odd integers from 2^52 to 2^53 become the next integer."
  },
  {
   "property": "C125",
   "status": "partial",
   "theorems": [
    "Lolly.WinLocaleProps.C125_same_partial",
    "Lolly.WinLocaleProps.C125_variants",
    "Lolly.WinLocaleProps.C125_english",
    "Lolly.WinLocaleProps.C125_unknown",
    "Lolly.WinLocaleProps.C125_range",
    "Lolly.WinLocaleProps.C125_once",
    "Lolly.WinLocaleProps.C125_never",
    "Lolly.WinLocaleProps.C125_violated"
   ],
   "note": "Proved for all identifiers except those of Finnish and Traditional Chinese. Violated: on Windows Finnish is taken for english and Traditional Chinese for chinese (the case LANG_CHINESE_TRADITIONAL is no primary language and never reached), and Serbian for croatian."
  },
  {
   "property": "C126",
   "status": "partial",
   "theorems": [
    "Lolly.UserProps.C126_unix_partial",
    "Lolly.UserProps.C126_comment",
    "Lolly.UserProps.C126_unknown_violated",
    "Lolly.UserProps.C126_windows_partial",
    "Lolly.UserProps.C126_windows_violated",
    "Lolly.UserProps.C126_long_violated"
   ],
   "note": "Proved for users of the data base, and on Windows for names of less than 100 units if the uninitialised size happens to be large enough. Violated: a user that is not in the data base (null pointer), and on Windows all other sizes."
  },
  {
   "property": "C127",
   "status": "partial",
   "theorems": [
    "Lolly.PlaceholderProps.C127_inside_partial",
    "Lolly.PlaceholderProps.C127_arguments",
    "Lolly.PlaceholderProps.C127_array_violated",
    "Lolly.PlaceholderProps.C127_eleven_violated"
   ],
   "note": "Proved for at most ten inputs and placeholders anywhere in the arguments. Violated: $$10 is replaced as $$1 followed by 0. The array of the caller is changed, since it is shared."
  },
  {
   "property": "C128",
   "status": "partial",
   "theorems": [
    "Lolly.FileUrlProps.C128_path_partial",
    "Lolly.FileUrlProps.C128_top",
    "Lolly.FileUrlProps.C128_home",
    "Lolly.FileUrlProps.C128_unset",
    "Lolly.FileUrlProps.C128_relative_violated",
    "Lolly.FileUrlProps.C128_parent_violated",
    "Lolly.FileUrlProps.C128_below",
    "Lolly.FileUrlProps.C128_below_relative",
    "Lolly.FileUrlProps.C128_below_absolute",
    "Lolly.FileUrlProps.C128_below_violated",
    "Lolly.FileUrlProps.C128_pwd"
   ],
   "note": "Proved for absolute paths and paths below the home directory. Violated: the file of a relative name is that of the same name at the top of the file system, and ../a gives /a; a name that begins with www. is not put below the directory."
  },
  {
   "property": "C129",
   "status": "partial",
   "theorems": [
    "Lolly.DecimalProps.C129_precision",
    "Lolly.DecimalProps.C129_nearest",
    "Lolly.DecimalProps.C129_order",
    "Lolly.DecimalProps.C129_accepted",
    "Lolly.DecimalProps.C129_style",
    "Lolly.DecimalProps.C129_integer",
    "Lolly.DecimalProps.C129_read",
    "Lolly.DecimalProps.C129_exact",
    "Lolly.DecimalProps.C129_read_int",
    "Lolly.DecimalProps.C129_no_number",
    "Lolly.DecimalProps.C129_white",
    "Lolly.DecimalProps.C129_other",
    "Lolly.DecimalProps.C129_short",
    "Lolly.DecimalProps.C129_stable_partial",
    "Lolly.DecimalProps.C129_special",
    "Lolly.DecimalProps.C129_round_trip_violated",
    "Lolly.DecimalProps.C129_stable_violated"
   ],
   "note": "Proved with sprintf and sscanf modelled after the C standard with correct rounding; the last sentence for all doubles from 2^-1050 on. Violated: 202403*2^-1074 is written as 1e-318, which is read as a double that is written as 9.99999e-319. A double of more than six digits is not the one read from its text; inf and nan are written but not accepted by is_double."
  },
  {
   "property": "C13",
   "status": "proved",
   "theorems": [
    "Lolly.MergeSort.C13_sort",
    "Lolly.MergeSort.C13_any_comparison",
    "Lolly.MergeSort.C13_unique",
    "Lolly.MergeSort.C13_companion",
    "Lolly.MergeSort.C13_permutation",
    "Lolly.MergeSort.C13_permute"
   ],
   "note": "For every total transitive comparison; C13_any_comparison covers comparisons that are not orders."
  },
  {
   "property": "C130",
   "status": "proved",
   "theorems": [
    "Lolly.PrintingProps.C130_integer",
    "Lolly.PrintingProps.C130_unique",
    "Lolly.PrintingProps.C130_value",
    "Lolly.PrintingProps.C130_captured",
    "Lolly.PrintingProps.C130_list",
    "Lolly.PrintingProps.C130_joined"
   ],
   "note": "long double is not modelled; C130_joined shows that integers without a separator cannot be told apart."
  },
  {
   "property": "C131",
   "status": "partial",
   "theorems": [
    "Lolly.CallProps.C131_plain_partial",
    "Lolly.CallProps.C131_words",
    "Lolly.CallProps.C131_once_partial",
    "Lolly.CallProps.C131_violated"
   ],
   "note": "Violated: exit statuses 1 to 5 and 22 of a program look like errors of wordexp and EINVAL, so the result does not tell whether anything was run; a command is cut at a NUL; words are leaked if wordexp runs out of memory. Linux and macOS."
  },
  {
   "property": "C132",
   "status": "partial",
   "theorems": [
    "Lolly.ArgsProps.C132_partial",
    "Lolly.ArgsProps.C132_restored",
    "Lolly.ArgsProps.C132_failure",
    "Lolly.ArgsProps.C132_violated"
   ],
   "note": "Proved for arguments that are not empty, for a converter of tbox that converts nonempty well-formed text. Violated: the behaviour is undefined for an empty argument if the converter reports an error for the empty text; the strings of the arguments are never freed."
  },
  {
   "property": "C133",
   "status": "proved",
   "theorems": [
    "Lolly.AllocLibProps.C133_blocks",
    "Lolly.AllocLibProps.C133_returned",
    "Lolly.AllocLibProps.C133_portable",
    "Lolly.AllocLibProps.C133_no_memory",
    "Lolly.AllocLibProps.C133_early"
   ],
   "note": "The libraries themselves are assumed to answer with fresh aligned memory; C133_early: mimalloc gives NULL before mem_init."
  },
  {
   "property": "C134",
   "status": "proved",
   "theorems": [
    "Lolly.CorkProps.C134_letters",
    "Lolly.CorkProps.C134_distinct"
   ],
   "note": "The two encodings are written down as lists of code points in the specification. Nothing is claimed about the 18 characters that neither are in ISO 8859-2 nor have an accent. For the other direction see C65."
  },
  {
   "property": "C135",
   "status": "partial",
   "theorems": [
    "Lolly.UrlPrintProps.C135_partial",
    "Lolly.UrlPrintProps.C135_root_violated",
    "Lolly.UrlPrintProps.C135_ramdisc_violated"
   ],
   "note": "Proved for urls whose names have none of the characters / : { } and * and that are nested as documented, without ramdiscs, the root blank not standing alone. Violated: the roots default and blank are both printed as /; the contents of a ramdisc are not printed. Unix."
  },
  {
   "property": "C136",
   "status": "proved",
   "theorems": [
    "Lolly.HashGraphProps.C136_graph",
    "Lolly.HashGraphProps.C136_meaning"
   ],
   "note": "Reference counts are not part of this model (see C55); nodes that no handle refers to stay in the heap of the model."
  },
  {
   "property": "C137",
   "status": "partial",
   "theorems": [
    "Lolly.HashCodesProps.C137_string_partial",
    "Lolly.HashCodesProps.C137_short",
    "Lolly.HashCodesProps.C137_string_violated",
    "Lolly.HashCodesProps.C137_string_agrees",
    "Lolly.HashCodesProps.C137_u16_partial",
    "Lolly.HashCodesProps.C137_u16_short",
    "Lolly.HashCodesProps.C137_u16_violated",
    "Lolly.HashCodesProps.C137_array_partial",
    "Lolly.HashCodesProps.C137_array_short",
    "Lolly.HashCodesProps.C137_array_violated",
    "Lolly.HashCodesProps.C137_array_agrees"
   ],
   "note": "The partial theorems say exactly which contents overflow and that the value is the wrapped one otherwise. Violated by the string \"yytmmma\", by three Chinese characters in a string_u16 and by an array of two integers. Shifts to the left are taken to wrap, as compilers promise."
  },
  {
   "property": "C138",
   "status": "partial",
   "theorems": [
    "Lolly.AllocDebugProps.C138_silent",
    "Lolly.AllocDebugProps.C138_overflow_partial",
    "Lolly.AllocDebugProps.C138_report_violated",
    "Lolly.AllocDebugProps.C138_underflow_partial",
    "Lolly.AllocDebugProps.C138_header_partial",
    "Lolly.AllocDebugProps.C138_slack_violated",
    "Lolly.AllocDebugProps.C138_array",
    "Lolly.AllocDebugProps.C138_array_header_partial",
    "Lolly.AllocDebugProps.C138_array_violated",
    "Lolly.AllocDebugProps.C138_array_header_violated"
   ],
   "note": "Proved: no false alarms, the right size and elements, and reports for the bytes that are guards. Violated: the report of an overwritten end reads behind the block, bytes between an object and its guard and a[-1] of an array of int are not guarded, and an overwritten number of elements leads to another size or an overflow."
  },
  {
   "property": "C139",
   "status": "partial",
   "theorems": [
    "Lolly.ClockProps.C139_raw",
    "Lolly.ClockProps.C139_elapsed",
    "Lolly.ClockProps.C139_since",
    "Lolly.ClockProps.C139_timer",
    "Lolly.ClockProps.C139_pair_partial",
    "Lolly.ClockProps.C139_pair",
    "Lolly.ClockProps.C139_pair_violated",
    "Lolly.ClockProps.C139_early",
    "Lolly.ClockProps.C139_early_violated"
   ],
   "note": "Proved for raw_time, for timers and for texmacs_time once the program is initialised. Violated: seconds and microseconds read one after the other are wrong by the seconds that began in between; before start_time is initialised texmacs_time is the time since 1970. The clock itself is an input."
  },
  {
   "property": "C14",
   "status": "proved",
   "theorems": [
    "Lolly.StrProps.C14_progress",
    "Lolly.StrProps.C14_contents",
    "Lolly.StrProps.C14_block",
    "Lolly.StrProps.C14_sub",
    "Lolly.StrProps.C14_as_charp"
   ],
   "note": "Heap of strings, any history including s << s; int lengths do not overflow."
  },
  {
   "property": "C140",
   "status": "partial",
   "theorems": [
    "Lolly.FailureProps.C140_run",
    "Lolly.FailureProps.C140_pending_partial",
    "Lolly.FailureProps.C140_careful",
    "Lolly.FailureProps.C140_defined",
    "Lolly.FailureProps.C140_empty_violated",
    "Lolly.FailureProps.C140_display_violated"
   ],
   "note": "Violated: a failure with an empty message cannot be told from none by the_exception, and handle_exceptions displays nothing (the code that did so is commented out). The report of a failure has an empty part: the_report is never set."
  },
  {
   "property": "C141",
   "status": "partial",
   "theorems": [
    "Lolly.StackProps.C141_trace",
    "Lolly.StackProps.C141_read_partial",
    "Lolly.StackProps.C141_none",
    "Lolly.StackProps.C141_null_violated",
    "Lolly.StackProps.C141_all_violated"
   ],
   "note": "Frames are read back if all have names of one line. Violated: a frame without a name looks like a function called null, and the largest limit is undefined behaviour since the array for one more frame has size 0. tbox gives the frames."
  },
  {
   "property": "C142",
   "status": "partial",
   "theorems": [
    "Lolly.ObjectsProps.C142_lives",
    "Lolly.ObjectsProps.C142_blocks",
    "Lolly.ObjectsProps.C142_used",
    "Lolly.ObjectsProps.C142_no_leak_partial",
    "Lolly.ObjectsProps.C142_violated",
    "Lolly.ObjectsProps.C142_array_violated"
   ],
   "note": "Lives and separation are proved for all programs, and mem_used exactly. Violated if a constructor throws: the memory stays in use, and elements of the array that were made before are never destroyed."
  },
  {
   "property": "C143",
   "status": "partial",
   "theorems": [
    "Lolly.ListIdentityProps.C143_write",
    "Lolly.ListIdentityProps.C143_is_atom",
    "Lolly.ListIdentityProps.C143_strong_equal_partial",
    "Lolly.ListIdentityProps.C143_identity",
    "Lolly.ListIdentityProps.C143_violated"
   ],
   "note": "Proved for writing items and is_atom. Violated: strong_equal compares the addresses of the first nodes, so separate lists of the same items are not strongly equal; C143_identity says what it tells instead."
  },
  {
   "property": "C144",
   "status": "partial",
   "theorems": [
    "Lolly.MapRefsProps.C144_values",
    "Lolly.MapRefsProps.C144_valid_partial",
    "Lolly.MapRefsProps.C144_dangling",
    "Lolly.MapRefsProps.C144_present",
    "Lolly.MapRefsProps.C144_violated"
   ],
   "note": "Valid exactly until the table is reorganised or the key removed; Calm gives the condition by the numbers of keys and buckets, and programs that only use present keys always meet it. Violated: adding a key when the table is full (or removing one when it is half empty) makes new nodes for all keys and leaves references dangling."
  },
  {
   "property": "C145",
   "status": "partial",
   "theorems": [
    "Lolly.ArrayLoopProps.C145_reference_partial",
    "Lolly.ArrayLoopProps.C145_reference_dangling",
    "Lolly.ArrayLoopProps.C145_loop_partial",
    "Lolly.ArrayLoopProps.C145_loop_dangling",
    "Lolly.ArrayLoopProps.C145_violated"
   ],
   "note": "Valid exactly as long as all lengths of the array have one capacity (the lengths themselves up to 5, then powers of two from 8); the loop is then right for all elements that are not dropped. Violated: appending to an array of three elements leaves references dangling and breaks a loop over it, and a loop visits elements that its body dropped."
  },
  {
   "property": "C146",
   "status": "partial",
   "theorems": [
    "Lolly.ThreadsProps.C146_counts_partial",
    "Lolly.ThreadsProps.C146_counts_violated",
    "Lolly.ThreadsProps.C146_blocks_partial",
    "Lolly.ThreadsProps.C146_blocks_violated"
   ],
   "note": "Counts are right in every schedule if no two threads have handles of one object; blocks are separate if calls of the allocator do not overlap in time. Violated: counts are not atomic, so that two threads that copy a common string at once lose a count and the string is destroyed too early; the free lists are not locked, so that two threads that share nothing get the same block. (A comment in win_sys_utils.cpp says that strings are not thread safe.) Accesses happen in the order of the program; one free list, without new chunks."
  },
  {
   "property": "C147",
   "status": "partial",
   "theorems": [
    "Lolly.ListDepthProps.C147_walk_partial",
    "Lolly.ListDepthProps.C147_walk_exact",
    "Lolly.ListDepthProps.C147_index_exact",
    "Lolly.ListDepthProps.C147_end_exact",
    "Lolly.ListDepthProps.C147_destroy",
    "Lolly.ListDepthProps.C147_violated"
   ],
   "note": "Right for lists shorter than the number of calls that fit on the stack, and for N, last_item, tail, reverse and printing, which are loops. Violated: the other functions and the destructor call themselves once for each node, and the theorems say exactly when the stack overflows; a list made by a loop cannot be destroyed if it is longer than that. Calls that a compiler turns into loops are counted as calls; this is not possible for copy, head, remove, * and the destructor."
  },
  {
   "property": "C148",
   "status": "partial",
   "theorems": [
    "Lolly.MinMaxProps.C148_int",
    "Lolly.MinMaxProps.C148_double_partial",
    "Lolly.MinMaxProps.C148_order_partial",
    "Lolly.MinMaxProps.C148_value",
    "Lolly.MinMaxProps.C148_nan",
    "Lolly.MinMaxProps.C148_violated"
   ],
   "note": "Proved for integers and for doubles without NaN, up to the sign of a zero. Violated: the result is a NaN exactly if the last number is one, and a NaN elsewhere hides the numbers before it: of 1, NaN and 2 the smallest is 2."
  },
  {
   "property": "C149",
   "status": "partial",
   "theorems": [
    "Lolly.GrowCostProps.C149_array_partial",
    "Lolly.GrowCostProps.C149_array_violated",
    "Lolly.GrowCostProps.C149_string_partial",
    "Lolly.GrowCostProps.C149_string_violated",
    "Lolly.GrowCostProps.C149_map_partial",
    "Lolly.GrowCostProps.C149_map_violated"
   ],
   "note": "Proved for growing: an array of n elements costs at most 6 n + 14 cells, a string of n characters 6 n + 71, a hash map of n keys 6 n entries and buckets. Violated by going back and forth: at a capacity (8, 16, ... elements, 32, 64, ... characters) each element appended or dropped moves all others, and with as many keys as buckets adding a key and removing two reorganises the map twice. Cells count as touched if they belong to a block that is allocated, moved or freed; realloc may do better, and the search in a bucket is not counted."
  },
  {
   "property": "C15",
   "status": "proved",
   "theorems": [
    "Lolly.StrProps.C15_eq",
    "Lolly.StrProps.C15_meaning",
    "Lolly.StrProps.C15_laws",
    "Lolly.StrProps.C15_hash",
    "Lolly.StrProps.C15_eq_c"
   ],
   "note": "For all strings reachable by any history; char is signed."
  },
  {
   "property": "C150",
   "status": "proved",
   "theorems": [
    "Lolly.SortStepsProps.C150_sort",
    "Lolly.SortStepsProps.C150_exception",
    "Lolly.SortStepsProps.C150_companion",
    "Lolly.SortStepsProps.C150_pure"
   ],
   "note": "Comparisons are functions with a state of their own that answer true, false or throw. For assignments of elements that throw see C179."
  },
  {
   "property": "C151",
   "status": "partial",
   "theorems": [
    "Lolly.TreeCostProps.C151_copy_stack",
    "Lolly.TreeCostProps.C151_copy_partial",
    "Lolly.TreeCostProps.C151_compare_partial",
    "Lolly.TreeCostProps.C151_destroy_partial",
    "Lolly.TreeCostProps.C151_destroy_shared",
    "Lolly.TreeCostProps.C151_copy_violated",
    "Lolly.TreeCostProps.C151_compare_violated",
    "Lolly.TreeCostProps.C151_depth_violated",
    "Lolly.TreeCostProps.C151_destroy_violated"
   ],
   "note": "Proved for trees in which no node occurs twice: fewer than two new nodes per node, at most one call of the comparison per node, and exactly the nodes of the tree are deleted, if the stack has room for as many calls as the tree has levels. Violated: with less stack copying, comparing and destroying overflow it, so a tree made by a loop can be impossible to destroy; and with common parts the cost is exponential: after n times t= lolly_tree (1, t, t) there are 3 n + 1 nodes, a copy makes 2^(n+2) - 3 further ones, and comparing two of them takes 2^(n+1) - 1 calls. The empty nodes that fill an array up to its capacity are not counted."
  },
  {
   "property": "C152",
   "status": "partial",
   "theorems": [
    "Lolly.SharedProps.C152_alone_partial",
    "Lolly.SharedProps.C152_copies_partial",
    "Lolly.SharedProps.C152_default_violated",
    "Lolly.SharedProps.C152_read_violated",
    "Lolly.SharedProps.C152_stored_violated",
    "Lolly.SharedProps.C152_copied_map_violated"
   ],
   "note": "Proved for programs in which whatever is changed in place shares its representation with nothing else; this is so if values are copied when they are read or stored, and h(k) << x is used only for keys that were assigned before. Violated otherwise, after any program: h(k) << x for a key that is not there changes the default, so h(1) << x; h(2) << y gives both keys and all absent ones x and y; after v= h[k] or h(k)= v, v << x changes h[k]; and copy (h) has its values in common with h."
  },
  {
   "property": "C153",
   "status": "partial",
   "theorems": [
    "Lolly.SharedKeysProps.C153_map_partial",
    "Lolly.SharedKeysProps.C153_violated"
   ],
   "note": "Proved for programs that do not append to a variable that was used as key, or assigned to or from another one, until it gets a new value. Violated, after any such program: h(k)= v; k << x for a string that is not in the map makes an entry that no lookup finds, neither with the old nor with the new string (if their hash codes differ), although the map counts and enumerates it, and h->reset (k) cannot remove it."
  },
  {
   "property": "C154",
   "status": "partial",
   "theorems": [
    "Lolly.CopiesProps.C154_deep",
    "Lolly.CopiesProps.C154_array_partial",
    "Lolly.CopiesProps.C154_array_violated"
   ],
   "note": "Proved in full for strings and trees. For arrays: the copy shows the same, and elements may be appended and assigned without any effect elsewhere; violated for changes of the elements in place: after v= copy (w) for an array of strings, v[i] << x changes w[i] as well, since only the handles are copied."
  },
  {
   "property": "C155",
   "status": "partial",
   "theorems": [
    "Lolly.ResultsProps.C155_value",
    "Lolly.ResultsProps.C155_suffix",
    "Lolly.ResultsProps.C155_text_partial",
    "Lolly.ResultsProps.C155_as_string_partial",
    "Lolly.ResultsProps.C155_protocol_partial",
    "Lolly.ResultsProps.C155_basename_partial",
    "Lolly.ResultsProps.C155_text_violated",
    "Lolly.ResultsProps.C155_name_violated",
    "Lolly.ResultsProps.C155_protocol_violated",
    "Lolly.ResultsProps.C155_basename_violated"
   ],
   "note": "Proved after any program: for functions of strings if the result differs from the argument, for suffix always, for as_string unless the url is a single name or wildcard, for protocol if the url does not begin with a root, for basename if something is cut off. Violated otherwise: the result is the argument itself or the label in the url, so with u = /data, string s= basename (u); s << \".bak\" makes u /data.bak, and string s= u.protocol (); s << x changes the root of u."
  },
  {
   "property": "C156",
   "status": "partial",
   "theorems": [
    "Lolly.ProcessCostProps.C156_same",
    "Lolly.ProcessCostProps.C156_partial",
    "Lolly.ProcessCostProps.C156_violated",
    "Lolly.ProcessCostProps.C156_unbounded_violated"
   ],
   "note": "Proved: with j reads at most j characters are copied per character of output. Violated: the capacity of the buffer is never used, every append copies everything, so for n characters, read in pieces of at most s (4096), at least n*n/(2*s) characters are copied, and there is no constant bound per character."
  },
  {
   "property": "C157",
   "status": "partial",
   "theorems": [
    "Lolly.UrlCostProps.C157_same",
    "Lolly.UrlCostProps.C157_partial",
    "Lolly.UrlCostProps.C157_violated",
    "Lolly.UrlCostProps.C157_unbounded_violated"
   ],
   "note": "Proved: at most four times the depth of the url is copied per character of the text. Violated: a path with n separators needs at least n*(n+1)/2 copied characters, whatever the names are (the code has a comment that it is quadratic), so there is no constant bound."
  },
  {
   "property": "C158",
   "status": "partial",
   "theorems": [
    "Lolly.WritableProps.C158_arrives_partial",
    "Lolly.WritableProps.C158_answer",
    "Lolly.WritableProps.C158_stays",
    "Lolly.WritableProps.C158_reason",
    "Lolly.WritableProps.C158_sink_violated"
   ],
   "note": "Proved for streams on files and for buffers. Violated by the stream that is made without a file: it says that it is writable, and what is written to it is lost."
  },
  {
   "property": "C159",
   "status": "partial",
   "theorems": [
    "Lolly.ProbeCostProps.C159_same",
    "Lolly.ProbeCostProps.C159_exact",
    "Lolly.ProbeCostProps.C159_int_partial",
    "Lolly.ProbeCostProps.C159_int_violated",
    "Lolly.ProbeCostProps.C159_string_violated"
   ],
   "note": "Proved: a search looks at no more entries than there are keys whose hash codes agree modulo the number of buckets, and a search for integers at no more than k entries if the keys fill at least the k-th part of an interval. Violated otherwise: the bucket is given by the lowest bits of the hash code, and integers are their own hash codes, so with the multiples of 65536 as keys (up to 65536 of them) every search goes through all keys; and for every n there are n different strings of lower-case letters with the same hash code (any number of copies of wyywmmma). Assigning to n such keys takes n*(n-1)/2 rounds."
  },
  {
   "property": "C16",
   "status": "partial",
   "theorems": [
    "Lolly.ConvProps.C16_round_trip_partial",
    "Lolly.ConvProps.C16_minimum_violated",
    "Lolly.ConvProps.C16_canonical",
    "Lolly.ConvProps.C16_reading",
    "Lolly.ConvProps.C16_accepts_partial",
    "Lolly.ConvProps.C16_sign_violated",
    "Lolly.ConvProps.C16_prefix"
   ],
   "note": "The code violates it: the smallest int/long overflows when read back, and is_int accepts +-digits, which as_int reads as 0. Proved for all other integers and strings."
  },
  {
   "property": "C160",
   "status": "partial",
   "theorems": [
    "Lolly.SpawnFailProps.C160_failure_partial",
    "Lolly.SpawnFailProps.C160_started",
    "Lolly.SpawnFailProps.C160_signal_partial",
    "Lolly.SpawnFailProps.C160_thread_violated",
    "Lolly.SpawnFailProps.C160_pipe_violated",
    "Lolly.SpawnFailProps.C160_signal_violated"
   ],
   "note": "Proved for all failures of file actions and of posix_spawnp, and, with SIGPIPE in its default setting, for programs that read all of their inputs. Violated: if more of an input is left unread than a pipe holds, the caller is killed by SIGPIPE in every schedule (nothing in the library ignores or blocks it); if a thread cannot be made, the threads made before run on with destroyed channels and the process is never waited for; if a pipe cannot be made, descriptors without values are used. A call without arguments returns 0 and does nothing."
  },
  {
   "property": "C161",
   "status": "partial",
   "theorems": [
    "Lolly.CallableProps.C161_exact",
    "Lolly.CallableProps.C161_held_partial",
    "Lolly.CallableProps.C161_call_violated",
    "Lolly.CallableProps.C161_destructor_violated",
    "Lolly.CallableProps.C161_null_violated",
    "Lolly.CallableProps.C161_rep_violated"
   ],
   "note": "Proved for destructors that do nothing of their own: a method can work on its object exactly as long as a variable or an argument refers to it, so calls through an argument passed by value are safe. Violated: x () whose method overwrites x destroys the object during its own method; a destructor that copies the variable which is being overwritten destroys the object twice; the constructor from a pointer dereferences NULL; and a handle whose pointer is set directly, as in the tests of the library, has a count that is too small by one. Results and arguments of the methods are left out, and objects have no handles as fields (C55 has those)."
  },
  {
   "property": "C162",
   "status": "partial",
   "theorems": [
    "Lolly.SearchCostProps.C162_forwards",
    "Lolly.SearchCostProps.C162_forwards_any",
    "Lolly.SearchCostProps.C162_backwards",
    "Lolly.SearchCostProps.C162_count",
    "Lolly.SearchCostProps.C162_replace",
    "Lolly.SearchCostProps.C162_tokenize",
    "Lolly.SearchCostProps.C162_wildcard_partial",
    "Lolly.SearchCostProps.C162_wildcard_violated"
   ],
   "note": "Proved for searching, replace and tokenize, and for match_wildcard with at most one star in the pattern. Violated for patterns with many stars: to refuse 2k letters a for the pattern *a*a...*ab of 2k+1 characters takes at least 2^k calls; in general every star contributes a factor N(s)+1. Each theorem also says that the counted functions have the outcomes of those of C19-C23."
  },
  {
   "property": "C163",
   "status": "partial",
   "theorems": [
    "Lolly.SharedBufProps.C163_inside",
    "Lolly.SharedBufProps.C163_exclusive_partial",
    "Lolly.SharedBufProps.C163_types_partial",
    "Lolly.SharedBufProps.C163_violated"
   ],
   "note": "Every operator formats into one static array for its type. Proved if no two threads write values of the same type at the same time, or at all; accesses are inside the arrays for every schedule. Violated: two threads that write ints to different streams can write the same number. A step is one access to memory; that the standard calls this a data race is not modelled."
  },
  {
   "property": "C164",
   "status": "partial",
   "theorems": [
    "Lolly.ListCostProps.C164_same",
    "Lolly.ListCostProps.C164_append_exact",
    "Lolly.ListCostProps.C164_prepend_exact",
    "Lolly.ListCostProps.C164_index_exact",
    "Lolly.ListCostProps.C164_walk_exact",
    "Lolly.ListCostProps.C164_violated"
   ],
   "note": "Exact numbers of calls and rounds. x >> l followed by reverse, and going from node to node, are linear. Violated: building with l << x takes n(n+1)/2 calls and going through by index more than n*n steps."
  },
  {
   "property": "C165",
   "status": "partial",
   "theorems": [
    "Lolly.GlobalsProps.C165_exact",
    "Lolly.GlobalsProps.C165_after_partial",
    "Lolly.GlobalsProps.C165_main",
    "Lolly.GlobalsProps.C165_calls",
    "Lolly.GlobalsProps.C165_pairs",
    "Lolly.GlobalsProps.C165_order_violated",
    "Lolly.GlobalsProps.C165_exit_violated"
   ],
   "note": "Proved exactly which programs work for which orders of initialisation; functions that only use their arguments always work, main may use everything, and constructors may use everything if the library is initialised first. Violated: otherwise a constructor or destructor that uses e.g. to_roman or cout reads a string or stream that has not been made or is gone; and a destructor that calls url_temp_dir, which main but no constructor has called, uses a destroyed url in every order. Functions are given by the global objects which they use; threads are left out."
  },
  {
   "property": "C166",
   "status": "partial",
   "theorems": [
    "Lolly.ViewsProps.C166_made_partial",
    "Lolly.ViewsProps.C166_compare",
    "Lolly.ViewsProps.C166_part",
    "Lolly.ViewsProps.C166_parts",
    "Lolly.ViewsProps.C166_back",
    "Lolly.ViewsProps.C166_exact",
    "Lolly.ViewsProps.C166_negative_violated",
    "Lolly.ViewsProps.C166_equality_violated",
    "Lolly.ViewsProps.C166_longer_violated",
    "Lolly.ViewsProps.C166_array_violated"
   ],
   "note": "Proved for literals and std::strings of less than 2^31 elements; C166_exact says that the way back works for no others. Violated: from 2^31 elements on the length becomes negative, so that all views of strings of that size are equal, their parts are empty and the way back throws; 2^32 elements more are not seen; and from an array larger than its text the view shows the NUL and what follows. operator< with an array on the left does not compile if it is used and is not modelled."
  },
  {
   "property": "C167",
   "status": "partial",
   "theorems": [
    "Lolly.ViewLifeProps.C167_exact",
    "Lolly.ViewLifeProps.C167_room",
    "Lolly.ViewLifeProps.C167_full",
    "Lolly.ViewLifeProps.C167_steady",
    "Lolly.ViewLifeProps.C167_append",
    "Lolly.ViewLifeProps.C167_destroyed",
    "Lolly.ViewLifeProps.C167_append_violated",
    "Lolly.ViewLifeProps.C167_shorter_violated"
   ],
   "note": "Proved exactly: a view that is not empty may be used as long as the string exists and its room (multiples of 4 up to 20, then 32, 64, ...) has not changed since; while the length is not changed it shows the characters of the string. Violated: appending one character at a length of 4, 8, ..., 20, 32, 64, ... makes all views of the string unusable, and after the string was made shorter with the same room a view still shows the removed characters. Blocks have identities which are not used again."
  },
  {
   "property": "C168",
   "status": "partial",
   "theorems": [
    "Lolly.SearcherLifeProps.C168_answers_partial",
    "Lolly.SearcherLifeProps.C168_unchanged_partial",
    "Lolly.SearcherLifeProps.C168_single_partial",
    "Lolly.SearcherLifeProps.C168_copy",
    "Lolly.SearcherLifeProps.C168_appended_violated",
    "Lolly.SearcherLifeProps.C168_long_violated",
    "Lolly.SearcherLifeProps.C168_violated"
   ],
   "note": "A searcher keeps the handle of the string, and a table made for the characters it had. Proved for patterns not longer than the text was: every place reported has the pattern now, every place that had it then and has it now is reported (for single characters these are exactly the places), the answers are right whenever the text is what it was, and a searcher made from copy (s) always gives the answers for the text it was made for. Violated: what was changed or appended later is not found, and searching a longer pattern in a text that was made longer reads outside the table."
  },
  {
   "property": "C169",
   "status": "partial",
   "theorems": [
    "Lolly.SelfLoopsProps.C169_join",
    "Lolly.SelfLoopsProps.C169_write_back",
    "Lolly.SelfLoopsProps.C169_base",
    "Lolly.SelfLoopsProps.C169_patch_partial",
    "Lolly.SelfLoopsProps.C169_kept_partial",
    "Lolly.SelfLoopsProps.C169_both_partial",
    "Lolly.SelfLoopsProps.C169_patch_violated",
    "Lolly.SelfLoopsProps.C169_generate_update",
    "Lolly.SelfLoopsProps.C169_generate_remove_partial",
    "Lolly.SelfLoopsProps.C169_generate_any_partial",
    "Lolly.SelfLoopsProps.C169_generate_remove_violated",
    "Lolly.SelfLoopsProps.C169_generate_insert_violated"
   ],
   "note": "join and write_back with the map itself, and patches with the map itself as base, are right for all maps. A patch with the map itself as patch is right or reads outside the table, and is right if enough entries differ from the base that the table does not shrink. Violated: the loop keeps the number of buckets from before, so that it reads the fourth bucket after the table has shrunk to two. A routine given to generate may change values, and remove keys as long as the table does not shrink; whatever it removes, the loop ends inside the table. Violated: keys are missed after the table has shrunk. The rest of a bucket is a value in the model; routines that remove other keys than the one they are called with are left out."
  },
  {
   "property": "C17",
   "status": "partial",
   "theorems": [
    "Lolly.ConvProps.C17_partial",
    "Lolly.ConvProps.C17_violated"
   ],
   "note": "The code violates it; proved: the exact sets of strings on which is_int and is_double read past the end."
  },
  {
   "property": "C170",
   "status": "partial",
   "theorems": [
    "Lolly.CStringProps.C170_alive",
    "Lolly.CStringProps.C170_freed",
    "Lolly.CStringProps.C170_handles",
    "Lolly.CStringProps.C170_usable",
    "Lolly.CStringProps.C170_made",
    "Lolly.CStringProps.C170_room",
    "Lolly.CStringProps.C170_keeps",
    "Lolly.CStringProps.C170_shared",
    "Lolly.CStringProps.C170_temporary_violated",
    "Lolly.CStringProps.C170_null_violated",
    "Lolly.CStringProps.C170_nul_violated",
    "Lolly.CStringProps.C170_assigned_violated"
   ],
   "note": "The life of the buffers is proved exactly for all programs: a pointer is usable as long as some handle refers to its buffer, and not afterwards. Violated: the pointer of a temporary, and that of a handle to which something else was assigned, are unusable at once; c_string () is NULL and not the empty text; characters after a NUL are not seen. Buffers have identities which are not used again; lengths given to c_string (int) are not negative."
  },
  {
   "property": "C171",
   "status": "partial",
   "theorems": [
    "Lolly.SearcherCostProps.C171_build",
    "Lolly.SearcherCostProps.C171_stored",
    "Lolly.SearcherCostProps.C171_all",
    "Lolly.SearcherCostProps.C171_next",
    "Lolly.SearcherCostProps.C171_occurrences_partial",
    "Lolly.SearcherCostProps.C171_all_violated",
    "Lolly.SearcherCostProps.C171_next_violated",
    "Lolly.SearcherCostProps.C171_common",
    "Lolly.SearcherCostProps.C171_common_violated"
   ],
   "note": "Proved: rounds of the constructor, the exact number of positions held, at most (pattern + 1) comparisons for each place with the code of the first k characters of the pattern (k the greatest power of two not above its length), hence for each occurrence of these k characters when no codes collide. Violated: the work is not bounded by the occurrences of the whole pattern (a pattern that does not occur is compared over its whole length at n + 1 - k places), search_next goes through all earlier occurrences each time, and get_longest_common is cubic (at least m^3 comparisons for 2 m + 1 and 3 m characters). The cost of looking up a code in a table is C159."
  },
  {
   "property": "C172",
   "status": "partial",
   "theorems": [
    "Lolly.LongProps.C172_rounding",
    "Lolly.LongProps.C172_rounding_violated",
    "Lolly.LongProps.C172_program_partial",
    "Lolly.LongProps.C172_program_violated",
    "Lolly.LongProps.C172_text_partial",
    "Lolly.LongProps.C172_text_violated",
    "Lolly.LongProps.C172_arrays_partial",
    "Lolly.LongProps.C172_arrays_violated",
    "Lolly.LongProps.C172_u16_made",
    "Lolly.LongProps.C172_u16_partial",
    "Lolly.LongProps.C172_u16_violated"
   ],
   "note": "Proved up to 2^30 elements, exactly: a program of string commands whose lengths stay there does what it does to texts. Violated beyond: the loop that rounds lengths doubles its variable past the greatest int, to 0, and never ends, so that no string or array can have more than 2^30 elements; from 2^31 - 3 characters on the sum of the lengths overflows; a C text of 2^32 + k characters silently becomes a string of its first k characters. Negative lengths are not modelled."
  },
  {
   "property": "C173",
   "status": "partial",
   "theorems": [
    "Lolly.PosProps.C173_same",
    "Lolly.PosProps.C173_beyond_partial",
    "Lolly.PosProps.C173_beyond_violated",
    "Lolly.PosProps.C173_negative_partial",
    "Lolly.PosProps.C173_negative_violated"
   ],
   "note": "Proved: for every position from 0 on (strings up to 2^30 characters) each function with checked int arithmetic gives what the functions of C20, C38 and C76 give. Beyond the end most functions give false, -1 or the empty string and keep the position. Violated: read_int, read_double and find_non_alpha backwards read outside the string beyond the end, search_forwards overflows when the end of the pattern is not an int; for negative positions every function that goes forwards reads in front of the string."
  },
  {
   "property": "C174",
   "status": "partial",
   "theorems": [
    "Lolly.HashThrowProps.C174_throws",
    "Lolly.HashThrowProps.C174_returns",
    "Lolly.HashThrowProps.C174_kept_partial",
    "Lolly.HashThrowProps.C174_values",
    "Lolly.HashThrowProps.C174_progress",
    "Lolly.HashThrowProps.C174_lost",
    "Lolly.HashThrowProps.C174_lost_violated",
    "Lolly.HashThrowProps.C174_generate"
   ],
   "note": "Proved: exceptions are passed on at once; calls that return equal the functions of C01; reading calls, and changes that do not rebuild the table, leave the map as it was; after any exceptions the map can be used, keys found have their last value. Violated: resize installs the empty new table first, so that an exception of hash loses entries for good while N counts them still; for every map about to grow there is a call whose exception loses all entries."
  },
  {
   "property": "C175",
   "status": "partial",
   "theorems": [
    "Lolly.ArrayThrowProps.C175_throws",
    "Lolly.ArrayThrowProps.C175_returns",
    "Lolly.ArrayThrowProps.C175_make",
    "Lolly.ArrayThrowProps.C175_kept_partial",
    "Lolly.ArrayThrowProps.C175_longer_violated",
    "Lolly.ArrayThrowProps.C175_dangling_violated"
   ],
   "note": "Proved: exceptions are passed on at once; after exceptions of assignments, and of constructors in an empty array, the array can be used and destroyed, and calls that return do what they should. Violated: when the assignment in a << x throws the array is one element longer; when a constructor throws while an array that is not empty gets memory, tm_resize_array has given the old block back already (or has set the number in its header), so that every later access or the destruction is undefined."
  },
  {
   "property": "C176",
   "status": "partial",
   "theorems": [
    "Lolly.HashSetThrowProps.C176_throws",
    "Lolly.HashSetThrowProps.C176_returns",
    "Lolly.HashSetThrowProps.C176_kept_partial",
    "Lolly.HashSetThrowProps.C176_members",
    "Lolly.HashSetThrowProps.C176_progress",
    "Lolly.HashSetThrowProps.C176_lost_violated",
    "Lolly.HashSetThrowProps.C176_equal_violated"
   ],
   "note": "Proved: exceptions are passed on at once; contains and remove that throw leave the set as it was, insert does unless the set has reached its limit; after any exceptions the set can be used, calls that return do what they should, and an element that is found was inserted and not removed. Violated: insert rebuilds the table first, even if the element is there already, and an exception then loses all or some of the elements, while N counts them still; a set that has lost its elements is equal to every set with the same N, but none of these that finds an element is equal to it."
  },
  {
   "property": "C177",
   "status": "partial",
   "theorems": [
    "Lolly.DecimalLocaleProps.C177_c",
    "Lolly.DecimalLocaleProps.C177_text",
    "Lolly.DecimalLocaleProps.C177_special",
    "Lolly.DecimalLocaleProps.C177_read",
    "Lolly.DecimalLocaleProps.C177_plain",
    "Lolly.DecimalLocaleProps.C177_same_partial",
    "Lolly.DecimalLocaleProps.C177_integer",
    "Lolly.DecimalLocaleProps.C177_front",
    "Lolly.DecimalLocaleProps.C177_between_violated",
    "Lolly.DecimalLocaleProps.C177_accepted_violated",
    "Lolly.DecimalLocaleProps.C177_example_violated"
   ],
   "note": "Proved: in any locale the text is that of the locale C with the other decimal point, it fits into the buffers, and written and read within one locale the result is that of the locale C; texts without a point, integers, infinities and NaN do not depend on the locale. Violated: a text with the point of another locale is read up to this point only, so that the fraction and also the exponent are lost (1234567 becomes 1), and is_double rejects what is written with another point."
  },
  {
   "property": "C178",
   "status": "partial",
   "theorems": [
    "Lolly.RelThrowProps.C178_throws",
    "Lolly.RelThrowProps.C178_returns",
    "Lolly.RelThrowProps.C178_merged",
    "Lolly.RelThrowProps.C178_visible_partial",
    "Lolly.RelThrowProps.C178_below",
    "Lolly.RelThrowProps.C178_half_violated",
    "Lolly.RelThrowProps.C178_lost_violated"
   ],
   "note": "Proved: merge throws exactly if a call of a function of a key threw; if it returns nothing visible has changed; if it throws and the layer below has room for the new keys, nothing visible has changed and it can be repeated. Violated: for every k an exception can leave just the first k changes in the layer below, so that shorten no longer discards them; if the layer below has to grow, its values can be lost."
  },
  {
   "property": "C179",
   "status": "partial",
   "theorems": [
    "Lolly.SortThrowProps.C179_outcome_partial",
    "Lolly.SortThrowProps.C179_in_order",
    "Lolly.SortThrowProps.C179_lost_violated"
   ],
   "note": "Proved: the exception of the first assignment that throws reaches the caller; the array keeps its length and has only elements that it had; an array in order is not changed at all; a call that returns has sorted. Violated for every array that is not in order: there is an assignment whose exception loses an element and leaves another one once more. An assignment that throws is taken to leave its target as it was."
  },
  {
   "property": "C18",
   "status": "proved",
   "theorems": [
    "Lolly.CharsProps.C18_raw",
    "Lolly.CharsProps.C18_unquote",
    "Lolly.CharsProps.C18_generic",
    "Lolly.CharsProps.C18_spaces"
   ],
   "note": ""
  },
  {
   "property": "C180",
   "status": "partial",
   "theorems": [
    "Lolly.HashFuncProps.C180_transparent",
    "Lolly.HashFuncProps.C180_sound",
    "Lolly.HashFuncProps.C180_kept_partial",
    "Lolly.HashFuncProps.C180_reentrant_violated",
    "Lolly.HashFuncProps.C180_again"
   ],
   "note": "Proved: for functions without variables the hashfunc is the function, with the same exceptions and the same termination, and it is called at most once for each argument for which it returns; with variables an answer that has been given stays. Violated: a function with variables that asks for the argument for which it is being called can get one answer and give another one, and is called twice. Exceptions are not remembered: each query calls the function again."
  },
  {
   "property": "C181",
   "status": "partial",
   "theorems": [
    "Lolly.ListThrowProps.C181_copy_partial",
    "Lolly.ListThrowProps.C181_concat_partial",
    "Lolly.ListThrowProps.C181_head_partial",
    "Lolly.ListThrowProps.C181_short",
    "Lolly.ListThrowProps.C181_reverse_partial",
    "Lolly.ListThrowProps.C181_push_partial",
    "Lolly.ListThrowProps.C181_unshift_partial",
    "Lolly.ListThrowProps.C181_times_partial",
    "Lolly.ListThrowProps.C181_remove_partial",
    "Lolly.ListThrowProps.C181_times_violated",
    "Lolly.ListThrowProps.C181_lost_violated",
    "Lolly.ListThrowProps.C181_again_violated"
   ],
   "note": "Proved: if no copy throws, the result; otherwise all nodes are as before with their counts, the new ones are freed, and there are as many elements as before. Violated: tm_new does not give back its block when the constructor of the node throws, so that one block is lost by every exception of two of the three copies for each item."
  },
  {
   "property": "C182",
   "status": "proved",
   "theorems": [
    "Lolly.SortIntProps.C182_sort",
    "Lolly.SortIntProps.C182_depth",
    "Lolly.SortIntProps.C182_limit",
    "Lolly.SortIntProps.C182_companion"
   ],
   "note": "For both forms. The number of nested calls that is needed is exact; C182_limit shows that the limit of 2^30 elements of C172 is what makes the sums of positions safe."
  },
  {
   "property": "C183",
   "status": "partial",
   "theorems": [
    "Lolly.SortAliasProps.C183_elements_partial",
    "Lolly.SortAliasProps.C183_order_violated",
    "Lolly.SortAliasProps.C183_two_violated"
   ],
   "note": "Violated: two elements that are compared directly are exchanged once for each handle, so that they stay out of order. No array whose last two elements are out of order is sorted. Proved: nothing is lost, nothing is undefined, and arrays in order stay as they are."
  },
  {
   "property": "C184",
   "status": "partial",
   "theorems": [
    "Lolly.OstreamEqProps.C184_equal_partial",
    "Lolly.OstreamEqProps.C184_copy_violated",
    "Lolly.OstreamEqProps.C184_assign_violated"
   ],
   "note": "Violated: == compares the addresses of the two variables, so that copies and assigned streams never compare equal although they are the same stream. Proved: variables that compare equal are the same stream."
  },
  {
   "property": "C185",
   "status": "proved",
   "theorems": [
    "Lolly.UuidProps.C185_text",
    "Lolly.UuidProps.C185_buffer",
    "Lolly.UuidProps.C185_different"
   ],
   "note": "The generator of tbox is an oracle that fails or writes a text with a terminating NUL; what the text is (and that uuids are unique) is up to tbox. C185_buffer shows that the size of the buffer is exact."
  },
  {
   "property": "C186",
   "status": "partial",
   "theorems": [
    "Lolly.RelLayersProps.C186_values",
    "Lolly.RelLayersProps.C186_contains_partial",
    "Lolly.RelLayersProps.C186_contains_violated",
    "Lolly.RelLayersProps.C186_own_violated"
   ],
   "note": "All values stay the same. The claim about membership is false: a key that only the innermost layer has, with the default as its value, is lost. Comparing the layer with the whole map instead of the layers below empties it."
  },
  {
   "property": "C19",
   "status": "partial",
   "theorems": [
    "Lolly.CharsProps.C19_partial",
    "Lolly.CharsProps.C19_violated"
   ],
   "note": "The code violates it: every string containing ; | single quote, tab or newline (and the empty one) is misread. Proved for all other strings without the glob characters."
  },
  {
   "property": "C20",
   "status": "partial",
   "theorems": [
    "Lolly.SearchProps.C20_forwards",
    "Lolly.SearchProps.C20_forwards_outside",
    "Lolly.SearchProps.C20_occurs",
    "Lolly.SearchProps.C20_backwards",
    "Lolly.SearchProps.C20_backwards_end",
    "Lolly.SearchProps.C20_count",
    "Lolly.SearchProps.C20_list_partial",
    "Lolly.SearchProps.C20_list_violated",
    "Lolly.SearchProps.C20_index_of"
   ],
   "note": "Proved for single patterns; the form with a list of patterns reads one byte past the end (C20_list_violated) and is proved for the strings where that read is harmless."
  },
  {
   "property": "C21",
   "status": "proved",
   "theorems": [
    "Lolly.SearchProps.C21_replace",
    "Lolly.SearchProps.C21_pieces",
    "Lolly.SearchProps.C21_same",
    "Lolly.SearchProps.C21_empty_pattern"
   ],
   "note": "An empty pattern makes replace loop forever (C21_empty_pattern)."
  },
  {
   "property": "C22",
   "status": "proved",
   "theorems": [
    "Lolly.SearchProps.C22_tokenize",
    "Lolly.SearchProps.C22_no_separator",
    "Lolly.SearchProps.C22_recompose",
    "Lolly.SearchProps.C22_empty_separator",
    "Lolly.SearchProps.C22_replace"
   ],
   "note": "An empty separator makes tokenize loop forever (C22_empty_separator)."
  },
  {
   "property": "C23",
   "status": "proved",
   "theorems": [
    "Lolly.SearchProps.C23_match_wildcard"
   ],
   "note": ""
  },
  {
   "property": "C24",
   "status": "proved",
   "theorems": [
    "Lolly.SearchProps.C24_left",
    "Lolly.SearchProps.C24_right",
    "Lolly.SearchProps.C24_unique",
    "Lolly.SearchProps.C24_trim",
    "Lolly.SearchProps.C24_array"
   ],
   "note": ""
  },
  {
   "property": "C25",
   "status": "proved",
   "theorems": [
    "Lolly.SearchProps.C25_expand",
    "Lolly.SearchProps.C25_shape",
    "Lolly.SearchProps.C25_width"
   ],
   "note": "For positive tab widths."
  },
  {
   "property": "C26",
   "status": "partial",
   "theorems": [
    "Lolly.DiffProps.C26_aligned_partial",
    "Lolly.DiffProps.C26_violated",
    "Lolly.DiffProps.C26_distance_partial",
    "Lolly.DiffProps.C26_insert_partial"
   ],
   "note": "The code violates it: strings of equal length are never reported to differ. Proved: termination, no access outside, the segments are ordered and the parts between them have equal lengths; single insertions and deletions are reported correctly."
  },
  {
   "property": "C27",
   "status": "proved",
   "theorems": [
    "Lolly.SearchProps.C27_overlapping",
    "Lolly.SearchProps.C27_starts_ends",
    "Lolly.SearchProps.C27_test",
    "Lolly.SearchProps.C27_remove"
   ],
   "note": ""
  },
  {
   "property": "C28",
   "status": "proved",
   "theorems": [
    "Lolly.CharsProps.C28_upcase",
    "Lolly.CharsProps.C28_locase",
    "Lolly.CharsProps.C28_all",
    "Lolly.CharsProps.C28_round_trip",
    "Lolly.CharsProps.C28_first"
   ],
   "note": "The converse upcase(locase(c)) == c fails exactly for the bytes 157 and 158 (C28_locase)."
  },
  {
   "property": "C29",
   "status": "proved",
   "theorems": [
    "Lolly.AlphaProps.C29_enumerates",
    "Lolly.AlphaProps.C29_bijective",
    "Lolly.AlphaProps.C29_other"
   ],
   "note": ""
  },
  {
   "property": "C30",
   "status": "proved",
   "theorems": [
    "Lolly.RomanProps.C30_roman",
    "Lolly.RomanProps.C30_standard",
    "Lolly.RomanProps.C30_injective",
    "Lolly.RomanProps.C30_upper"
   ],
   "note": ""
  },
  {
   "property": "C31",
   "status": "partial",
   "theorems": [
    "Lolly.HanziProps.C31_partial",
    "Lolly.HanziProps.C31_violated"
   ],
   "note": "The code violates it for numbers from 10^8 on whose digits of 10^4 to 10^7 are all 0 (the unit of that block is written without digits); proved for all others."
  },
  {
   "property": "C32",
   "status": "partial",
   "theorems": [
    "Lolly.HexProps.C32_round_trip_partial",
    "Lolly.HexProps.C32_round_trip_violated",
    "Lolly.HexProps.C32_from_hex",
    "Lolly.HexProps.C32_to_hex",
    "Lolly.HexProps.C32_pointer",
    "Lolly.HexProps.C32_uint32",
    "Lolly.HexProps.C32_as_hexadecimal",
    "Lolly.HexProps.C32_padded",
    "Lolly.HexProps.C32_binary"
   ],
   "note": "The code violates the round trip at the smallest int only; everything else proved."
  },
  {
   "property": "C33",
   "status": "proved",
   "theorems": [
    "Lolly.Base64Props.C33_encode",
    "Lolly.Base64Props.C33_round_trip",
    "Lolly.Base64Props.C33_shape",
    "Lolly.Base64Props.C33_strict"
   ],
   "note": "With the left shift of negative ints defined as the compilers do; C33_strict says exactly which calls are undefined by the letter of C++17."
  },
  {
   "property": "C34",
   "status": "partial",
   "theorems": [
    "Lolly.Base64Props.C34_partial",
    "Lolly.Base64Props.C34_undefined",
    "Lolly.Base64Props.C34_violated"
   ],
   "note": "The code violates it; proved: the exact result on all inputs that are defined, and that all others are undefined."
  },
  {
   "property": "C35",
   "status": "proved",
   "theorems": [
    "Lolly.UnicodeProps.C35_encode",
    "Lolly.UnicodeProps.C35_round_trip",
    "Lolly.UnicodeProps.C35_sequence",
    "Lolly.UnicodeProps.C35_injective",
    "Lolly.UnicodeProps.C35_prefix_free"
   ],
   "note": ""
  },
  {
   "property": "C36",
   "status": "partial",
   "theorems": [
    "Lolly.UnicodeProps.C36_progress",
    "Lolly.UnicodeProps.C36_decode_partial",
    "Lolly.UnicodeProps.C36_truncated",
    "Lolly.UnicodeProps.C36_violated"
   ],
   "note": "Progress and bounds proved for all inputs; the code violates the last part: a sequence cut off by the end of the string is completed by repeating its last byte (exact result in C36_truncated)."
  },
  {
   "property": "C37",
   "status": "partial",
   "theorems": [
    "Lolly.UnicodeProps.C37_range_partial",
    "Lolly.UnicodeProps.C37_range_violated",
    "Lolly.UnicodeProps.C37_has_partial",
    "Lolly.UnicodeProps.C37_is_partial",
    "Lolly.UnicodeProps.C37_violated",
    "Lolly.UnicodeProps.C37_has_exact",
    "Lolly.UnicodeProps.C37_is_exact"
   ],
   "note": "The code violates it: 0x370..0x37f are called latin, and references are compared as strings. Proved for all other codes and for references with four upper-case digits in any text; what both functions say for every text is proved as well."
  },
  {
   "property": "C38",
   "status": "proved",
   "theorems": [
    "Lolly.ReadersProps.C38_read",
    "Lolly.ReadersProps.C38_read_variants",
    "Lolly.ReadersProps.C38_read_line",
    "Lolly.ReadersProps.C38_read_int",
    "Lolly.ReadersProps.C38_read_double",
    "Lolly.ReadersProps.C38_read_word",
    "Lolly.ReadersProps.C38_skip",
    "Lolly.ReadersProps.C38_skip_line",
    "Lolly.ReadersProps.C38_skip_symbol"
   ],
   "note": "read_int is undefined when the number does not fit (as as_int is); read_double up to the text that is handed to as_double."
  },
  {
   "property": "C39",
   "status": "proved",
   "theorems": [
    "Lolly.ReadersProps.C39_parse",
    "Lolly.ReadersProps.C39_short",
    "Lolly.ReadersProps.C39_strict",
    "Lolly.ReadersProps.C39_array"
   ],
   "note": "With the left shift of negative ints defined as the compilers do; C39_strict says which calls are undefined by the letter of C++17."
  },
  {
   "property": "C40",
   "status": "proved",
   "theorems": [
    "Lolly.ParseStringProps.C40_flat",
    "Lolly.ParseStringProps.C40_bool",
    "Lolly.ParseStringProps.C40_bool_empty"
   ],
   "note": "For arguments that are not negative."
  },
  {
   "property": "C41",
   "status": "proved",
   "theorems": [
    "Lolly.FastSearchProps.C41_build",
    "Lolly.FastSearchProps.C41_all",
    "Lolly.FastSearchProps.C41_next"
   ],
   "note": "Also covers the empty pattern. Texts are assumed shorter than 2^28 bytes (no overflow of 9*l)."
  },
  {
   "property": "C42",
   "status": "partial",
   "theorems": [
    "Lolly.FastSearchProps.C42_partial",
    "Lolly.FastSearchProps.C42_violated"
   ],
   "note": "Violated: as soon as a power of two lies between the two lengths the array of levels is read out of bounds. Proved for the other longer patterns."
  },
  {
   "property": "C43",
   "status": "partial",
   "theorems": [
    "Lolly.FastSearchProps.C43_common_partial",
    "Lolly.FastSearchProps.C43_nonempty_partial",
    "Lolly.FastSearchProps.C43_whole_partial",
    "Lolly.FastSearchProps.C43_third_partial",
    "Lolly.FastSearchProps.C43_longest_violated"
   ],
   "note": "That the result is the longest common substring is false: two strings of 23 and 91 letters have 19 characters in common and the result has 18 (the loop skips positions inside of the best range so far). Proved instead: the result is a common substring that cannot be extended, it is empty only if no character is common, it is the whole first string, at its first occurrence, if that occurs in the second, and no common substring is three times as long."
  },
  {
   "property": "C44",
   "status": "partial",
   "theorems": [
    "Lolly.U16Props.C44_contents_partial",
    "Lolly.U16Props.C44_construct_partial",
    "Lolly.U16Props.C44_blocks_partial",
    "Lolly.U16Props.C44_leak_violated",
    "Lolly.U16Props.C44_reserve_violated"
   ],
   "note": "Violated: a block reserved for an empty string is lost when the string is resized or destroyed, and reserve(0) on a string that is not empty frees its elements but keeps its length. Proved for all histories without these two."
  },
  {
   "property": "C45",
   "status": "partial",
   "theorems": [
    "Lolly.LTreeProps.C45_equality",
    "Lolly.LTreeProps.C45_copy",
    "Lolly.LTreeProps.C45_push_partial",
    "Lolly.LTreeProps.C45_pushAll_partial",
    "Lolly.LTreeProps.C45_slice",
    "Lolly.LTreeProps.C45_construct",
    "Lolly.LTreeProps.C45_mul_partial",
    "Lolly.LTreeProps.C45_access",
    "Lolly.LTreeProps.C45_atom_partial",
    "Lolly.LTreeProps.C45_print",
    "Lolly.LTreeProps.C45_atom_violated",
    "Lolly.LTreeProps.C45_mul_violated",
    "Lolly.LTreeProps.C45_pushSelf_violated",
    "Lolly.LTreeProps.C45_cycle_violated"
   ],
   "note": "Violated: N, [], A, << and the comparison with operator 0 read the string of an atom as an array, the product of two atoms is a broken node, and t << t makes a cyclic tree whose copy never ends. Everything else is proved for all finite trees."
  },
  {
   "property": "C46",
   "status": "partial",
   "theorems": [
    "Lolly.UrlProps.C46_units",
    "Lolly.UrlProps.C46_absorb",
    "Lolly.UrlProps.C46_web",
    "Lolly.UrlProps.C46_walk",
    "Lolly.UrlProps.C46_walk_rooted",
    "Lolly.UrlProps.C46_assoc",
    "Lolly.UrlProps.C46_assoc_rooted",
    "Lolly.UrlProps.C46_assoc_exact",
    "Lolly.UrlProps.C46_assoc_violated",
    "Lolly.UrlProps.C46_shape",
    "Lolly.UrlProps.C46_total_partial",
    "Lolly.UrlProps.C46_total_violated",
    "Lolly.UrlParseProps.C46_shape_violated"
   ],
   "note": "Violated: file:// times another root indexes a missing component; reading a/~ makes a url with a root that is not at the far left; bracketing matters when the first path has a name followed by ... Proved for all other urls."
  },
  {
   "property": "C47",
   "status": "proved",
   "theorems": [
    "Lolly.UrlProps.C47_path",
    "Lolly.UrlProps.C47_rooted",
    "Lolly.UrlProps.C47_top"
   ],
   "note": ""
  },
  {
   "property": "C48",
   "status": "partial",
   "theorems": [
    "Lolly.UrlParseProps.C48_relative_partial",
    "Lolly.UrlParseProps.C48_absolute_partial",
    "Lolly.UrlParseProps.C48_protocol_partial",
    "Lolly.UrlParseProps.C48_blank_partial",
    "Lolly.UrlParseProps.C48_injective_partial",
    "Lolly.UrlParseProps.C48_wildcard_violated",
    "Lolly.UrlParseProps.C48_www_violated",
    "Lolly.UrlParseProps.C48_home_violated"
   ],
   "note": "Proved for all paths of names (see Name in UrlSpec), for names not taken as a server (www., ftp.); violated for wildcard components that are not the last one, for a first name that starts with www., and file://~ reads outside of a url when the home directory is /."
  },
  {
   "property": "C49",
   "status": "partial",
   "theorems": [
    "Lolly.UrlNameProps.C49_suffix",
    "Lolly.UrlNameProps.C49_no_suffix",
    "Lolly.UrlNameProps.C49_recover_partial",
    "Lolly.UrlNameProps.C49_query_partial",
    "Lolly.UrlNameProps.C49_glue",
    "Lolly.UrlNameProps.C49_unglue_all",
    "Lolly.UrlNameProps.C49_glue_error",
    "Lolly.UrlNameProps.C49_query_violated",
    "Lolly.UrlNameProps.C49_violated"
   ],
   "note": "Proved for all names without a query and not ending in a backup mark, and for queries without a dot. Violated: the suffix of a.txt?v=1.2 is 2, and the base name of a.txt~ is a.txt~ with suffix txt."
  },
  {
   "property": "C50",
   "status": "partial",
   "theorems": [
    "Lolly.UrlDeltaProps.C50_local",
    "Lolly.UrlDeltaProps.C50_way",
    "Lolly.UrlDeltaProps.C50_web_partial",
    "Lolly.UrlDeltaProps.C50_other_partial",
    "Lolly.UrlDeltaProps.C50_relative",
    "Lolly.UrlDeltaProps.C50_web_violated",
    "Lolly.UrlDeltaProps.C50_file_violated",
    "Lolly.UrlDeltaProps.C50_hang_violated",
    "Lolly.UrlDeltaProps.C50_hang_delta_violated"
   ],
   "note": "Proved for local roots, for web pages with a path after the host, and for relative paths. Violated from the front page of a site and from a file directly below the root file; delta does not return from a base that begins with two or more ..."
  },
  {
   "property": "C51",
   "status": "partial",
   "theorems": [
    "Lolly.UrlAltProps.C51_expand",
    "Lolly.UrlAltProps.C51_ancestor_partial",
    "Lolly.UrlAltProps.C51_sort_partial",
    "Lolly.UrlAltProps.C51_sort_rooted_partial",
    "Lolly.UrlAltProps.C51_sort_alone_partial",
    "Lolly.UrlAltProps.C51_sort_set",
    "Lolly.UrlAltProps.C51_sort_violated",
    "Lolly.UrlAltProps.C51_factor",
    "Lolly.UrlAltProps.C51_factor_groups_partial",
    "Lolly.UrlAltProps.C51_factor_rooted_partial",
    "Lolly.UrlAltProps.C51_factor_violated",
    "Lolly.UrlAltProps.C51_ancestor_rooted_partial",
    "Lolly.UrlAltProps.C51_ancestor_violated"
   ],
   "note": "Sorting is proved for relative paths, also together with bare roots and wildcards, and for paths below one root; violated for alternatives with different roots, which stay unsorted and therefore ungrouped. Grouping by factor is proved for relative paths and for paths below one root, the set of alternatives for all. `...` is proved for one path below a root; violated after alternatives in braces: `{x/y/z:n}/...` leaves out x/y."
  },
  {
   "property": "C52",
   "status": "proved",
   "theorems": [
    "Lolly.AllocProps.C52_blocks",
    "Lolly.AllocProps.C52_no_memory",
    "Lolly.AllocProps.C52_realloc_null"
   ],
   "note": "Addresses, free lists threaded through memory, chunks and large blocks are modelled; the C library answers with any memory that is not in use and may change every byte outside of the regions handed out. Sizes are positive and n+15 does not overflow 64 bits. When realloc of the C library fails, fast_realloc returns NULL unchecked."
  },
  {
   "property": "C53",
   "status": "partial",
   "theorems": [
    "Lolly.AllocProps.C53_partial",
    "Lolly.AllocProps.C53_violated",
    "Lolly.AllocProps.C53_live_violated"
   ],
   "note": "Violated: at the start fast_alloc(0) is NULL and fast_free writes to it; later the empty block shares its address with the next block, and freeing it changes that block. Proved: freed at once while the present chunk is not used up, it changes no live block."
  },
  {
   "property": "C54",
   "status": "partial",
   "theorems": [
    "Lolly.AllocProps.C54_exact",
    "Lolly.AllocProps.C54_baseline_exact",
    "Lolly.AllocProps.C54_partial",
    "Lolly.AllocProps.C54_baseline_partial",
    "Lolly.AllocProps.C54_violated",
    "Lolly.AllocProps.C54_negative_violated"
   ],
   "note": "Proved as an exact formula for mem_used for every history: the rounded sizes of the live blocks and the errors of the reallocations of large blocks; so mem_used returns to the baseline exactly if these errors cancel out, in particular when large blocks are reallocated only to large sizes with the same rest modulo 8. Violated otherwise: 300 to 400 bytes leaves 4 bytes counted for ever, 304 to 300 bytes makes the result negative."
  },
  {
   "property": "C55",
   "status": "proved",
   "theorems": [
    "Lolly.RefcountProps.C55_refines",
    "Lolly.RefcountProps.C55_last_handle",
    "Lolly.RefcountProps.C55_acyclic",
    "Lolly.RefcountProps.C55_all_freed",
    "Lolly.RefcountProps.C55_cycle"
   ],
   "note": "Objects have any number of handles as fields and destructors of their own do nothing else. The count does not overflow. Addresses of destroyed objects are not reused in the model, so that a dangling handle can never look valid."
  },
  {
   "property": "C56",
   "status": "partial",
   "theorems": [
    "Lolly.BlackboxProps.C56_ids",
    "Lolly.BlackboxProps.C56_round_trip",
    "Lolly.BlackboxProps.C56_type_safe",
    "Lolly.BlackboxProps.C56_equal",
    "Lolly.BlackboxProps.C56_equivalence",
    "Lolly.BlackboxProps.C56_early",
    "Lolly.BlackboxProps.C56_early_violated"
   ],
   "note": "An object remembers the type it was created with, and reading it as another type is undefined behaviour in the model. Type identifiers are initialised once per type and in any order. Proved from main on, when all types have their identifiers. Violated before: initialisers of static variables can read data as another type (C56_early says exactly when)."
  },
  {
   "property": "C57",
   "status": "proved",
   "theorems": [
    "Lolly.TimerProps.C57_intervals",
    "Lolly.TimerProps.C57_running",
    "Lolly.TimerProps.C57_reset",
    "Lolly.TimerProps.C57_line",
    "Lolly.TimerProps.C57_report"
   ],
   "note": "The hash maps are replaced by maps (C01, C02); the clock is any sequence of times, not only an increasing one. Nesting is less than 2^32 deep."
  },
  {
   "property": "C58",
   "status": "proved",
   "theorems": [
    "Lolly.OstreamProps.C58_refines",
    "Lolly.OstreamProps.C58_released",
    "Lolly.OstreamProps.C58_session"
   ],
   "note": "fprintf is an oracle that may write any part and fail. Flushing is not modelled. NUL characters are dropped because each character goes through a C string."
  },
  {
   "property": "C59",
   "status": "partial",
   "theorems": [
    "Lolly.FilesProps.C59_save",
    "Lolly.FilesProps.C59_append",
    "Lolly.FilesProps.C59_load_partial",
    "Lolly.FilesProps.C59_failed_load",
    "Lolly.FilesProps.C59_save_load_partial",
    "Lolly.FilesProps.C59_string_partial",
    "Lolly.FilesProps.C59_append_to",
    "Lolly.FilesProps.C59_size_violated",
    "Lolly.FilesProps.C59_large_violated"
   ],
   "note": "Proved for files of at most 2^30 characters whose size the system tells. Violated otherwise: if the size cannot be told (0 is returned) a file loads as the empty string with success, loading a file of more than 2^30 characters never ends, and files of 2^31 characters or more are written beyond the string."
  },
  {
   "property": "C60",
   "status": "partial",
   "theorems": [
    "Lolly.FilesProps.C60_partial",
    "Lolly.FilesProps.C60_violated",
    "Lolly.FilesProps.C60_lock_violated"
   ],
   "note": "Violated for every save over a nonempty file: opening truncates it first. What holds: at each moment the file has its old contents or a first part of the new ones, and no other file changes."
  },
  {
   "property": "C61",
   "status": "partial",
   "theorems": [
    "Lolly.ProcessProps.C61_partial",
    "Lolly.ProcessProps.C61_prefix",
    "Lolly.ProcessProps.C61_long_violated",
    "Lolly.ProcessProps.C61_nul_violated",
    "Lolly.ProcessProps.C61_pause_violated"
   ],
   "note": "Proved for output of less than 8192 characters without NUL of a process that is prompt. Violated by longer output (read beyond the buffer), NUL, and pauses of two waits."
  },
  {
   "property": "C62",
   "status": "partial",
   "theorems": [
    "Lolly.ProcessProps.C62_write_partial",
    "Lolly.ProcessProps.C62_empty_violated",
    "Lolly.ProcessProps.C62_zero_violated",
    "Lolly.ProcessProps.C62_read_partial",
    "Lolly.ProcessProps.C62_read_violated",
    "Lolly.ProcessProps.C62_append",
    "Lolly.ProcessProps.C62_copy",
    "Lolly.ProcessProps.C62_result"
   ],
   "note": "Proved for strings that are not empty and of less than 2^30 characters, if write never answers 0 and read never fails. Violated for empty strings (the descriptor stays open), a write that answers 0, and a read that fails (not reported). Pipes, the process and the order in which the threads run are the subject of C92 to C95."
  },
  {
   "property": "C63",
   "status": "proved",
   "theorems": [
    "Lolly.LocaleProps.C63_round_trip",
    "Lolly.LocaleProps.C63_five",
    "Lolly.LocaleProps.C63_range",
    "Lolly.LocaleProps.C63_two",
    "Lolly.LocaleProps.C63_greek",
    "Lolly.LocaleProps.C63_environment",
    "Lolly.LocaleProps.C63_charset"
   ],
   "note": "Linux only. Greek locales (el_GR) are taken for English because the table has gr."
  },
  {
   "property": "C64",
   "status": "proved",
   "theorems": [
    "Lolly.CharsProps.C64_minus",
    "Lolly.CharsProps.C64_union"
   ],
   "note": ""
  },
  {
   "property": "C65",
   "status": "partial",
   "theorems": [
    "Lolly.CharsProps.C65_ispanish",
    "Lolly.CharsProps.C65_spanish",
    "Lolly.CharsProps.C65_german",
    "Lolly.CharsProps.C65_il2_total",
    "Lolly.CharsProps.C65_il2_partial",
    "Lolly.CharsProps.C65_il2_violated"
   ],
   "note": "Spanish and German proved; the il2 table is misaligned in the source, the exact set of strings that survive is proved."
  },
  {
   "property": "C66",
   "status": "proved",
   "theorems": [
    "Lolly.UrlAltProps.C66_first",
    "Lolly.UrlAltProps.C66_ancestor"
   ],
   "note": "is_regular is a parameter: the state of the file system while the loop runs."
  },
  {
   "property": "C67",
   "status": "proved",
   "theorems": [
    "Lolly.HashTreeProps.C67_dictionary"
   ],
   "note": "Trees grown by operator() and set_label; V() is the default label."
  },
  {
   "property": "C68",
   "status": "proved",
   "theorems": [
    "Lolly.NTupleProps.C68_pair",
    "Lolly.NTupleProps.C68_triple",
    "Lolly.NTupleProps.C68_quartet",
    "Lolly.NTupleProps.C68_quintuple",
    "Lolly.NTupleProps.C68_sextuple",
    "Lolly.NTupleProps.C68_spread"
   ],
   "note": "For component types whose own ==, != and hash are consistent; left shift of negative int taken to wrap."
  },
  {
   "property": "C69",
   "status": "proved",
   "theorems": [
    "Lolly.HashTreeProps.C69_lookup",
    "Lolly.HashTreeProps.C69_make"
   ],
   "note": ""
  },
  {
   "property": "C70",
   "status": "partial",
   "theorems": [
    "Lolly.NTupleProps.C70_float_eq",
    "Lolly.NTupleProps.C70_double_eq",
    "Lolly.NTupleProps.C70_double_violated",
    "Lolly.NTupleProps.C70_float_violated",
    "Lolly.NTupleProps.C70_double_partial",
    "Lolly.NTupleProps.C70_float_partial",
    "Lolly.NTupleProps.C70_long",
    "Lolly.NTupleProps.C70_pointer_violated",
    "Lolly.NTupleProps.C70_pointer_partial",
    "Lolly.NTupleProps.C70_pointer_exact"
   ],
   "note": "The code violates it: 0.0 and -0.0 compare equal but hash differently, and the pointer hash overflows int near the limits."
  },
  {
   "property": "C71",
   "status": "partial",
   "theorems": [
    "Lolly.ConvProps.C71_accepts",
    "Lolly.ConvProps.C71_literals_partial",
    "Lolly.ConvProps.C71_sound_partial",
    "Lolly.ConvProps.C71_violated"
   ],
   "note": "The code violates it (e5, .e5, +-1 accepted; 5. rejected). Proved: the exact set accepted, and agreement outside these forms."
  },
  {
   "property": "C72",
   "status": "proved",
   "theorems": [
    "Lolly.ConvProps.C72_is_id"
   ],
   "note": ""
  },
  {
   "property": "C73",
   "status": "proved",
   "theorems": [
    "Lolly.CharsProps.C73_symbol",
    "Lolly.CharsProps.C73_injective"
   ],
   "note": ""
  },
  {
   "property": "C74",
   "status": "proved",
   "theorems": [
    "Lolly.CharsProps.C74_verbatim",
    "Lolly.CharsProps.C74_dos",
    "Lolly.CharsProps.C74_guile"
   ],
   "note": ""
  },
  {
   "property": "C75",
   "status": "proved",
   "theorems": [
    "Lolly.CharsProps.C75_classes",
    "Lolly.CharsProps.C75_letters",
    "Lolly.CharsProps.C75_closing"
   ],
   "note": ""
  },
  {
   "property": "C76",
   "status": "proved",
   "theorems": [
    "Lolly.ReadersProps.C76_forward",
    "Lolly.ReadersProps.C76_backward"
   ],
   "note": ""
  },
  {
   "property": "C77",
   "status": "proved",
   "theorems": [
    "Lolly.ReadersProps.C77_length",
    "Lolly.ReadersProps.C77_only"
   ],
   "note": "Up to the text that is handed to as_double."
  },
  {
   "property": "C78",
   "status": "proved",
   "theorems": [
    "Lolly.U16Props.C78_equality",
    "Lolly.U16Props.C78_order",
    "Lolly.U16Props.C78_trichotomy",
    "Lolly.U16Props.C78_slice"
   ],
   "note": "Elements are ordered as the integers they stand for. The overload T[] < view of the source would not compile and is not modelled."
  },
  {
   "property": "C79",
   "status": "partial",
   "theorems": [
    "Lolly.UrlProps.C79_stays_partial",
    "Lolly.UrlProps.C79_stays_violated"
   ],
   "note": "Proved when the path has no more .. than the page has components below the host; with one more .. the host is dropped or replaced."
  },
  {
   "property": "C80",
   "status": "partial",
   "theorems": [
    "Lolly.UrlNameProps.C80_path",
    "Lolly.UrlNameProps.C80_rooted_partial",
    "Lolly.UrlNameProps.C80_or",
    "Lolly.UrlNameProps.C80_root_violated"
   ],
   "note": "Violated for the bare root: /tmp does not descend from /."
  },
  {
   "property": "C81",
   "status": "partial",
   "theorems": [
    "Lolly.FilesProps.C81_partial",
    "Lolly.FilesProps.C81_violated"
   ],
   "note": "Violated: a nonempty file is copied into the string object that other variables share. No other object changes."
  },
  {
   "property": "C82",
   "status": "partial",
   "theorems": [
    "Lolly.ProcessProps.C82_arguments",
    "Lolly.ProcessProps.C82_partial",
    "Lolly.ProcessProps.C82_violated",
    "Lolly.ProcessProps.C82_array_violated",
    "Lolly.PlaceholderProps.C82_inside_partial"
   ],
   "note": "Proved for at most ten inputs and placeholders anywhere in the arguments, and for more inputs if no index begins another. Violated: $$10 is replaced as $$1 followed by 0. The array of the caller is changed, since it is shared."
  },
  {
   "property": "C83",
   "status": "partial",
   "theorems": [
    "Lolly.DirsProps.C83_make_dir_partial",
    "Lolly.DirsProps.C83_web_violated",
    "Lolly.DirsProps.C83_or_violated"
   ],
   "note": "Proved for local paths of ordinary names. Violated for urls of the web and for alternatives: the recursion never ends (head of http://host is itself; the head of {a:b} is {a:b}/..). What tb_directory_create does is a hypothesis, which is shown to be satisfiable."
  },
  {
   "property": "C84",
   "status": "proved",
   "theorems": [
    "Lolly.DirsProps.C84_each",
    "Lolly.DirsProps.C84_remove"
   ],
   "note": "The three functions have the same shape and share a model; what the system call does is an argument."
  },
  {
   "property": "C85",
   "status": "partial",
   "theorems": [
    "Lolly.DirsProps.C85_subdirectories_partial",
    "Lolly.DirsProps.C85_alternatives_partial",
    "Lolly.DirsProps.C85_members",
    "Lolly.DirsProps.C85_www_violated"
   ],
   "note": "Proved for names that reading as a url gives back. Violated: directories whose names start with www. (and others that are read as something else) are left out."
  },
  {
   "property": "C86",
   "status": "partial",
   "theorems": [
    "Lolly.DirsProps.C86_size_partial",
    "Lolly.DirsProps.C86_not_local",
    "Lolly.DirsProps.C86_newer",
    "Lolly.DirsProps.C86_newer_order",
    "Lolly.DirsProps.C86_size_violated",
    "Lolly.DirsProps.C86_modified_violated"
   ],
   "note": "Sizes and times are cut to 32 bits: proved below 2^31, violated above (a file of 2^32-1 bytes seems to be missing). is_newer compares all bits and is proved in full."
  },
  {
   "property": "C87",
   "status": "proved",
   "theorems": [
    "Lolly.DirsProps.C87_type",
    "Lolly.DirsProps.C87_agree"
   ],
   "note": "Unix only. What the system tells about a path and about permissions are arguments. The letter l asks for flags == 1 and is_symbolic_link for a bit, so they agree if there are no other flags."
  },
  {
   "property": "C88",
   "status": "partial",
   "theorems": [
    "Lolly.DirsProps.C88_temp_partial",
    "Lolly.DirsProps.C88_temp_violated"
   ],
   "note": "Proved if all files are smaller than 2^31 bytes. Violated by a file of 2^32-1 bytes. Identifiers are an arbitrary sequence; creation by another process between the test and the use is not modelled."
  },
  {
   "property": "C89",
   "status": "partial",
   "theorems": [
    "Lolly.IterationProps.C89_range_map",
    "Lolly.IterationProps.C89_range_set",
    "Lolly.IterationProps.C89_current_partial",
    "Lolly.IterationProps.C89_end",
    "Lolly.IterationProps.C89_step_twice_violated",
    "Lolly.IterationProps.C89_steps_violated"
   ],
   "note": "Loops and reading are proved in full. ++it twice without a test or a reading in between dereferences NULL at the end of a bucket."
  },
  {
   "property": "C90",
   "status": "partial",
   "theorems": [
    "Lolly.IterationProps.C90_update",
    "Lolly.IterationProps.C90_remove_partial",
    "Lolly.IterationProps.C90_remove_violated",
    "Lolly.IterationProps.C90_insert_violated"
   ],
   "note": "Assigning is proved in full. Removing is proved if the table does not shrink; otherwise keys are missed. Adding keys can show a key twice."
  },
  {
   "property": "C91",
   "status": "proved",
   "theorems": [
    "Lolly.IterationProps.C91_map",
    "Lolly.IterationProps.C91_set",
    "Lolly.IterationProps.C91_list",
    "Lolly.IterationProps.C91_array",
    "Lolly.IterationProps.C91_iterator"
   ],
   "note": "The text of an element is an argument."
  },
  {
   "property": "C92",
   "status": "partial",
   "theorems": [
    "Lolly.SpawnProps.C92_child_partial",
    "Lolly.SpawnProps.C92_negative",
    "Lolly.SpawnProps.C92_closed_violated",
    "Lolly.SpawnProps.C92_swapped_violated"
   ],
   "note": "Proved if the descriptors asked for differ from each other and from those of the pipes, which is the usual case. Violated if the caller runs with a standard descriptor closed. That pipe() works is assumed (its answer is not looked at)."
  },
  {
   "property": "C93",
   "status": "partial",
   "theorems": [
    "Lolly.SpawnProps.C93_caller_partial",
    "Lolly.SpawnProps.C93_threads_violated"
   ],
   "note": "Proved if no other thread is given one of the numbers of the pipes meanwhile. Violated otherwise: each end is closed twice."
  },
  {
   "property": "C94",
   "status": "partial",
   "theorems": [
    "Lolly.SpawnProps.C94_blocked_only",
    "Lolly.SpawnProps.C94_no_deadlock_partial",
    "Lolly.SpawnProps.C94_terminates",
    "Lolly.SpawnProps.C94_empty_violated"
   ],
   "note": "Proved for inputs that are not empty, for all programs that read and write character by character. Violated for an empty input: its pipe is never closed."
  },
  {
   "property": "C95",
   "status": "partial",
   "theorems": [
    "Lolly.SpawnProps.C95_output",
    "Lolly.SpawnProps.C95_answer_partial",
    "Lolly.SpawnProps.C95_total",
    "Lolly.SpawnProps.C95_unread_violated",
    "Lolly.SpawnProps.C95_race_violated"
   ],
   "note": "Outputs are proved in full. The answer is the exit status if the program reads all of its inputs; otherwise it is -1, or depends on the schedule. SIGPIPE is ignored by assumption; by default it ends the caller."
  },
  {
   "property": "C96",
   "status": "partial",
   "theorems": [
    "Lolly.DisplayProps.C96_new_line_partial",
    "Lolly.DisplayProps.C96_column",
    "Lolly.DisplayProps.C96_rule",
    "Lolly.DisplayProps.C96_total",
    "Lolly.DisplayProps.C96_defined",
    "Lolly.DisplayProps.C96_streams_violated"
   ],
   "note": "Proved for programs that use one stream, and for others as long as only that stream has the indentation changed. Violated for several streams: the indentation is common to all."
  },
  {
   "property": "C97",
   "status": "proved",
   "theorems": [
    "Lolly.DisplayProps.C97_lines",
    "Lolly.DisplayProps.C97_flush",
    "Lolly.DisplayProps.C97_error"
   ],
   "note": "fflush is assumed to work. Streams with a buffer on top (buffer, unbuffer) are C58."
  },
  {
   "property": "C98",
   "status": "partial",
   "theorems": [
    "Lolly.ArrayMemProps.C98_elements",
    "Lolly.ArrayMemProps.C98_keep",
    "Lolly.ArrayMemProps.C98_life_partial",
    "Lolly.ArrayMemProps.C98_all_partial",
    "Lolly.ArrayMemProps.C98_no_memory",
    "Lolly.ArrayMemProps.C98_negative",
    "Lolly.ArrayMemProps.C98_shrink_violated",
    "Lolly.ArrayMemProps.C98_no_memory_violated",
    "Lolly.ArrayMemProps.C98_negative_violated",
    "Lolly.ArrayMemProps.C98_negative_exact"
   ],
   "note": "Proved in full but for the destruction of elements that are dropped when an array gets less room without becoming empty; exactly these are never destroyed. Violated too if there is no memory to make an array with a block of more than 256 bytes longer."
  },
  {
   "property": "C99",
   "status": "partial",
   "theorems": [
    "Lolly.DigestProps.C99_md5_partial",
    "Lolly.DigestProps.C99_sha_partial",
    "Lolly.DigestProps.C99_shape",
    "Lolly.DigestProps.C99_file_violated"
   ],
   "note": "tb_md5_make and tb_sha_make are assumed to compute the digests of RFC 1321 and FIPS 180-4, which are written out; the literals for empty files are checked against them. Violated for urls of the protocol file, whose text is taken as a name."
  }
 ]
}