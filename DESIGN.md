# Design: a formal model of XmacsLabs/lolly

The code in `/repo` (C++17) is read as text and modelled by hand in Lean 4.
`lean/Verif/` holds, per subject, a model file (definitions that follow the C++
function by function, each with the file and lines it models), helper lemmas,
and a property file whose theorems are what `MANIFEST.json` lists.

## Conventions

* A byte string is `List UInt8` (`Bytes`); C++ `char` is signed on the modelled
  platforms (x86-64 Linux/macOS/Windows), so order comparisons on `char` go
  through `schar : UInt8 → Int`.
* Outcomes. Functions that can go wrong return `Res α`, one of `ok a`,
  `ub` (undefined behaviour: out-of-range access, NULL dereference, signed
  overflow, division by zero, wrong union member), `thrown` (an exception from
  `ASSERT`/`TM_FAILED`, i.e. `tm_throw`) and, for loops that may not terminate,
  `hang` (fuel exhausted; a theorem then says which fuel suffices, or that none does).
* `int` is `Int`/`Nat` for counters and for lengths of strings and arrays. Lengths
  stay below 2^30 in practice; C172 models them with 32 bits, proves that up to 2^30
  elements the models agree, and that no longer string or array can be made; where overflow matters (numerals, hex, hash codes, timers)
  it is `BitVec 32`/`UInt32` or `Int` with explicit range checks. Sums in hash codes
  wrap in the models of the containers; C137 says exactly when the code may rely on that.
  Shifts of signed integers to the left wrap everywhere, which is C++20 and what
  compilers do, although C++17 leaves some of them undefined.
* In-place mutation of containers is modelled by state passing. Where aliasing
  matters (`array << itself`, list nodes, reference counts, allocator) there is an
  explicit heap.
* Libraries outside the repository (tbox, libc, cpr) are not modelled, except as
  parameters (oracles) over which theorems quantify: e.g. the result of each
  `write(2)`, of each tbox file call, of `malloc`.
* When the code does not satisfy the English property, the negation is proved on
  a concrete witness (`..._violated`), and the strongest true part is proved under the
  name `..._partial`; see "Disagreements".

## Plan per property

| id | model | proof |
|----|-------|-------|
| C01, C02 | bucket array `List (List Entry)` with `n`, `max`, `size`, `init`; all operations of hashmap.ipp; iterator with `spool` | refinement to a finite partial function by an invariant (entries in the right bucket, stored code = hash, no duplicate key, size = number of entries) preserved by every operation; induction over histories |
| C03 | `pre_patch`, `post_patch`, `changes`, `invert`, `copy` on the same model | refinement of each loop to a pointwise description, then algebra on functions |
| C04 | `operator==` | negation on a witness; `_partial`: exact for maps where no stored value equals the other map's default |
| C05 | hashset.ipp on buckets of lists, iterator | same invariant as C01 |
| C06 | stack of hashmaps | lookup function as abstraction; stack discipline by induction on histories |
| C07 | memo table plus a call log | invariant over query lists |
| C08, C09, C10 | block of allocated cells (`cap`, cells) with `Res` accesses; `round_length`; handles into a heap for self-append | capacity invariant; refinement to `List`; self-append violated |
| C11, C12 | recursive list functions with `thrown`; heap of nodes for the in-place operations | equality with `List` functions; separation-style frame theorem |
| C13 | in-place merge on an array with bounds-checked accesses and buffer | functional correctness of merge pass, then sortedness, permutation, stability by strong induction |
| C14 | string_rep with capacity, substring clamp, `<<` | as C08, including self-append |
| C15 | byte order through `schar`, lexicographic loop, hash loop | order laws by induction |
| C16, C17 | decimal printing/`strtol`-like reading as used by as_int, is_int with bounds-checked reads | round trip by induction on digits; violations on witnesses |
| C18, C19 | quoting functions; a small reader for unquoted POSIX shell words as specification | induction on the string; C19 violated, partial on the safe alphabet |
| C20 - C28 | string algorithms of analyze.cpp, function by function | induction; specifications by existence/minimality of positions, by list splitting, or by relations |
| C29 - C32 | numeral.cpp | digit induction, finite tables by kernel evaluation lifted to all integers |
| C33, C34 | base64.cpp | block-wise bit arithmetic, induction on blocks |
| C35, C36, C37 | unicode.cpp | bit arithmetic per length class; induction on sequences |
| C38, C39 | readers of analyze.cpp with position passing | case analysis and induction on the rest of the string |
| C40 | stack of (string, position) | refinement to a flat string |
| C41, C42, C43 | fast_search.cpp: tables of block hashes | hash homomorphism for XOR of rotations; completeness of the index; C42 violated; what the last level can skip (C43) |
| C44 | string_u16 buffers with an allocation ledger | invariant; leaks violated |
| C45 | trees with atom/compound/generic nodes, wrong-case access is `ub` | structural induction |
| C46 - C51, C66 | url trees (`atomic`, `concat`, `or`, `root`, `none`, `wildcard`, ...), parser, printer | structural induction; violations on witnesses |
| C52, C53, C54 | byte-addressed memory, free lists threaded through it, `malloc` oracle | separation invariant: chunks partitioned into live blocks, free blocks, tail |
| C55 | heap of counted objects with handle fields, worklist destruction | invariant count = number of handles; acyclic heaps have no garbage |
| C56 | boxes as (type id, value) with dependent types | case analysis |
| C57 | four maps with 32-bit counters and a clock per event | induction over well-nested histories |
| C58 | stack of buffers and a base stream, reference counts | induction over well-nested histories |
| C59, C60 | file operations as a sequence of oracle calls on one file's contents; crash after any prefix | case analysis on outcomes; C60 violated |
| C61, C62 | read/wait loop and writer/reader loops over oracle results | loop invariants; C61 violated |
| C63 | if-chains on strings | all strings: chain reduces to table membership |
| C64, C65 | string loops and byte tables | induction; per-byte tables by kernel evaluation over the whole table |
| C67 | heap of nodes with hashmap children | path semantics, induction on path |
| C68 | records | case analysis |
| C69 | the hashmap model plus creation/destruction events | history induction |
| C70 | bit patterns of scalars, 32-bit arithmetic | case analysis; violations on witnesses |
| C71, C72 | `is_double`, `is_id` with bounds-checked reads | exact language as a small grammar; C71 violated |
| C73 - C76 | analyze.cpp, function by function | induction; byte predicates by kernel evaluation over all 256 bytes |
| C77 | `parse_length` with over-reads as `ub` | induction on digits; violation on `+` |
| C78 | views as (memory, offset, length) | order and equality laws, lifetime as an explicit hypothesis |
| C79, C80 | urls as in C46 | path algebra; violations on witnesses |
| C81 | the file model of C59 with string objects and variables | case analysis; violated |
| C82 | the argument loops of unix_system over the model of `replace` (C21) | uniqueness of cuts; violated from eleven inputs on |
| C83 | make_dir over the url model; what exists is a function, creating a directory is an oracle with stated laws | induction on the depth; violated for web urls and alternatives |
| C84 | mkdir, rmdir, remove with the system call as a parameter | induction on the alternatives |
| C85 | read_directory and subdirectories with listings as oracles, names parsed by the url model | induction on the depth; violated for names like `www.gnu.org` |
| C86 | file_size, last_modified, is_newer with 64 bit answers and 32 bit results | case analysis; violated from 2^31 on |
| C87 | is_of_type and its loop | induction on the filter |
| C88 | url_temp with the identifiers as a list | induction on the list; violated by a file of 2^32-1 bytes |
| C89 | iterator current, increase, range loops | equivalent to the busy/next loop of C02; stepping without a test violated by a witness |
| C90 | client loops over the live buckets of the map | induction with an invariant on the keys to come; shrinking and growing violated by witnesses |
| C91 | operator<< of containers as byte lists | induction; equal to the words joined by ", " |
| C92 | tables of descriptors, file actions of posix_spawn | induction over groups of actions on different descriptors; violated for all tables in which a descriptor asked for is an end of a pipe |
| C93 | events on the table of the caller, interleaved with other threads | induction over events; violated by an interleaving |
| C94 | network of writers, pipes, an arbitrary program and readers as a transition system | invariant of reachable states; decreasing measure for termination; violated for an empty input |
| C95 | the same network; `Eval` runs the program alone | simulation: every state of the network is a state of the run alone with data on the way |
| C96 | global indentation and what was written to every stream | induction over operations; column of a terminal as specification; violated for two streams |
| C97 | buffer of a FILE that is emptied at arbitrary points | invariant: no line feed in the buffer |
| C98 | objects with identities in the cells of blocks; blocks with the size asked for | permutation invariant over changes of length; violated when an array is shortened |
| C99 | md5.cpp and sha.cpp with the answers of the system and the digest functions as arguments; the standards written out in `Data/DigestSpec` | the loop writes two digits per byte; regular file read completely gives the digest of its contents; shape for all answers |
| C100 | the same model also counts open files and lost blocks | cases of the answers of the system |
| C101 | http.cpp with cpr as a function; boxes with type identifiers of C56; header as the hash map of C01 | the loop over the header refines "last line with that name"; cases for the labels |
| C102 | the header sent is built by the iterator of C02 and the map of cpr, which ignores case | the iterator enumerates the map; names that differ without regard to case are all kept |
| C103 | download on the file system of C59 | case analysis; frame of other files |
| C104 | children of the tree behind a url | parsing law C48 gives the tree for every protocol, host and path |
| C105 | `url_get_path`, `as_string` on alternatives | induction over the entries; merge of neighbours as for C51; printed text is the list of texts |
| C106 | `url_get_atom` with the environment as a function | reading a special component before names reduces to concatenation of C46; absolute values by C48; `System/UrlHomeValueProps.lean` has relative values, values ending with `/`, the law for all values, and induction on the number of calls for values that refer to themselves |
| C107 | `reroot`, `unroot`, `get_root` | laws on rooted and relative component lists, lifted to alternatives by induction |
| C108 | `get_env`, `set_env` with tbox as a parameter | induction over the values and over the calls; refinement to a dictionary |
| C109 | constructor, destructor and `make` on the model of named resources | invariant relating registry, objects and open handles to a list of loaded libraries, by induction over the calls |
| C110 | `evaluate_system` on top of the network of C95 | C95_total for the outputs, C16 for the status |
| C111 | the heap of C55 with the destructor of tree nodes; constructors as programs of handles | the invariant of C55 counts the handles that destructors leave behind; induction over trees |
| C112 | move, copy, chdir over the file systems of C59 and the paths of C83; calls of the system with their answers | what the system changes, place by place; C59 for loading |
| C113 | url_temp_dir with its two static variables, over make_dir (C83) | C83 for the first call; the statics for later ones |
| C114 | unicode.cpp: utf16_to_utf8, wchar_to_utf8, utf8_to_utf16; the converter of tbox is a parameter | the copying loops by invariants; ratio of the lengths of the two encodings by induction, so that the result fits into the buffer; the assumption on the converter is met by a converter built from the injectivity of both encodings |
| C115 | lolly_tree.hpp: predicates and conversions of trees, on the heap of C45 | by the kind of the root; round trips from C16 |
| C116 | network of one writer that takes the inputs in turn, pipes, an arbitrary program and the reading threads as a transition system | refinement to the big-step run of the program alone; decreasing measure; the states in which nothing moves |
| C117 | `url.cpp` with `OS_WIN` and `WINPATHS`: the scanner with both separators, the drive letter, `;`, the semi root and the printer | induction over the names of a text with arbitrary separators; laws of `*` for the Windows semi root |
| C118 | `read_directory` with the walk of tbox as an oracle that gives paths | each path is read as a url whose last name is the entry (C48, C47); for colons with C105 |
| C119 | table of descriptors with `_pipe`, `_dup`, `_dup2`, `_close`; the free numbers that the system gives are an oracle that may fail | invariant that relates the table to the one before the call, kept by each step on one channel and lifted to the loops |
| C120 | `url_get_path` and `heuristic_is_path` with `;`, as for C117 | induction over the entries of a list; the first entry decides whether the text is taken for a url with a protocol |
| C121 | `url_get_atom` for `~` and `$` and `unblank`, as for C117; the environment is a function | laws of `*` for paths on a drive, with an empty name at the end |
| C122 | `url_general` for names with `://`, `www.`, `ftp.` and `local:` and the printer, as for C117 | the scanner for the web is the one of C48; induction over the names |
| C123 | `isRooted`, `isRootedS`, `mul`, `alt` in Url.lean, `isRootedWeb`, `isRootedName`, `isRamdisc` in UrlKind.lean | `Begins u x`: an alternative of `u` begins with `x`; induction on the two factors, `Rootless` is closed under products, and the beginnings of a product below an absolute url are those of the url |
| C124 | `Dbl`, `rne`, `add`, `floor`, `tmRound`, `toInt`, `asInt` in Kernel/Rounding.lean: finite doubles as integral multiples of 2^-1074, sums rounded to 53 bits with ties to even | rounding is monotone and fixes the numbers of 53 bits; a representable number between the sum and the next integer keeps it from crossing; from 2^52 on by the remainder of the division by the unit in the last place |
| C125 | `primary`, `sub`, `ofId`, `getLanguage` in System/WinLocale.lean; identifiers as 16 bit numbers, the static string as state | the list of identifiers and locales is the specification; the language depends on the identifier mod 1024 only; induction on the calls |
| C126 | `Passwd`, `unixGetLogin`, `unixGetUsername`, `getUserNameEx`, `winGetUsername` in System/User.lean; the data base of users and GetUserNameExW as parameters, uninitialised memory as arbitrary values | first piece of `tokenize` by C22 and the uniqueness of cuts; C114 for the conversion |
| C127 | `replaceOne`, `substArg`, `substArgs` in System/WinSubst.lean over the model of `replace` (C21) | arguments as lists of pieces (characters and placeholders); no placeholder begins inside another piece, so the cuts of `replace` are at the placeholders |
| C128 | `Verif/System/FileUrl.lean`: `file_url`, `concretize`, the constructors with one and two names and `url_pwd`, over the model of urls of C46-C50 | the url of a path is computed with the lemmas of C48; `concretize` exchanges the root and prints; the product of directory and name is joined without cancelling; all depths |
| C129 | `Verif/Strings/Decimal.lean`: `%g` and `%lf` after the C standard on doubles as multiples of 2^-1074, `as_string`, `as_double` and the stream operators with their buffers | nearest integers of fractions are characterised by inequalities; the six digits and the double are unique within them; the text is taken apart into digits, fraction and exponent; reading undoes this for every literal |
| C130 | System/Printing.lean: every `operator<<` with its format, its buffer and the stream of Ostream.lean | the conversion is the identity on the values of the type; the length of a numeral; uniqueness of numerals; induction over the values |
| C131 | System/Call.lean: `call` with `wordexp` and `tb_process_run` as oracles | decision logic; rules of POSIX for plain words as a hypothesis on the oracle, met by a shell that splits at blanks |
| C132 | System/Args.lean: constructor and destructor of `args` on Windows, with `wchar_to_utf8` of Data/Utf16.lean | induction over the arguments; the array of pointers is described by index |
| C133 | the functions of je_malloc.cpp and mi_malloc.cpp over the same memory as for C52 | refinement to the same specification as C52, with blocks of no bytes; invariant: the regions lent by the library are those of the live blocks |
| C134 | the table and the loop of C65 | the published encodings as lists of code points; finite check of the table lifted to strings |
| C135 | as_string of C48 | the text is the text of a list of marks (words, braced texts, slashes, colons); matching braces make the list unique, induction on the size of the url makes the url unique |
| C136 | the heap of hashtree nodes with variables holding handles, add_child, contains, N | refinement to a graph of labelled nodes with named edges, induction on the program |
| C137 | `Containers/HashCodes.lean`: the three hash functions where a sum outside of the range of `int` is `ub` | exact description of the contents that overflow (linear arithmetic on the code of a prefix), agreement with the wrapping models of C10 and C15 otherwise; short contents never overflow |
| C138 | `System/AllocDebug.lean`: the words written around a block and the tests on them, on memory as a function from offsets to bytes | numbers of several bytes are determined by and determine their bytes; linear arithmetic on offsets |
| C139 | `System/Clock.lean`: the four functions on a clock that is an input, `start_time` as state | linear arithmetic with division by 1000 and 10^6; C57 for the sums of timers |
| C140 | `Kernel/Failure.lean`: programs with checks, blocks with handlers, `the_exception` and `cout` | induction over programs against a relation that says how C++ runs them; the state is a function of the events |
| C141 | `System/Stack.lean`: the text built from what tbox answers | invariant of the loop; lines without line feeds can be read back |
| C142 | `System/Objects.lean`: programs with nested constructors and destructors, exceptions and handlers; the calls of the allocator they make | invariant of every part of a program (what it does to blocks that are alive, and to others nothing), induction over programs; composition with C52 and C54 |
| C143 | the heap of C12 with `l[i]= x`, `strong_equal` and `is_atom` | induction along the chain; `strong_equal` is characterised by the effect of writing the first item |
| C144 | `Containers/HashMapRefs.lean`: the maps of C01 whose entries carry the identity of their node, references as identities | invariant (identities differ and are never used again), induction over the program; a reference is valid exactly if no step reorganised the table and the key was not removed |
| C145 | Pointers as a block and an index on top of the arrays of C08; `begin`, `end` and the rounds of a loop (`Containers/ArrayLoop.lean`) | Invariant over the operations of the bodies: the block is the same exactly if all lengths on the way have one capacity; the rounds refine a relation on sequences (`Visits`) |
| C146 | single accesses to counts of handles and to a free list, by threads in any schedule (`System/Threads.lean`) | invariant over schedules: counts for threads with objects of their own; the free list and the blocks of the threads are a permutation of all blocks for calls that do not overlap; violated by three interleavings each |
| C147 | the recursive functions of the model of lists with the number of calls that fit on the stack; the destructor on nodes with counts (`Containers/ListDepth.lean`) | induction along the list: each function succeeds exactly if the nodes it passes are fewer than that number; destroying frees exactly the nodes that nothing else holds, or overflows |
| C148 | doubles by sign, exponent and fraction, with the order of IEEE 754 (`Kernel/MinMax.lean`) | induction over nested calls; values other than zero have one representation |
| C149 | `resize` of arrays, strings and hash maps with the cells it touches (`Containers/GrowCost.lean`) | costs by lengths, a potential that pays for each step of the capacity, an invariant between keys and buckets; violated: no constant suffices, for every constant a program |
| C150 | `merge_sort` and its form with two arrays, with a comparison that has a state and may throw, and the number of its calls (`Algorithms/SortSteps.lean`) | induction over the length of the range: between the merges the array is a permutation, and the merge works in the buffer, which is what an exception needs; the form with two arrays is the one of pairs; without effects it is the model of C13 |
| C151 | `copy`, `!=` with the number of its calls and the destruction of trees by reference counts, with the nesting of calls that the stack allows; trees made by `n` calls of a constructor (`Data/TreeCost.lean`) | the size of the tree unfolded against any list that has all its nodes (they agree if no node occurs twice); induction over the nesting for copying, comparing and destroying, which says also exactly when the stack overflows; the violations for every `n` |
| C152 | `Containers/Shared.lean`: strings and arrays as handles of representations in a store, variables, a hash map from keys to handles, and its default | relation to values with the places (variables, keys, default) that have a handle in common; a program is careful if what it changes has a handle for itself, and programs that copy are; the violations hold after every program |
| C153 | `Containers/SharedKeys.lean`: the functions of hashmap.ipp with keys that are handles, compared by what they show now, and with the hash codes of the time of insertion | the map with the contents of its keys is a map of C01, step by step; variables that were not passed on have a handle for themselves |
| C154 | `Copies`: memory of strings, arrays and trees that are handles; programs that make, share, take apart, change in place and copy them | invariant over programs: what is reachable from the variables of one side stays in a closed region of memory that the other side never reaches (`frame`); the new cells of `copy` are such a region for strings and trees |
| C155 | `Results`: memory of strings, urls whose labels are strings in it; for each function which representation it returns (the text itself is that of `An` and `Url`, proved equal in `C155_value`) | invariant over programs: the handle of a new string stays with its variable (`step_in`, `alone`); case analysis of each function; the results are shown to be shared exactly when nothing was to be done |
| C156 | `ProcessCost`: the loop of the reading thread and its buffer, with a count of characters copied | the count is shown not to change what is done; induction over the reads with the potential n², which each piece increases by at most 2·s·(new length) |
| C157 | `UrlCost`: `as_string` of urls with a count of characters copied by concatenations | the text is shown to be that of `Url.asString`; induction over the url for the upper bound, over the path for the lower |
| C158 | `System/Writable.lean`: `is_writable` of the streams of C58 | invariant of histories: the contents of every file are the pieces written to its streams as long as these are writable; induction over the history |
| C159 | the loop that finds a key, with counts of its rounds and of the comparisons of keys | exact count for every reachable map; pigeonhole for intervals of integers; violated by multiples of 65536 and by repeated words with hash code 0 |
| C160 | `unix_system` as a function from answers of the system to a sequence of events; the network of C94 with the signal SIGPIPE | cases of the answers, and the sequence of events; induction over the inputs and outputs for the preparations that may fail (`C160_started`); the simulation of C95 for the signal; violated for every program that leaves much input unread and for every thread or pipe that cannot be made |
| C161 | `Verif/Kernel/Callable.lean`: handles with counts, and methods and destructors given as lists of instructions on the same variables | refinement to a semantics without counts, where an object is in use as long as a variable or an argument refers to it: every object has its number of references as count, by induction over the fuel |
| C162 | `Verif/Strings/SearchCost.lean`: the functions of `Search.lean` with the number of comparisons of characters, `match_wildcard` with the number of its calls | counted and original functions have the same outcome and the count is bounded, by induction over positions; for the wildcards a lower bound by the triangle of Pascal |
| C163 | `Verif/System/SharedBuf.lean`: one static array per operator, threads that store and read single bytes, schedules as lists of threads | invariants over schedules: the last byte of every array is 0; while nobody else uses its array, a thread finds there what it has stored; steps bounded by a potential |
| C164 | `Verif/Containers/ListCost.lean`: functions of `LinkedList.lean` with the number of calls and rounds, loops that use them | counted and original functions have the same outcome; exact sums by induction over the items |
| C165 | `Verif/System/Globals.lean`: the global objects of the library by source file, objects that are static in functions, construction in any order, `main`, destruction in the reverse order | exact condition on the program and the order, by induction over the initialisation (from its end) for what is destroyed when |
| C166 | Views.View (int and pointer), ofArray, ofStd, ofPointer, toStd, slice, eq, ne, less, lessEq | Shows relates a view to a sequence; constructors establish it below 2^31, operators reduce to those of C78 on sequences; above 2^31 the conversion to int is computed |
| C167 | ViewLife: strings and views over a memory of blocks with identities; make, view, part, put, resize, push, drop | Refinement to a specification without pointers, in which a string has an age that counts changes of its room; simulation by induction over the operations, then consequences for single operations |
| C168 | `Data/SearcherLife.lean`: string variables as handles of representations, searchers with a handle and a table of codes, all operations that share, copy or change strings | invariants over programs (table belongs to the text at the time it was made; handle of a copied text is in no variable), then the exact answers of a table made for another text |
| C169 | `Containers/SelfLoops.lean`: the loops of `join`, `pre_patch`, `post_patch` (cached number of buckets) and `generate` (live number) on the map as it is at each moment, `write_back` with the map itself | one lemma for loops whose action keeps to the bucket of its key unless the table shrinks, with an invariant over the entries to come; a loop that expects more buckets than there are reads outside; witnesses by evaluation |
| C170 | `Strings/CString.lean`: representations with counts, handles, `char*` pointers, all steps of copying, assigning (with the by-value parameter) and destroying | invariant over programs: the count of a representation is the number of handles (plus the references held in the middle of an assignment); frame lemma for the contents of buffers |
| C171 | `Data/SearcherCost.lean`: the functions of `Data/FastSearch.lean` once more, with the number of rounds of loops and of comparisons of characters | counted functions with the same outcomes and upper bounds (`Within`); the positions held by a table are counted by partitioning the positions of the text by their codes; lower bounds by families of texts of any length, with the order of the rounds of `get_longest_common` |
| C172 | Long: round_length with 32 bit integers (string, array, string_u16), new, resize, <<, *, substrings, copy and the constructor from a C text on top of it | the loop ends with the value of the loop on natural numbers if that is at most 2^30, otherwise its variable becomes 0 and stays there; each command equals the one of C08/C14/C44; induction over programs with the lengths of the strings |
| C173 | `Strings/Positions.lean`: the readers, skips and searches of analyze.cpp with the position as an `int` of either sign, accesses outside the string and overflow of `int` as undefined behaviour | `C173_same`: equal to the functions with natural positions, loop by loop; `C173_beyond_partial`, `C173_negative_partial` for the positions outside the string, and `..._violated` for all positions at which a function reads outside the string or overflows |
| C174 | `Containers/HashThrow.lean`: the functions of hashmap.ipp with numbered calls of `hash`, `==` and the routine, each of which may throw; outcomes carry the map at that moment | `C174_throws`, `C174_returns` by composition over the steps; histories `Past` with calls that threw and the invariant that all is well except that `size` may be too large: `C174_values`, `C174_progress`, `C174_kept_partial`, `C174_lost`; `C174_lost_violated` for every map about to grow |
| C175 | `Containers/ArrayThrow.lean`: `make`, `resize`, `a[i]= x`, `a << x`, `a << b` and the destructor with numbered calls of `T ()` and of assignments, each of which may throw; blocks may be freed and cells may be without element | `C175_throws` by composition; histories `Past` and the invariant `Good`: `C175_returns`, `C175_make`, `C175_kept_partial`; `C175_longer_violated` for all arrays, `C175_dangling_violated` for all arrays that are not empty and must get memory |
| C176 | `Containers/HashSetThrow.lean`: `contains`, `insert`, `remove` and `resize` with numbered calls of `hash` and `==`, each of which may throw | `C176_throws` by composition; `C176_returns` and `C176_kept_partial` by comparison with the functions of C05; histories `Past` and the invariant `Lax`: `C176_members`, `C176_progress`; `C176_lost_violated` for all sets at their limit, `C176_equal_violated` for all sets with the same `N` |
| C177 | `Strings/DecimalLocale.lean`: `as_string (double)`, printing and `as_double` with the decimal point of the locale as a parameter | `C177_text` and `C177_read`: writing and reading commute with replacing the point (`localised`), by induction over texts; `C177_same_partial` from both; `C177_front` for all texts, hence `C177_between_violated`; `C177_accepted_violated` with the exact language of `is_double` (C71); `C177_c` says that C129 is the case of the locale C |
| C178 | `Containers/RelThrow.lean`: `change` and `merge` of rel_hashmap.ipp over the throwing `set` of `HashThrow.lean`; outcomes carry all layers | `C178_throws`, `C178_returns` by induction over the entries; layers are maps made by calls that returned or threw (`Used`), for which the lax invariant of C174 holds: `C178_merged`, `C178_below`; with room below (`HasRoom`, an invariant of the loop) `C178_visible_partial`; `C178_half_violated` for every number of changes made, with the call that throws found by running the loop without exceptions; `C178_lost_violated` from C174 |
| C179 | `Algorithms/SortThrow.lean`: merge_sort.hpp with numbered assignments of elements, each of which may throw; outcomes carry the array at that moment | `C179_outcome_partial` from the sequence of arrays after each assignment (`Cut`, closed under composition), each of which differs from the one before in at most one place; `C179_in_order` by invariants of the loops; `C179_lost_violated` for every array that is not in order: the first assignment that changes the array changes one place, so that the elements are no longer the same, and is followed by another one |
| C180 | `Containers/HashFunc.lean`: `apply` of hashfunc.ipp with functions that are programs: queries, exceptions, variables; recursion with a bound on its depth | the semantics without remembering is an inductive relation (`Plain`); `C180_transparent` by induction over its derivations with their sizes, which show that no argument is asked for while it is computed; `C180_sound` by induction over depth and programs; `C180_kept_partial` by an invariant of all runs; `C180_reentrant_violated` for every argument and all pairs of values; `C180_again` for all numbers of queries |
| C181 | `Containers/ListThrow.lean`: nodes with reference counts, numbered copies of elements that may throw, destruction of handles while the stack is unwound; the constructors of nodes and `copy`, `*`, `head`, `reverse`, `<<`, `>>` of list.ipp; `Containers/ListThrowMore.lean`: `l * x` and `remove` | exact outcome for each first failing copy (`Result`), by induction over the list; a new list is freed node by node (`drop_made`); `C181_lost_violated` for all nonempty lists and both orders of evaluation, `C181_again_violated` for any number of attempts |
| C182 | `Algorithms/SortInt.lean`, `Algorithms/SortInt2.lean`: both forms of merge_sort with `int` positions, where an overflow or a negative index is undefined behaviour, and a bound on the number of nested calls | the loops and calls equal those of `Algorithms/MergeSort.lean` (C13) as long as nothing overflows, by induction over the depth; too shallow a stack and too long an array fail in the rightmost calls |
| C183 | `Algorithms/SortAlias.lean`: the two-array merge_sort where both arrays are the same list | the loops equal those for one array (moving an element twice is moving it once), and two elements are left as they are, so that the result is a merge sort on lists that does not sort pairs; merging keeps the order within each half |
| C184 | `System/OstreamEq.lean`: == on the variables of the programs of C58 | every program of C58 can be continued by a copy or an assignment, after which the two variables refer to the same object; violated for all programs |
| C185 | `Data/Uuid.lean`: uuid_make with an uninitialised buffer, the generator of tbox as an oracle, strlen and the copy of the characters | the length found by strlen and the copying loop by induction, for all texts and contents of the buffer |
| C186 | `Containers/RelLayers.lean`: find_changes with the innermost layer of the map, compared with the layers below or with the map itself | from the result of find_changes for all layers (C06), per key |

## Disagreements

Where the code does not do what the property says. The negation is proved (`..._violated`); what remains true is
proved under the other names listed in MANIFEST.json.

| id | what the code does |
|----|--------------------|
| C04 | `==` on hash maps accepts maps with different keys if a stored value equals the default of the other map |
| C09 | `a << a` on arrays re-reads the length after growing and writes past the block |
| C10 | `range (a, i, j)` with `i > j` passes the assertion and asks for a negative block |
| C16 | `as_int` overflows on the text of the smallest integer; `is_int` accepts `+-5` |
| C17 | `is_int`, `is_double` read one character past the end on some strings |
| C19 | `escape_sh` leaves `;`, the bar, single quotes, tabs, newlines and the empty string unquoted |
| C20 | the search for a list of patterns reads one character past the end |
| C26 | strings of equal length are never reported to differ |
| C31 | multiples of 10^8 are written without the digits of the second unit |
| C32 | `from_hex (to_Hex (INT_MIN))` overflows while reading `-80000000` |
| C34 | decoding base64 of a wrong length or alphabet reads and shifts outside of its range |
| C36 | a UTF-8 sequence cut off by the end of the string is completed with its last byte |
| C37 | 0x370 to 0x37f count as latin; character references are compared as strings |
| C42 | patterns longer than the text by a power of two index the levels out of bounds |
| C44 | `string_u16`: the block reserved for an empty string is lost; `reserve (0)` frees the elements but keeps the length |
| C45 | `lolly_tree`: atoms are read as arrays, the product of two atoms is a broken node, `t << t` makes a cycle |
| C46 | `file://` times a root indexes a missing component; `a/~` gets a root in the middle; `a/..` makes products depend on brackets |
| C48 | wildcards in the middle of a path, names that begin with `www.`, and `file://~` do not come back from their text |
| C49 | the suffix of `a.txt?v=1.2` is `2`; the base name of a backup file keeps its suffix |
| C50 | relative ways from the front page of a site and from `file:///x` lead elsewhere; `delta` hangs from `.../...` |
| C51 | alternatives with different roots are not sorted, and factor does not put those with the same root together |
| C53 | `fast_alloc (0)` returns the address of the next block, or NULL, and freeing it writes there |
| C54 | reallocating a large block to a size with another rest modulo 8 leaves bytes counted for ever (or counts too few: `mem_used ()` can become negative); the exact error of every history is `errors` in `C54_exact` |
| C59 | a file whose size the system does not tell loads as the empty string; loading a file of more than 2^30 characters never ends (C172), and from 2^31 characters on it is undefined |
| C60 | saving truncates the file first; a crash, or a lock that is held, loses the old contents |
| C61 | output from 8192 characters on is read past the buffer; NULs cut it; a pause of two waits cuts it |
| C62 | an empty input leaves its descriptor open; a write of 0 and a failed read are not reported |
| C65 | the il2 table is shifted by a missing entry |
| C70 | 0.0 and -0.0 are equal and hash differently; hashing a pointer can overflow |
| C71 | `is_double` accepts `e5`, `.e5`, `+-1` and rejects `5.` |
| C77 | `parse_length` of `+`, or of `+` and a lower-case letter, reads past the end; the statement of C77 says so and `C77_only` proves it exactly |
| C79 | enough `..` in a link drops or replaces the host |
| C80 | nothing descends from the bare root |
| C81 | loading a nonempty file changes every variable that shares the string |
| C82 | `$$10` is taken for `$$1` followed by `0`; the arguments of the caller are changed |
| C83 | make_dir never returns for urls of the web and for alternatives |
| C85 | subdirectories leaves out directories whose names are read as something else, such as `www.gnu.org` |
| C86 | file_size and last_modified keep 32 bits: 4 GiB − 1 is −1 ("does not exist"), times from 2038 on are negative |
| C88 | url_temp returns the name of an existing file of 4 GiB − 1 bytes |
| C89 | `++it; ++it` dereferences NULL when the first step was the last of a bucket, although elements follow |
| C90 | a loop that removes keys misses some of them when the table shrinks; one that adds keys can see a key twice |
| C92 | a process loses an input if the descriptor asked for is a descriptor of a pipe, e.g. if the caller has closed its standard input |
| C93 | each end of a pipe is closed twice; a file that another thread has opened in between is closed |
| C94 | an empty input is never closed, so a process that reads it waits for ever, and so does the caller |
| C95 | if a process does not read all of its input the answer is -1, or depends on the schedule, though its exit status is 0 |
| C96 | the indentation is common to all streams: INDENT on one stream indents the lines of another |
| C98 | an array that is shortened never destroys the elements it drops (array<string> leaks them) |
| C99 | urls of the protocol `file` have no digest, since the whole url is taken as a file name |
| C100 | the digest of an empty file leaves it open; each call leaks the name and the buffer |
| C101 | copying an answer loses all its values, any two answers are equal, texts end at the first NUL, and the initial answer labels its time STATUS_CODE |
| C102 | of two header names that agree without regard to case only one is sent |
| C103 | download truncates the target before anything arrives; a target `file:///f` writes to a file of that whole name |
| C104 | `uri_host` and `uri_path` of `http://host` read children that do not exist; the host of `file:///a/b` is `a` |
| C51 | `{x/y/z:n}/...` leaves out x/y: the helper of expand takes the first component instead of the head |
| C105 | the list `local:b` is read as the file url /b; the root as an alternative prints `{/}`; `{a:b}/c` is printed but read as the alternatives `{a` and `b}/c` |
| C106 | `a/~` is a url with a root inside (prints `a//h`); with `HOME=~`, or `X=$Y` and `Y=$X`, reading `~` or `$X` recurses without end |
| C107 | unroot of the alternatives `/` and `x` is `.` and `x` |
| C108 | `set_env (v, "")` does nothing, so a variable cannot be cleared; a value is cut at a NUL |
| C109 | load_shared_library with a known name and another path returns the library of the first path |
| C110 | the status is -1 for a process that leaves input unread |
| C43 | `get_longest_common` does not always return the longest common substring: for `mmmmmmmyvvqykklyvxvwwmw` and `mmmmmyvvqykklyvxvww0myvvqykklyvxvwwmw0mmmmmmyvvqykklyvx0mmmyvvqykklyvxvwwm0mmmmmmmyvvqykkly` it returns 18 characters although 19 are common, because positions inside of the best range so far are skipped and that range moves while a level is searched (`C43_longest_violated`). The result has at least a third of the length of the longest one (`C43_third_partial`). |
| C98 | without memory, making an array with a block of more than 256 bytes longer uses NULL (`C98_no_memory_violated`) |
| C111 | nodes of `lolly_tree` with a negative operator never destroy their array of children; a node with children and operator 0 (`lolly_tree (0, n)`, or `t (i, j)` of a leaf) destroys its array as a string |
| C112 | `move` and `copy` take urls of the web and alternatives for local files with names like `http://h/x` and `a:b`, and report no failure |
| C113 | `url_temp_dir` does not make its directory again if it was removed, gives a forked process the directory of its parent, and does not say if the directory cannot be made |
| C114 | utf8_to_utf16 passes a C string: everything from a NUL on is lost. If the converter returns -1, the string gets the length -1 and the loop runs to 2^64 - 1. `N (s_u8) << 2` is an int: undefined from 2^29 bytes on. A result of more than 2^30 bytes is never returned (C172) |
| C115 | as_bool knows `#t`, is_bool does not; is_int accepts `+-1`, as_int makes 0 of it; `t (i, i)` of a leaf is a node with operator 0 and an array: reading its label is undefined |
| C116 | `win_system` writes the inputs in turn in one thread: a program that reads a later input first blocks for ever once the pipe of an earlier one is full; an empty input is never closed; a thread that reads for more than five seconds after the end of the process still uses a string that is destroyed; a program that cannot be started (-1) is taken for running, and `process.getpid () << LF` shifts -1 |
| C117 | `C:\a` followed by `..\..\b` is `\\b\` (the drive is lost, since the parent in the middle of a relative path removes the name of the drive); `\\h\a` is the same url as `h:\a`; `\a` is read as the relative path `a`; `isalpha` is called with a negative number for names that begin with a byte above 127 |
| C118 | `read_directory` clears the error flag for urls of the web and alternatives; it reads the path of each entry as a url, so that an entry `a:a` is given as `a` |
| C119 | `Channel::redirect` does not look at the result of `_dup`: if the number asked for is not open, or no number is left, `restore` does nothing and the caller keeps the end of the process; if the pipe itself gets the number asked for, the process does not get it; `Channel::Init (d)` closes `pp[otherDirection (d)]` twice; the copies that `_dup` makes are inherited, and `_dup2` makes the restored descriptor inherited |
| C120 | `http://h/a;c:\b` is read as one address whose name has a `;`, and `local:a;b` as one file, since the tests for a protocol come before the one for a list |
| C122 | `url_get_atom` removes the colon of every name of one character and a colon, also on the web: `http://h/c:` becomes `http://h/c`; `file://h/a` with a computer of one letter becomes `file:///h:\a` |
| C123 | `a * {/b:/c}` is `a/{/b:/c}`: an absolute url on the right replaces the left one, alternatives of absolute urls do not (`C123_right_violated`). |
| C124 | `tm_round (0.49999999999999994)` and `as_int (0.49999999999999994)` are 1: the sum with 0.5 is rounded to 1 (`C124_violated`, `C124_int_violated`). Odd integers between 2^52 and 2^53 become the next integer. |
| C125 | On Windows Finnish becomes english (no case for it) and Traditional Chinese chinese: `LANG_CHINESE_TRADITIONAL` is 0x7c04, which `PRIMARYLANGID` never gives (`C125_violated`, `C125_never`). Serbian and Bosnian have the number of Croatian. |
| C126 | `unix_get_login` and `unix_get_username` follow the null pointer that `getpwuid` gives for users that are not in the data base (`C126_unknown_violated`). `win_get_username` passes an uninitialised size: the name is missing or written beyond the buffer, depending on what is in memory (`C126_windows_violated`, `C126_long_violated`). |
| C127 | On Windows too `$$10` and `$%10` are taken for the placeholders of input 1 followed by `0` (`C127_eleven_violated`), and the arguments of the caller are changed (`C127_array_violated`). |
| C128 | `file_url ("a/b").concretize ()` is `/a/b`, `file_url ("../a").concretize ()` is `/a`: a relative name is taken for an absolute one (C128_relative_violated, C128_parent_violated). `url_unix ("/tmp", "www.data")` is `http://www.data` (C128_below_violated). |
| C129 | A double is not the one which is read from its text, since only six digits are written: 1234567 is written as 1.23457e+06 (C129_round_trip_violated). Below 2^-1050 not even the text is stable: 202403 * 2^-1074 is written as 1e-318, which is read as 202402 * 2^-1074, which is written as 9.99999e-319 (C129_stable_violated). |
| C131 | `call` gives the error codes of `wordexp` (1 to 5) and `EINVAL` in the same int as the status of the program; a NUL cuts the command; no `wordfree` after `WRDE_NOSPACE` (`C131_violated`) |
| C132 | `fix_args` does not free the strings of `as_charp`, and an empty argument goes to a converter whose error is not checked (`C132_violated`) |
| C135 | the roots `default` and `blank` alone are both printed as `/`; ramdiscs with different contents are printed alike |
| C137 | Hash codes are computed with signed sums that can overflow, which is undefined: `hash ("yytmmma")` (and any longer string that begins with `yytmmm`), `hash` of the `string_u16` U+5FD8 U+4FBF U+9053, and `hash` of the `array<int>` (-2130706432, 0). Strings of up to six ASCII characters never do. |
| C138 | Debugging builds: `alloc_check` reads three bytes behind the block to report that its end was overwritten; up to seven bytes behind an object, and the place of `a[-1]` of an array of `int`, are not guarded; if the number of elements of an array was overwritten this is reported, but another number of elements is destroyed and another size freed, and the tested sum can overflow. |
| C139 | `get_sec_time` and `get_usec_time` read the clock separately: 1.999999 and 2.000000 give 1.000000. `texmacs_time` called before the initialiser of `start_time` has run (from a static object of another file) gives the time since 1970. |
| C140 | `TM_FAILED ("")` leaves nothing in `the_exception`; `handle_exceptions` is documented to display the message, but only clears it; `the_report` is always empty. |
| C141 | `get_stacktrace (0xffffffff)` makes an array of size 0; unnamed frames and a function `null` are shown alike; `get_stacktrace (0)` calls the stack possibly corrupt. |
| C142 | If a constructor throws, `tm_new` and `tm_new_array` do not give the memory back, and the elements of the array that were made before are not destroyed. |
| C143 | `strong_equal` is documented to compare the items in order (list.hpp:33-41) but compares the addresses of the first nodes: false for two lists `[1]` made separately. |
| C144 | `int& r= h(1); h(2)= 5; r= 7` is undefined behaviour in a new map: `h(2)` makes the table grow, `resize` makes new nodes for all entries and destroys those that `r` refers to. |
| C145 | A reference to an element, or a loop over an array, does not survive a change of the capacity: `for (int x : a) a << x;` reads freed memory. A loop visits elements that its body dropped. |
| C146 | Counts of handles and the free lists of the allocator are neither atomic nor locked: two threads that copy a common string at once lose a count, and two threads that allocate at once can get the same block, even if they share no object. The documentation does not say that the library is for one thread only. |
| C147 | Lists are copied, compared, appended to and destroyed by functions that call themselves once per node: a list of some hundred thousand items, which a loop makes easily, overflows the stack when its last handle goes. |
| C148 | `min` and `max` of doubles depend on the order if there is a NaN: `min (1, NaN)` is NaN, `min (NaN, 1)` is 1. |
| C149 | Arrays and strings shrink at the capacity at which they grow, and hash maps likewise, so that programs that go back and forth there move all items again and again: at 8·2^k elements each push and each `resize` by one moves all of them. |
| C151 | `copy`, `==`, `!=` and the destructor of trees call themselves once per level, so deep trees overflow the stack (`C151_depth_violated`, `C151_destroy_violated`; a tree made by a loop cannot even be destroyed). They visit a node as often as it occurs: `n` times `t= lolly_tree (1, t, t)` makes `3 n + 1` nodes, a copy makes `2^(n+2) - 3` (`C151_copy_violated`) and comparing two takes `2^(n+1) - 1` calls (`C151_compare_violated`). |
| C152 | `h(k) << x` for a key that is not there changes the default, and so the values of all absent keys and of all keys that came this way; `v= h[k]` and `h(k)= v` share the representation with `v`; `copy (h)` copies the entries and not the values (hashmap.ipp:81-105, hashmap_extra.ipp). |
| C153 | A key is stored as handle: appending to the variable it was given by changes the key but not its hash code and bucket, and the entry is found neither with the old nor with the new string, cannot be reset, but is counted and enumerated (hashmap.ipp:47-120). |
| C154 | `copy` of an array copies the handles of its elements only: with `array<string> v= copy (w)`, `v[0] << "x"` changes `w[0]` (array.ipp:57-62; `C154_array_violated`). Trees are copied with their labels and children. |
| C155 | `upcase_first`, `locase_first`, `remove_prefix`, `remove_suffix`, `raw_unquote` return their argument itself if there is nothing to do; `as_string` of a url that is a single name, `basename` without suffix and `protocol` return labels of the url: `string s= basename (u); s << ".bak"` changes `u` (analyze.cpp:116, 122, 169-178, 429; url.cpp:70, 733, 800; `C155_text_violated`, `C155_name_violated`, `C155_basename_violated`, `C155_protocol_violated`). |
| C156 | `_ts_string::resize` tests `m <= n` where the capacity `l` was meant: the memory is never filled up, every append allocates anew and copies all (unix_sys_utils.cpp:72-80). Collecting n characters in pieces of at most 4096 copies at least n²/8192 (`C156_violated`). |
| C157 | `as_string` of a path builds the text of each tail separately: quadratic in the number of components, as a comment says (url.cpp:731; `C157_violated`). |
| C158 | a stream made without a file (`tm_ostream x;`) says that it is writable, but what is written to it arrives nowhere (`C158_sink_violated`; the tests expect it to be writable). |
| C159 | a bucket is chosen by the lowest bits of the hash code, and integers are their own hash codes: with multiples of 65536 as keys every search goes through all keys; the same holds for any number of strings made of copies of `wyywmmma`, whose hash codes are all 0 |
| C160 | SIGPIPE is neither ignored nor blocked, so a process that exits without reading a long input kills the caller; after a failing `pthread_create` the threads made before use destroyed channels and the process is not waited for; the answer of `pipe` is not looked at |
| C161 | `operator()` of promises and functions does not keep the object alive: `x ()` whose method does `x= promise<T> ()` destroys the object during its own method (C161_call_violated). While `x= y` destroys the old object of x, x still refers to it; a destructor that copies x destroys the object a second time (C161_destructor_violated). The constructor from a pointer uses `INC_COUNT` instead of `INC_COUNT_NULL` (C161_null_violated). The tests set `t.rep` directly, which leaves the count one too small: the object is destroyed as soon as the handle was passed by value (C161_rep_violated). |
| C162 | `match_wildcard` tries all ways to divide the string among the stars: to refuse a string of 2k letters `a` for the pattern `*a*a...*ab` takes at least 2^k calls (C162_wildcard_violated). |
| C56 | `type_helper<T>::id` is a static variable with an initialiser that runs in unspecified order before `main`. While two types have no identifier yet, both are 0, like that of the empty box: `open_box` in the initialiser of another static variable reads data as another type or dereferences NULL instead of throwing. |
| C163 | The operators `<<` of `tm_ostream` for `char`, the integer types and the floating types format into `static char _buf[]`, which all streams and threads share. Two threads that write the ints 1 and 2 to different streams can both write 2. |
| C164 | `l << x` and `l[i]` go through the list from its beginning, and `N (l)` through all of it: building a list of n items by appending takes n(n+1)/2 calls, and a loop over `i < N (l)` with `l[i]` is quadratic as well. |
| C165 | The order in which source files are initialised is not specified, and `to_roman`, `to_hanzi`, `il2_to_cork`, timers, `cout`, resources and failing checks use global strings, maps and streams: used in the constructor or destructor of a global object of another source file they may find them not yet made, or destroyed. `url_temp_dir` keeps its result in objects that are static in functions: if `main` calls it first, the destructor of a global object that calls it again uses a destroyed url, in every order. |
| C166 | string_view.hpp:43 stores the size of a std::basic_string in an int: with 2^31 elements or more all views of equal size are equal, parts are empty and the conversion back throws std::length_error; 2^32 more elements are ignored. string_view.hpp:37-39 takes every array for a literal: a buffer larger than its text gives a view with the NUL and the rest of the buffer |
| C167 | A view keeps the pointer of the string (string.hpp:57-59): one character appended at a length of 4, 8, 12, 16, 20, 32, 64, ... moves the characters (string.cpp:38-54) and leaves all views of the string dangling; at other lengths they stay usable. After the string was made shorter with the same room, a view still shows the removed characters |
| C168 | A searcher shares the string that it was made from, but its table is not updated: after `s[1]= 'x'` in `"abc"` it finds neither `x` nor `b`, appended text is never found, and searching `"ab"` after appending `b` to `"a"` reads outside the table. `get_string` returns the same handle. |
| C169 | `h->post_patch (h, base)` and `h->pre_patch (h, base)` keep the number of buckets in a local variable while `reset` makes the table smaller: with the keys 0, 1, 2, 3 all equal to the base the loop reads bucket 3 of a table of two. `generate` reads the number anew, and misses key 3 instead when its routine removes each key. |
| C170 | `char* p= c_string (s);` leaves `p` dangling; after `c= d` pointers made from `c` before are unusable if no copy is left; `c_string ()` converts to NULL, not to an empty text. |
| C171 | Searching for a pattern that does not occur may compare the whole pattern at almost every place; `search_next` looks at all earlier candidates again each time, so that going through all occurrences is quadratic; `get_longest_common` is cubic for texts like `a...axa...a` and `a...a`: positions outside of the best range are tried although they cannot give a longer one. |
| C172 | round_length (string.cpp:28-31, string_u16.cpp:20-23, array.ipp:24-27) doubles an int until it reaches the length: for more than 2^30 elements it runs through -2^31 to 0 and never ends. string.cpp:26 adds 3 before: undefined from 2^31 - 3 on. string.cpp:68 stores strlen in an int: of 2^32 + k characters only the first k are taken |
| C173 | `read_int`, `read_double` and `find_non_alpha` (backwards) read outside the string for every position beyond the end (`C173_beyond_violated`); `search_forwards` computes `pos + N(what)`, which overflows near the greatest int; for a negative position `test`, `read`, `skip_*`, `read_line`, `read_word`, `read_int`, `read_double`, `search_forwards` and `find_non_alpha` (forwards) read in front of the string (`C173_negative_violated`) |
| C174 | `resize` installs the empty new table before it calls `hash` for the old entries: an exception there loses all entries not yet moved, `N` keeps counting them, and the old table is not freed (`C174_lost`, `C174_lost_violated`) |
| C175 | `tm_resize_array` frees the old block (or changes its header) before it constructs the new elements, and `a` is set only afterwards: if a constructor throws, the array refers to freed memory or to elements that do not exist (`C175_dangling_violated`); `a << x` makes the array longer before it assigns (`C175_longer_violated`) |
| C176 | `hashset_rep::insert` rebuilds the table before it looks for the element, and `resize` installs the empty table first: if a function of an element throws, elements are lost, even when the element to insert was there already; `N` counts them still (`C176_lost_violated`), and `==` is no longer symmetric (`C176_equal_violated`) |
| C177 | `as_string (double)`, printing and `as_double` use `%g` and `%lf`, which depend on `setlocale`: a number written in a locale with a comma loses its fraction and exponent when it is read in the locale C, and conversely (`C177_between_violated`); `is_double` rejects it (`C177_accepted_violated`) |
| C178 | `merge` changes the layer below entry by entry: an exception leaves any number of changes made there, so that `shorten` does not discard them (`C178_half_violated`), and an exception while the table below grows loses values of that layer (`C178_lost_violated`) |
| C179 | `merge_sort` moves elements by assignments without a way back: for every array that is not in order an exception of one of them loses an element and leaves another one twice (`C179_lost_violated`) |
| C180 | `hashfunc_rep::apply` stores what the function returns without looking whether a query made in the meantime has stored a value for the same argument: a function with variables that asks for its own argument gets one answer and gives another one (`C180_reentrant_violated`) |
| C181 | `tm_new` takes a block and does not give it back when the constructor throws: if copying an element throws inside of the constructor of a list node, the block is lost for good (`C181_lost_violated`, `C181_again_violated`) |
| C183 | `merge_sort_leq (a, b)` where `b` is a second handle of the elements of `a` does not sort: two neighbours that are compared directly are exchanged twice (merge_sort.hpp:74-81). No array whose last two elements are out of order is sorted (`C183_order_violated`), and two elements are never exchanged (`C183_two_violated`). |
| C184 | `==` of tm_ostream compares the addresses of the variables (tm_ostream.cpp:176-179): a copy of a stream, an argument passed by value or an assigned stream writes to the same place but compares unequal |
| C186 | `H->next->find_changes (H->item)` takes a key out of the map (`contains`) if only the innermost layer has it and its value is the default; `H->find_changes (H->item)` compares the layer with itself and empties it, so that all its changes are lost. |

Not violations, but worth knowing: `realloc` returning NULL is not checked (C52); Greek is `gr` and not `el` (C63);
`replace` and `tokenize` hang on an empty pattern (C21, C22); dropping array elements by `resize` does not run their
destructors; a url with alternatives at the top is refused by `load_string`, one with alternatives below is not (C59);
comparing a literal with a view by `<` (lolly/data/string_view.hpp:132-136) has no comparison in its body and does not
compile when it is used (C78); the comments on `operator()` and `operator[]` of hashtrees (hashtree.hpp:111-120) are
exchanged: `operator()` makes missing children, `operator[]` would raise an error but does not compile (C67, C136).

## Trusted base

* The Lean 4.33.0 kernel. Theorems depend at most on the axioms `propext`,
  `Classical.choice` and `Quot.sound`; the list per theorem is at the end of this file.
* That the definitions describe the C++ code faithfully: this was checked by
  reading only. Each definition names the lines it models and where it simplifies.

Modelled:

| part of the code | model | simplifications |
|------------------|-------|-----------------|
| Kernel/Containers: hashmap, hashset, rel_hashmap, hashfunc, hashtree, hashmap iterators, array, list, ntuple | `Containers/` | elements are values; addresses of buckets are not; array blocks as lists with a capacity; resizing to fewer elements does not destroy the dropped ones in the code, which is not visible in the model |
| Kernel/Algorithms: merge_sort | `Algorithms/` | the order is a total function |
| Kernel/Types: string, analyze, parse_string; lolly/data: string_view, string_u16, lolly_tree | `Strings/`, `Data/` | `%g` and `%lf` are modelled after the C standard with correct rounding, one zero and the locale C, in C177 with any decimal point (hexadecimal numbers and long doubles are left out); ownership of string_u16 blocks inline; the `data` field of lolly_tree nodes is left out; parse_string as a list of (string, position) pairs and for n ≥ 0 |
| Data/String: fast_search; lolly/data: unicode, base64, numeral | `Data/` | fast_search for texts of less than 2^28 bytes; hanzi as characters |
| System/Classes/url.cpp and the url constructors, System/Files/file.cpp | `System/Url*`, `System/Files*`, `System/Dirs*`, `System/Move`, `System/WinUrl*` | Unix, and for paths (C117) Windows; environment variables as an oracle; parsing and expanding with fuel; the file system as an oracle with fixed links and no other processes; messages left out |
| System/Memory: fast_alloc, je_malloc, mi_malloc; Kernel/Abstractions: basic (reference counts, failed checks), blackbox, resource, minmax, as_int and tm_round of doubles; Kernel/Containers: promise, unary_function | `System/Alloc*`, `System/Objects*` (objects and exceptions), `Containers/ArrayMem` (arrays of objects), `Kernel/` | `malloc` as an oracle with arbitrary contents; overflow of the counters of chunks and of reference counts is excluded; object ids are never used again; type ids are initialised once |
| lolly/system/timer, System/Classes/tm_timer, System/IO/tm_ostream, System/Language/locale | `System/` | hash maps of timers as maps; the clock and `fprintf` as oracles; the C library prints what is flushed, and the display control of basic.cpp, in `System/Display`; the printing of values in `System/Printing`, but not of `long double`; Linux only for the locale |
| lolly/system/subprocess.cpp check_output and call, Plugins/Unix threads and arguments, Plugins/Windows win_system | `System/Process*`, `System/Call*`, `System/Spawn*`, `System/WinSpawn*`, `System/WinFd*` | system calls as oracles or as moves of a transition system; programs read and write single characters; `pipe` works, SIGPIPE is ignored and all threads can be made, except in `System/SpawnFail*` |
| System/Misc/sys_utils.cpp get_env, set_env, evaluate_system, get_stacktrace; lolly/system: shared_lib, args (Windows) | `System/SysUtils*`, `System/Stack*`, `System/SharedLib*`, `System/Args*` | the environment and the dynamic loader of tbox as parameters; memory of objects whose constructor throws left out |
| lolly/hash: md5, sha; lolly/io: http; lolly/data: uri | `Data/Digest*`, `System/Http*`, `Data/Uri*` | the digest functions of tbox and the sessions of cpr as arguments; http trees are values |

Not modelled: compiler and ABI behaviour, floating point arithmetic other than the sum in as_int and tm_round and conversion from and to decimal text, tbox/libc/cpr internals (the generator of uuids, the converter of character sets), threads other than those of unix_system and win_system (C146 has single accesses to counts and to one free list, C163 to the static buffers of streams, in the order of the program), the macOS plugins and the rest of the Windows plugins, WASM, the statistics
of the mimalloc and jemalloc variants of the allocator, `DEBUG_ON` builds except for the guards around blocks (C138),
process id of sys_utils.

## Axioms per theorem

Printed by `#print axioms` for every theorem of MANIFEST.json (names without the prefix `Lolly.`).

* No axioms (19): HttpProps.C101_labels, WinSpawnProps.C116_empty_violated, WinSpawnProps.C116_start_violated, AllocLibProps.C133_early, AllocDebugProps.C138_array_header_violated, ClockProps.C139_pair_violated, ClockProps.C139_early_violated, FailureProps.C140_empty_violated, ProcessCostProps.C156_same, ProbeCostProps.C159_same, ParseStringProps.C40_bool_empty, AllocProps.C52_realloc_null, AllocProps.C53_violated, BlackboxProps.C56_early_violated, ProcessProps.C62_empty_violated, ProcessProps.C62_zero_violated, CharsProps.C75_closing, SpawnProps.C95_race_violated, DisplayProps.C96_streams_violated.

* `Quot.sound` (1): WinSpawnProps.C116_slow_violated.

* `propext` (64): HashMapProps.C04_violated, RelHashMapProps.C06_single_throws, DigestProps.C100_empty_violated, HttpProps.C101_init_violated, HttpProps.C103_failure_violated, SysUtilsProps.C108_clear_violated, WinFdProps.C119_closed_violated, WinFdProps.C119_clash_violated, WinFdProps.C119_saved_violated, WinFdProps.C119_inherit_violated, WinFdProps.C119_full_violated, RoundingProps.C124_special, RoundingProps.C124_violated, RoundingProps.C124_int_violated, UserProps.C126_unknown_violated, AllocLibProps.C133_no_memory, UrlPrintProps.C135_root_violated, UrlPrintProps.C135_ramdisc_violated, HashCodesProps.C137_string_violated, HashCodesProps.C137_u16_violated, StackProps.C141_all_violated, ObjectsProps.C142_violated, ListIdentityProps.C143_strong_equal_partial, MapRefsProps.C144_violated, ThreadsProps.C146_counts_violated, ThreadsProps.C146_blocks_violated, MinMaxProps.C148_violated, UrlCostProps.C157_same, WritableProps.C158_sink_violated, CallableProps.C161_null_violated, CallableProps.C161_rep_violated, ListCostProps.C164_same, ListCostProps.C164_walk_exact, SelfLoopsProps.C169_patch_violated, SelfLoopsProps.C169_generate_remove_violated, SelfLoopsProps.C169_generate_insert_violated, CStringProps.C170_temporary_violated, CStringProps.C170_null_violated, CStringProps.C170_nul_violated, CStringProps.C170_assigned_violated, HashThrowProps.C174_returns, RelThrowProps.C178_returns, SearchProps.C21_pieces, SearchProps.C24_unique, CharsProps.C28_first, LTreeProps.C45_atom_partial, LTreeProps.C45_atom_violated, AllocProps.C53_live_violated, AllocProps.C54_violated, AllocProps.C54_negative_violated, RefcountProps.C55_cycle, BlackboxProps.C56_round_trip, LocaleProps.C63_round_trip, LocaleProps.C63_range, LocaleProps.C63_charset, CharsProps.C65_il2_violated, NTupleProps.C70_long, NTupleProps.C70_pointer_violated, ConvProps.C71_violated, IterationProps.C89_step_twice_violated, IterationProps.C90_remove_violated, IterationProps.C90_insert_violated, IterationProps.C91_list, DisplayProps.C97_error.

* `propext`, `Quot.sound` (287): HashMapProps.C01_get, HashMapProps.C01_contains, HashMapProps.C01_progress, HashMapProps.C01_last_write, HashMapProps.C03_value_unique, HashMapProps.C03_post_patch, HashMapProps.C03_pre_patch, HashMapProps.C03_changes, HashMapProps.C03_invert, HashMapProps.C03_undo, HashMapProps.C04_exact, HashSetProps.C05_progress, HashSetProps.C05_contains, RelHashMapProps.C06_get, RelHashMapProps.C06_contains, RelHashMapProps.C06_set, RelHashMapProps.C06_set_visible, RelHashMapProps.C06_extend, RelHashMapProps.C06_change, RelHashMapProps.C06_merge, RelHashMapProps.C06_find_changes, RelHashMapProps.C07_memo, ArrayProps.C10_range_throws, ArrayProps.C10_range_violated, DigestProps.C100_partial, DigestProps.C100_memory_violated, HttpProps.C101_set, HttpProps.C101_range, HttpProps.C101_init_partial, HttpProps.C101_equal_violated, SysUtilsProps.C108_get, SysUtilsProps.C108_refines_partial, SysUtilsProps.C108_nul_violated, LinkedListProps.C11_tail, LinkedListProps.C11_frame, SysUtilsProps.C110_unread_violated, TreeLifeProps.C111_zero_violated, Utf16Props.C114_error_violated, Utf16Props.C114_large_violated, TreeValueProps.C115_bool, TreeValueProps.C115_leaf, TreeValueProps.C115_slice_violated, WinFdProps.C119_child_partial, WinFdProps.C119_running_partial, WinFdProps.C119_twice_violated, LinkedListProps.C12_push_nil, LinkedListProps.C12_join_nil, LinkedListProps.C12_cons, LinkedListProps.C12_pop, UrlKindProps.C123_rooted, UrlKindProps.C123_names, UrlKindProps.C123_alternatives, WinLocaleProps.C125_same_partial, WinLocaleProps.C125_range, WinLocaleProps.C125_once, WinLocaleProps.C125_violated, UserProps.C126_comment, UserProps.C126_windows_violated, UserProps.C126_long_violated, DecimalProps.C129_white, DecimalProps.C129_other, DecimalProps.C129_special, MergeSort.C13_unique, PrintingProps.C130_joined, CallProps.C131_plain_partial, CallProps.C131_words, CallProps.C131_violated, ArgsProps.C132_restored, ArgsProps.C132_failure, AllocLibProps.C133_portable, CorkProps.C134_letters, CorkProps.C134_distinct, HashGraphProps.C136_meaning, HashCodesProps.C137_array_violated, ClockProps.C139_pair_partial, StrProps.C14_sub, FailureProps.C140_display_violated, StackProps.C141_trace, StackProps.C141_none, StackProps.C141_null_violated, ObjectsProps.C142_array_violated, ArrayLoopProps.C145_violated, ListDepthProps.C147_walk_partial, ListDepthProps.C147_walk_exact, ListDepthProps.C147_destroy, MinMaxProps.C148_int, MinMaxProps.C148_double_partial, MinMaxProps.C148_order_partial, MinMaxProps.C148_nan, GrowCostProps.C149_map_partial, TreeCostProps.C151_destroy_shared, SharedProps.C152_default_violated, SharedProps.C152_read_violated, SharedProps.C152_stored_violated, SharedProps.C152_copied_map_violated, ResultsProps.C155_value, ResultsProps.C155_suffix, ResultsProps.C155_text_partial, ResultsProps.C155_as_string_partial, ResultsProps.C155_protocol_partial, ResultsProps.C155_basename_partial, ResultsProps.C155_text_violated, ResultsProps.C155_name_violated, ResultsProps.C155_protocol_violated, ResultsProps.C155_basename_violated, ProcessCostProps.C156_partial, ProcessCostProps.C156_violated, ProcessCostProps.C156_unbounded_violated, WritableProps.C158_stays, WritableProps.C158_reason, SpawnFailProps.C160_failure_partial, SpawnFailProps.C160_signal_partial, SpawnFailProps.C160_thread_violated, CallableProps.C161_call_violated, CallableProps.C161_destructor_violated, SearchCostProps.C162_forwards, SearchCostProps.C162_forwards_any, SearchCostProps.C162_backwards, SearchCostProps.C162_count, SearchCostProps.C162_replace, SearchCostProps.C162_tokenize, ViewsProps.C166_made_partial, ViewsProps.C166_back, ViewsProps.C166_exact, ViewsProps.C166_negative_violated, ViewsProps.C166_equality_violated, ViewsProps.C166_longer_violated, ViewsProps.C166_array_violated, SearcherLifeProps.C168_violated, SelfLoopsProps.C169_join, SelfLoopsProps.C169_write_back, SelfLoopsProps.C169_base, ConvProps.C17_violated, PosProps.C173_beyond_violated, PosProps.C173_negative_partial, PosProps.C173_negative_violated, HashThrowProps.C174_throws, HashThrowProps.C174_kept_partial, HashThrowProps.C174_values, HashThrowProps.C174_progress, HashThrowProps.C174_lost, HashThrowProps.C174_generate, ArrayThrowProps.C175_throws, HashSetThrowProps.C176_throws, HashSetThrowProps.C176_returns, HashSetThrowProps.C176_kept_partial, HashSetThrowProps.C176_members, HashSetThrowProps.C176_progress, HashSetThrowProps.C176_lost_violated, HashSetThrowProps.C176_equal_violated, DecimalLocaleProps.C177_c, DecimalLocaleProps.C177_special, DecimalLocaleProps.C177_read, DecimalLocaleProps.C177_plain, DecimalLocaleProps.C177_front, RelThrowProps.C178_throws, RelThrowProps.C178_merged, CharsProps.C18_raw, CharsProps.C18_unquote, CharsProps.C18_generic, CharsProps.C18_spaces, HashFuncProps.C180_transparent, HashFuncProps.C180_sound, HashFuncProps.C180_kept_partial, HashFuncProps.C180_reentrant_violated, HashFuncProps.C180_again, ListThrowProps.C181_unshift_partial, OstreamEqProps.C184_equal_partial, UuidProps.C185_text, UuidProps.C185_buffer, UuidProps.C185_different, RelLayersProps.C186_values, RelLayersProps.C186_contains_partial, RelLayersProps.C186_contains_violated, RelLayersProps.C186_own_violated, CharsProps.C19_partial, CharsProps.C19_violated, SearchProps.C20_forwards_outside, SearchProps.C20_list_violated, SearchProps.C20_index_of, SearchProps.C21_empty_pattern, SearchProps.C22_no_separator, SearchProps.C22_empty_separator, SearchProps.C24_left, SearchProps.C24_right, SearchProps.C24_trim, SearchProps.C25_expand, SearchProps.C25_width, CharsProps.C28_upcase, CharsProps.C28_locase, CharsProps.C28_all, CharsProps.C28_round_trip, RomanProps.C30_roman, RomanProps.C30_standard, RomanProps.C30_injective, RomanProps.C30_upper, HexProps.C32_round_trip_violated, HexProps.C32_to_hex, HexProps.C32_pointer, HexProps.C32_uint32, HexProps.C32_padded, Base64Props.C34_partial, Base64Props.C34_undefined, Base64Props.C34_violated, UnicodeProps.C36_violated, UnicodeProps.C37_violated, ReadersProps.C38_read, ReadersProps.C38_read_variants, ReadersProps.C38_read_line, ReadersProps.C38_read_word, ReadersProps.C38_skip, ReadersProps.C38_skip_line, ReadersProps.C38_skip_symbol, ReadersProps.C39_short, FastSearchProps.C43_longest_violated, LTreeProps.C45_push_partial, UrlParseProps.C48_injective_partial, UrlNameProps.C49_no_suffix, UrlAltProps.C51_sort_set, UrlAltProps.C51_sort_violated, BlackboxProps.C56_ids, BlackboxProps.C56_type_safe, BlackboxProps.C56_equal, BlackboxProps.C56_equivalence, BlackboxProps.C56_early, ProcessProps.C61_pause_violated, ProcessProps.C62_read_partial, ProcessProps.C62_read_violated, ProcessProps.C62_append, ProcessProps.C62_copy, ProcessProps.C62_result, LocaleProps.C63_five, LocaleProps.C63_two, LocaleProps.C63_greek, LocaleProps.C63_environment, CharsProps.C64_minus, CharsProps.C64_union, CharsProps.C65_ispanish, CharsProps.C65_spanish, CharsProps.C65_german, CharsProps.C65_il2_total, CharsProps.C65_il2_partial, HashTreeProps.C67_dictionary, NTupleProps.C68_pair, NTupleProps.C68_triple, NTupleProps.C68_quartet, NTupleProps.C68_quintuple, NTupleProps.C68_sextuple, HashTreeProps.C69_lookup, HashTreeProps.C69_make, NTupleProps.C70_double_violated, NTupleProps.C70_float_violated, NTupleProps.C70_double_partial, CharsProps.C73_symbol, CharsProps.C74_verbatim, CharsProps.C74_dos, CharsProps.C75_letters, ReadersProps.C76_forward, ReadersProps.C76_backward, U16Props.C78_equality, U16Props.C78_order, U16Props.C78_trichotomy, UrlNameProps.C80_path, UrlNameProps.C80_rooted_partial, UrlNameProps.C80_or, UrlNameProps.C80_root_violated, DirsProps.C85_members, IterationProps.C91_map, IterationProps.C91_set, IterationProps.C91_array, SpawnProps.C92_negative, SpawnProps.C92_closed_violated, SpawnProps.C92_swapped_violated, SpawnProps.C93_caller_partial, SpawnProps.C94_terminates, SpawnProps.C94_empty_violated, SpawnProps.C95_output, SpawnProps.C95_answer_partial, SpawnProps.C95_unread_violated, DisplayProps.C96_new_line_partial, DisplayProps.C96_column, DisplayProps.C96_rule, DisplayProps.C97_lines, DisplayProps.C97_flush, ArrayMemProps.C98_negative, ArrayMemProps.C98_negative_violated, DigestProps.C99_shape.

* `propext`, `Classical.choice`, `Quot.sound` (673): HashMapProps.C02_generate_size, HashMapProps.C02_size_any, HashMapProps.C02_iterator, HashMapProps.C04_complete, HashMapProps.C04_partial, HashSetProps.C05_size_iterate, HashSetProps.C05_le, HashSetProps.C05_lt, HashSetProps.C05_eq, RelHashMapProps.C06_discard, RelHashMapProps.C06_confirm, RelHashMapProps.C06_find_differences, ArrayProps.C08_progress, ArrayProps.C08_contents, ArrayProps.C08_block, ArrayProps.C08_realloc, ArrayProps.C09_violated, ArrayProps.C09_partial, ArrayProps.C09_undefined, ArrayProps.C10_contents, ArrayProps.C10_range, ArrayProps.C10_append, ArrayProps.C10_cons, ArrayProps.C10_reverse, ArrayProps.C10_scalar, ArrayProps.C10_contains, ArrayProps.C10_eq, ArrayProps.C10_hash, ArrayProps.C10_split, ArrayProps.C10_append_assoc, ArrayProps.C10_append_unit, ArrayProps.C10_reverse_reverse, HttpProps.C101_response_partial, HttpProps.C101_header, HttpProps.C101_equal, HttpProps.C101_nul_violated, HttpProps.C101_copy_violated, HttpProps.C102_request_partial, HttpProps.C102_request_any, HttpProps.C102_case_violated, HttpProps.C103_download_partial, HttpProps.C103_file_violated, UriProps.C104_parts_partial, UriProps.C104_short_violated, UriProps.C104_file_violated, UrlListProps.C105_read_partial, UrlListProps.C105_paths_partial, UrlListProps.C105_print_partial, UrlListProps.C105_round_trip_partial, UrlListProps.C105_local_violated, UrlListProps.C105_root_violated, UrlListProps.C105_inside_violated, UrlHomeProps.C106_home_partial, UrlHomeProps.C106_home_unset, UrlHomeProps.C106_variable_partial, UrlHomeProps.C106_slash_partial, UrlHomeProps.C106_relative_partial, UrlHomeProps.C106_any, UrlHomeProps.C106_web, UrlHomeProps.C106_inside_violated, UrlHomeProps.C106_cycle_violated, UrlHomeProps.C106_home_violated, UrlRootProps.C107_reroot, UrlRootProps.C107_ramdisc, UrlRootProps.C107_unroot, UrlRootProps.C107_relative, UrlRootProps.C107_back, UrlRootProps.C107_alternatives_partial, UrlRootProps.C107_root_violated, SharedLibProps.C109_refines_partial, SharedLibProps.C109_closed, SharedLibProps.C109_failure, SharedLibProps.C109_path_violated, LinkedListProps.C11_length, LinkedListProps.C11_nth, LinkedListProps.C11_last_item, LinkedListProps.C11_copy, LinkedListProps.C11_snoc, LinkedListProps.C11_concat, LinkedListProps.C11_head, LinkedListProps.C11_reverse, LinkedListProps.C11_remove, LinkedListProps.C11_contains, LinkedListProps.C11_eq, LinkedListProps.C11_prefix, SysUtilsProps.C110_evaluate_partial, TreeLifeProps.C111_defined, TreeLifeProps.C111_alive_partial, TreeLifeProps.C111_kept, TreeLifeProps.C111_tree_partial, TreeLifeProps.C111_leak_violated, MoveProps.C112_move_partial, MoveProps.C112_copy_partial, MoveProps.C112_load_partial, MoveProps.C112_chdir, MoveProps.C112_web_violated, MoveProps.C112_or_violated, MoveProps.C112_silent_violated, MoveProps.C113_temp_dir_partial, MoveProps.C113_removed_violated, MoveProps.C113_fork_violated, MoveProps.C113_blocked_violated, Utf16Props.C114_to_utf16_partial, Utf16Props.C114_to_utf8_partial, Utf16Props.C114_round_trip_partial, Utf16Props.C114_encode, Utf16Props.C114_wchar, Utf16Props.C114_invalid_partial, Utf16Props.C114_nul_violated, Utf16Props.C114_long_violated, TreeValueProps.C115_int_partial, TreeValueProps.C115_node, TreeValueProps.C115_kinds, TreeValueProps.C115_accept_violated, WinSpawnProps.C116_output_partial, WinSpawnProps.C116_terminates, WinSpawnProps.C116_blocked_only, WinSpawnProps.C116_no_deadlock_partial, WinSpawnProps.C116_total_partial, WinSpawnProps.C116_two_inputs_violated, WinUrlProps.C117_drive_partial, WinUrlProps.C117_drive_top, WinUrlProps.C117_remote_partial, WinUrlProps.C117_relative_partial, WinUrlProps.C117_print_read, WinUrlProps.C117_head, WinUrlProps.C117_above_violated, WinUrlProps.C117_host_violated, WinUrlProps.C117_slash_violated, WinUrlProps.C117_ascii_violated, ReadDirProps.C118_entries_partial, ReadDirProps.C118_web_violated, ReadDirProps.C118_colon_violated, WinFdProps.C119_after_partial, LinkedListProps.C12_push, LinkedListProps.C12_join, LinkedListProps.C12_self_join_cyclic, LinkedListProps.C12_access_last, LinkedListProps.C12_suppress_last, WinListProps.C120_read_partial, WinListProps.C120_paths, WinListProps.C120_print, WinListProps.C120_round_trip, WinListProps.C120_web_violated, WinListProps.C120_local_violated, WinHomeProps.C121_home, WinHomeProps.C121_home_unset, WinHomeProps.C121_variable, WinHomeProps.C121_trailing, WinHomeProps.C121_percent, WinWebProps.C122_web_partial, WinWebProps.C122_www, WinWebProps.C122_file_drive, WinWebProps.C122_file_remote_partial, WinWebProps.C122_local, WinWebProps.C122_colon_violated, WinWebProps.C122_host_violated, UrlKindProps.C123_below_partial, UrlKindProps.C123_relative, UrlKindProps.C123_none_violated, UrlKindProps.C123_right_violated, RoundingProps.C124_nearest_partial, RoundingProps.C124_large, RoundingProps.C124_within_one, RoundingProps.C124_integer, RoundingProps.C124_monotone, RoundingProps.C124_int_partial, RoundingProps.C124_defined, WinLocaleProps.C125_variants, WinLocaleProps.C125_english, WinLocaleProps.C125_unknown, WinLocaleProps.C125_never, UserProps.C126_unix_partial, UserProps.C126_windows_partial, PlaceholderProps.C127_inside_partial, PlaceholderProps.C127_arguments, PlaceholderProps.C127_array_violated, PlaceholderProps.C127_eleven_violated, FileUrlProps.C128_path_partial, FileUrlProps.C128_top, FileUrlProps.C128_home, FileUrlProps.C128_unset, FileUrlProps.C128_relative_violated, FileUrlProps.C128_parent_violated, FileUrlProps.C128_below, FileUrlProps.C128_below_relative, FileUrlProps.C128_below_absolute, FileUrlProps.C128_below_violated, FileUrlProps.C128_pwd, DecimalProps.C129_precision, DecimalProps.C129_nearest, DecimalProps.C129_order, DecimalProps.C129_accepted, DecimalProps.C129_style, DecimalProps.C129_integer, DecimalProps.C129_read, DecimalProps.C129_exact, DecimalProps.C129_read_int, DecimalProps.C129_no_number, DecimalProps.C129_short, DecimalProps.C129_stable_partial, DecimalProps.C129_round_trip_violated, DecimalProps.C129_stable_violated, MergeSort.C13_sort, MergeSort.C13_any_comparison, MergeSort.C13_companion, MergeSort.C13_permutation, MergeSort.C13_permute, PrintingProps.C130_integer, PrintingProps.C130_unique, PrintingProps.C130_value, PrintingProps.C130_captured, PrintingProps.C130_list, CallProps.C131_once_partial, ArgsProps.C132_partial, ArgsProps.C132_violated, AllocLibProps.C133_blocks, AllocLibProps.C133_returned, UrlPrintProps.C135_partial, HashGraphProps.C136_graph, HashCodesProps.C137_string_partial, HashCodesProps.C137_short, HashCodesProps.C137_string_agrees, HashCodesProps.C137_u16_partial, HashCodesProps.C137_u16_short, HashCodesProps.C137_array_partial, HashCodesProps.C137_array_short, HashCodesProps.C137_array_agrees, AllocDebugProps.C138_silent, AllocDebugProps.C138_overflow_partial, AllocDebugProps.C138_report_violated, AllocDebugProps.C138_underflow_partial, AllocDebugProps.C138_header_partial, AllocDebugProps.C138_slack_violated, AllocDebugProps.C138_array, AllocDebugProps.C138_array_header_partial, AllocDebugProps.C138_array_violated, ClockProps.C139_raw, ClockProps.C139_elapsed, ClockProps.C139_since, ClockProps.C139_timer, ClockProps.C139_pair, ClockProps.C139_early, StrProps.C14_progress, StrProps.C14_contents, StrProps.C14_block, StrProps.C14_as_charp, FailureProps.C140_run, FailureProps.C140_pending_partial, FailureProps.C140_careful, FailureProps.C140_defined, StackProps.C141_read_partial, ObjectsProps.C142_lives, ObjectsProps.C142_blocks, ObjectsProps.C142_used, ObjectsProps.C142_no_leak_partial, ListIdentityProps.C143_write, ListIdentityProps.C143_is_atom, ListIdentityProps.C143_identity, ListIdentityProps.C143_violated, MapRefsProps.C144_values, MapRefsProps.C144_valid_partial, MapRefsProps.C144_dangling, MapRefsProps.C144_present, ArrayLoopProps.C145_reference_partial, ArrayLoopProps.C145_reference_dangling, ArrayLoopProps.C145_loop_partial, ArrayLoopProps.C145_loop_dangling, ThreadsProps.C146_counts_partial, ThreadsProps.C146_blocks_partial, ListDepthProps.C147_index_exact, ListDepthProps.C147_end_exact, ListDepthProps.C147_violated, MinMaxProps.C148_value, GrowCostProps.C149_array_partial, GrowCostProps.C149_array_violated, GrowCostProps.C149_string_partial, GrowCostProps.C149_string_violated, GrowCostProps.C149_map_violated, StrProps.C15_eq, StrProps.C15_meaning, StrProps.C15_laws, StrProps.C15_hash, StrProps.C15_eq_c, SortStepsProps.C150_sort, SortStepsProps.C150_exception, SortStepsProps.C150_companion, SortStepsProps.C150_pure, TreeCostProps.C151_copy_stack, TreeCostProps.C151_copy_partial, TreeCostProps.C151_compare_partial, TreeCostProps.C151_destroy_partial, TreeCostProps.C151_copy_violated, TreeCostProps.C151_compare_violated, TreeCostProps.C151_depth_violated, TreeCostProps.C151_destroy_violated, SharedProps.C152_alone_partial, SharedProps.C152_copies_partial, SharedKeysProps.C153_map_partial, SharedKeysProps.C153_violated, CopiesProps.C154_deep, CopiesProps.C154_array_partial, CopiesProps.C154_array_violated, UrlCostProps.C157_partial, UrlCostProps.C157_violated, UrlCostProps.C157_unbounded_violated, WritableProps.C158_arrives_partial, WritableProps.C158_answer, ProbeCostProps.C159_exact, ProbeCostProps.C159_int_partial, ProbeCostProps.C159_int_violated, ProbeCostProps.C159_string_violated, ConvProps.C16_round_trip_partial, ConvProps.C16_minimum_violated, ConvProps.C16_canonical, ConvProps.C16_reading, ConvProps.C16_accepts_partial, ConvProps.C16_sign_violated, ConvProps.C16_prefix, SpawnFailProps.C160_started, SpawnFailProps.C160_pipe_violated, SpawnFailProps.C160_signal_violated, CallableProps.C161_exact, CallableProps.C161_held_partial, SearchCostProps.C162_wildcard_partial, SearchCostProps.C162_wildcard_violated, SharedBufProps.C163_inside, SharedBufProps.C163_exclusive_partial, SharedBufProps.C163_types_partial, SharedBufProps.C163_violated, ListCostProps.C164_append_exact, ListCostProps.C164_prepend_exact, ListCostProps.C164_index_exact, ListCostProps.C164_violated, GlobalsProps.C165_exact, GlobalsProps.C165_after_partial, GlobalsProps.C165_main, GlobalsProps.C165_calls, GlobalsProps.C165_pairs, GlobalsProps.C165_order_violated, GlobalsProps.C165_exit_violated, ViewsProps.C166_compare, ViewsProps.C166_part, ViewsProps.C166_parts, ViewLifeProps.C167_exact, ViewLifeProps.C167_room, ViewLifeProps.C167_full, ViewLifeProps.C167_steady, ViewLifeProps.C167_append, ViewLifeProps.C167_destroyed, ViewLifeProps.C167_append_violated, ViewLifeProps.C167_shorter_violated, SearcherLifeProps.C168_answers_partial, SearcherLifeProps.C168_unchanged_partial, SearcherLifeProps.C168_single_partial, SearcherLifeProps.C168_copy, SearcherLifeProps.C168_appended_violated, SearcherLifeProps.C168_long_violated, SelfLoopsProps.C169_patch_partial, SelfLoopsProps.C169_kept_partial, SelfLoopsProps.C169_both_partial, SelfLoopsProps.C169_generate_update, SelfLoopsProps.C169_generate_remove_partial, SelfLoopsProps.C169_generate_any_partial, ConvProps.C17_partial, CStringProps.C170_alive, CStringProps.C170_freed, CStringProps.C170_handles, CStringProps.C170_usable, CStringProps.C170_made, CStringProps.C170_room, CStringProps.C170_keeps, CStringProps.C170_shared, SearcherCostProps.C171_build, SearcherCostProps.C171_stored, SearcherCostProps.C171_all, SearcherCostProps.C171_next, SearcherCostProps.C171_occurrences_partial, SearcherCostProps.C171_all_violated, SearcherCostProps.C171_next_violated, SearcherCostProps.C171_common, SearcherCostProps.C171_common_violated, LongProps.C172_rounding, LongProps.C172_rounding_violated, LongProps.C172_program_partial, LongProps.C172_program_violated, LongProps.C172_text_partial, LongProps.C172_text_violated, LongProps.C172_arrays_partial, LongProps.C172_arrays_violated, LongProps.C172_u16_made, LongProps.C172_u16_partial, LongProps.C172_u16_violated, PosProps.C173_same, PosProps.C173_beyond_partial, HashThrowProps.C174_lost_violated, ArrayThrowProps.C175_returns, ArrayThrowProps.C175_make, ArrayThrowProps.C175_kept_partial, ArrayThrowProps.C175_longer_violated, ArrayThrowProps.C175_dangling_violated, DecimalLocaleProps.C177_text, DecimalLocaleProps.C177_same_partial, DecimalLocaleProps.C177_integer, DecimalLocaleProps.C177_between_violated, DecimalLocaleProps.C177_accepted_violated, DecimalLocaleProps.C177_example_violated, RelThrowProps.C178_visible_partial, RelThrowProps.C178_below, RelThrowProps.C178_half_violated, RelThrowProps.C178_lost_violated, SortThrowProps.C179_outcome_partial, SortThrowProps.C179_in_order, SortThrowProps.C179_lost_violated, ListThrowProps.C181_copy_partial, ListThrowProps.C181_concat_partial, ListThrowProps.C181_head_partial, ListThrowProps.C181_short, ListThrowProps.C181_reverse_partial, ListThrowProps.C181_push_partial, ListThrowProps.C181_times_partial, ListThrowProps.C181_remove_partial, ListThrowProps.C181_times_violated, ListThrowProps.C181_lost_violated, ListThrowProps.C181_again_violated, SortIntProps.C182_sort, SortIntProps.C182_depth, SortIntProps.C182_limit, SortIntProps.C182_companion, SortAliasProps.C183_elements_partial, SortAliasProps.C183_order_violated, SortAliasProps.C183_two_violated, OstreamEqProps.C184_copy_violated, OstreamEqProps.C184_assign_violated, SearchProps.C20_forwards, SearchProps.C20_occurs, SearchProps.C20_backwards, SearchProps.C20_backwards_end, SearchProps.C20_count, SearchProps.C20_list_partial, SearchProps.C21_replace, SearchProps.C21_same, SearchProps.C22_tokenize, SearchProps.C22_recompose, SearchProps.C22_replace, SearchProps.C23_match_wildcard, SearchProps.C24_array, SearchProps.C25_shape, DiffProps.C26_aligned_partial, DiffProps.C26_violated, DiffProps.C26_distance_partial, DiffProps.C26_insert_partial, SearchProps.C27_overlapping, SearchProps.C27_starts_ends, SearchProps.C27_test, SearchProps.C27_remove, AlphaProps.C29_enumerates, AlphaProps.C29_bijective, AlphaProps.C29_other, HanziProps.C31_partial, HanziProps.C31_violated, HexProps.C32_round_trip_partial, HexProps.C32_from_hex, HexProps.C32_as_hexadecimal, HexProps.C32_binary, Base64Props.C33_encode, Base64Props.C33_round_trip, Base64Props.C33_shape, Base64Props.C33_strict, UnicodeProps.C35_encode, UnicodeProps.C35_round_trip, UnicodeProps.C35_sequence, UnicodeProps.C35_injective, UnicodeProps.C35_prefix_free, UnicodeProps.C36_progress, UnicodeProps.C36_decode_partial, UnicodeProps.C36_truncated, UnicodeProps.C37_range_partial, UnicodeProps.C37_range_violated, UnicodeProps.C37_has_partial, UnicodeProps.C37_is_partial, UnicodeProps.C37_has_exact, UnicodeProps.C37_is_exact, ReadersProps.C38_read_int, ReadersProps.C38_read_double, ReadersProps.C39_parse, ReadersProps.C39_strict, ReadersProps.C39_array, ParseStringProps.C40_flat, ParseStringProps.C40_bool, FastSearchProps.C41_build, FastSearchProps.C41_all, FastSearchProps.C41_next, FastSearchProps.C42_partial, FastSearchProps.C42_violated, FastSearchProps.C43_common_partial, FastSearchProps.C43_nonempty_partial, FastSearchProps.C43_whole_partial, FastSearchProps.C43_third_partial, U16Props.C44_contents_partial, U16Props.C44_construct_partial, U16Props.C44_blocks_partial, U16Props.C44_leak_violated, U16Props.C44_reserve_violated, LTreeProps.C45_equality, LTreeProps.C45_copy, LTreeProps.C45_pushAll_partial, LTreeProps.C45_slice, LTreeProps.C45_construct, LTreeProps.C45_mul_partial, LTreeProps.C45_access, LTreeProps.C45_print, LTreeProps.C45_mul_violated, LTreeProps.C45_pushSelf_violated, LTreeProps.C45_cycle_violated, UrlProps.C46_units, UrlProps.C46_absorb, UrlProps.C46_web, UrlProps.C46_walk, UrlProps.C46_walk_rooted, UrlProps.C46_assoc, UrlProps.C46_assoc_rooted, UrlProps.C46_assoc_exact, UrlProps.C46_assoc_violated, UrlProps.C46_shape, UrlProps.C46_total_partial, UrlProps.C46_total_violated, UrlParseProps.C46_shape_violated, UrlProps.C47_path, UrlProps.C47_rooted, UrlProps.C47_top, UrlParseProps.C48_relative_partial, UrlParseProps.C48_absolute_partial, UrlParseProps.C48_protocol_partial, UrlParseProps.C48_blank_partial, UrlParseProps.C48_wildcard_violated, UrlParseProps.C48_www_violated, UrlParseProps.C48_home_violated, UrlNameProps.C49_suffix, UrlNameProps.C49_recover_partial, UrlNameProps.C49_query_partial, UrlNameProps.C49_glue, UrlNameProps.C49_unglue_all, UrlNameProps.C49_glue_error, UrlNameProps.C49_query_violated, UrlNameProps.C49_violated, UrlDeltaProps.C50_local, UrlDeltaProps.C50_way, UrlDeltaProps.C50_web_partial, UrlDeltaProps.C50_other_partial, UrlDeltaProps.C50_relative, UrlDeltaProps.C50_web_violated, UrlDeltaProps.C50_file_violated, UrlDeltaProps.C50_hang_violated, UrlDeltaProps.C50_hang_delta_violated, UrlAltProps.C51_expand, UrlAltProps.C51_ancestor_partial, UrlAltProps.C51_sort_partial, UrlAltProps.C51_sort_rooted_partial, UrlAltProps.C51_sort_alone_partial, UrlAltProps.C51_factor, UrlAltProps.C51_factor_groups_partial, UrlAltProps.C51_factor_rooted_partial, UrlAltProps.C51_factor_violated, UrlAltProps.C51_ancestor_rooted_partial, UrlAltProps.C51_ancestor_violated, AllocProps.C52_blocks, AllocProps.C52_no_memory, AllocProps.C53_partial, AllocProps.C54_exact, AllocProps.C54_baseline_exact, AllocProps.C54_partial, AllocProps.C54_baseline_partial, RefcountProps.C55_refines, RefcountProps.C55_last_handle, RefcountProps.C55_acyclic, RefcountProps.C55_all_freed, TimerProps.C57_intervals, TimerProps.C57_running, TimerProps.C57_reset, TimerProps.C57_line, TimerProps.C57_report, OstreamProps.C58_refines, OstreamProps.C58_released, OstreamProps.C58_session, FilesProps.C59_save, FilesProps.C59_append, FilesProps.C59_load_partial, FilesProps.C59_failed_load, FilesProps.C59_save_load_partial, FilesProps.C59_string_partial, FilesProps.C59_append_to, FilesProps.C59_size_violated, FilesProps.C59_large_violated, FilesProps.C60_partial, FilesProps.C60_violated, FilesProps.C60_lock_violated, ProcessProps.C61_partial, ProcessProps.C61_prefix, ProcessProps.C61_long_violated, ProcessProps.C61_nul_violated, ProcessProps.C62_write_partial, UrlAltProps.C66_first, UrlAltProps.C66_ancestor, NTupleProps.C68_spread, NTupleProps.C70_float_eq, NTupleProps.C70_double_eq, NTupleProps.C70_float_partial, NTupleProps.C70_pointer_partial, NTupleProps.C70_pointer_exact, ConvProps.C71_accepts, ConvProps.C71_literals_partial, ConvProps.C71_sound_partial, ConvProps.C72_is_id, CharsProps.C73_injective, CharsProps.C74_guile, CharsProps.C75_classes, ReadersProps.C77_length, ReadersProps.C77_only, U16Props.C78_slice, UrlProps.C79_stays_partial, UrlProps.C79_stays_violated, FilesProps.C81_partial, FilesProps.C81_violated, ProcessProps.C82_arguments, ProcessProps.C82_partial, ProcessProps.C82_violated, ProcessProps.C82_array_violated, PlaceholderProps.C82_inside_partial, DirsProps.C83_make_dir_partial, DirsProps.C83_web_violated, DirsProps.C83_or_violated, DirsProps.C84_each, DirsProps.C84_remove, DirsProps.C85_subdirectories_partial, DirsProps.C85_alternatives_partial, DirsProps.C85_www_violated, DirsProps.C86_size_partial, DirsProps.C86_not_local, DirsProps.C86_newer, DirsProps.C86_newer_order, DirsProps.C86_size_violated, DirsProps.C86_modified_violated, DirsProps.C87_type, DirsProps.C87_agree, DirsProps.C88_temp_partial, DirsProps.C88_temp_violated, IterationProps.C89_range_map, IterationProps.C89_range_set, IterationProps.C89_current_partial, IterationProps.C89_end, IterationProps.C89_steps_violated, IterationProps.C90_update, IterationProps.C90_remove_partial, IterationProps.C91_iterator, SpawnProps.C92_child_partial, SpawnProps.C93_threads_violated, SpawnProps.C94_blocked_only, SpawnProps.C94_no_deadlock_partial, SpawnProps.C95_total, DisplayProps.C96_total, DisplayProps.C96_defined, ArrayMemProps.C98_elements, ArrayMemProps.C98_keep, ArrayMemProps.C98_life_partial, ArrayMemProps.C98_all_partial, ArrayMemProps.C98_no_memory, ArrayMemProps.C98_shrink_violated, ArrayMemProps.C98_no_memory_violated, ArrayMemProps.C98_negative_exact, DigestProps.C99_md5_partial, DigestProps.C99_sha_partial, DigestProps.C99_file_violated.
