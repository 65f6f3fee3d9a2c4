{"id": "C01", "title": "hashmap reads return the last write", "statement": "After any sequence of h(x)=v, h->reset(x), h->resize(m) with m>=1, h->join(g) and h->write_back(x,base), h[x] is the value most recently stored under x and still present, and the default value given at construction if x was never stored or was reset since; h->contains(x) says exactly whether x is present. No bucket index is ever out of range.", "quantifier": "every history of operations, every key type with an equality-respecting hash function (including constant and negative hashes), every initial bucket count n>=1 and every load factor", "why_tests_cant": "The result must not depend on collisions or on when the table grows or shrinks; a test fixes one hash function and a few histories.", "anchors": ["Kernel/Containers/hashmap.hpp: hashmap_rep", "Kernel/Containers/hashmap.ipp: resize, contains, bracket_rw, bracket_ro, reset, join", "Kernel/Containers/hashmap_extra.ipp: write_back"]}
{"id": "C02", "title": "hashmap size and enumeration are exact", "statement": "After any history, N(h) is the number of distinct keys present, h->empty() holds iff there is none, and h->generate and the iterator returned by iterate(h) visit every present key exactly once and no other key, then stop.", "quantifier": "every history of operations, hash function, bucket count and load factor", "why_tests_cant": "Depends on an invariant (no duplicate keys, size counter in step) preserved along unbounded histories.", "anchors": ["Kernel/Containers/hashmap.hpp: N", "Kernel/Containers/hashmap.ipp: empty, generate, reset, resize", "Kernel/Containers/iterator.ipp: hashmap_iterator_rep (spool, busy, next)"]}
{"id": "C03", "title": "hashmap patches compose over a base", "statement": "For a map h of differences over base, let value(x) be h[x] if h contains x and base[x] otherwise. post_patch(patch,base) makes value(x) equal patch[x] for every x in patch and changes no other value; pre_patch(patch,base) makes value(x) equal patch[x] only for x in patch not already in h; both never leave an entry of patch stored in h that equals the base value. changes(patch,base) holds exactly the entries of patch that differ from base. invert(patch,base) holds the base values of those entries, so that post-patching with changes(patch,base) and then with invert(patch,base) restores every value of a map whose values at the keys of patch are those of base.", "quantifier": "all maps h, patch, base over all key and value types with decidable equality", "why_tests_cant": "An algebraic law over three arbitrary maps and the order in which buckets are walked.", "anchors": ["Kernel/Containers/hashmap_extra.ipp: pre_patch, post_patch, changes, invert, copy"]}
{"id": "C04", "title": "hashmap equality means same bindings", "statement": "h1 == h2 holds iff both maps contain the same keys with the same values; in particular == is symmetric.", "quantifier": "all pairs of maps, including ones that store their own default value", "why_tests_cant": "A pair of maps violating it needs a key stored with the default value on one side only; tests compare maps with ordinary values.", "anchors": ["Kernel/Containers/hashmap.ipp: operator==, operator!="]}
{"id": "C05", "title": "hashset behaves as a finite set", "statement": "After any sequence of insert, remove and resize, contains(x) holds iff x was inserted after its last removal, N is the number of elements, h1<=h2 is inclusion, h1<h2 is strict inclusion, h1==h2 is extensional equality, and iterate visits each element exactly once.", "quantifier": "every history, hash function respecting equality, bucket count n>=1 and load factor", "why_tests_cant": "Unbounded histories, arbitrary collisions and the timing of growth.", "anchors": ["Kernel/Containers/hashset.ipp: resize, contains, insert, remove, copy, operator<=, operator<, operator==", "Kernel/Containers/iterator.ipp: hashset_iterator_rep"]}
{"id": "C06", "title": "rel_hashmap layers can be discarded or confirmed", "statement": "H[x] is the value in the innermost layer that contains x, else the default of the outermost layer. After extend(), any writes H(x)=v, then shorten(), every H[x] and contains is as before extend(). After extend(), writes, then merge(), every H[x] and contains is the same as just before merge(). shorten() and merge() on a single layer throw. find_changes(CH) removes from CH exactly the entries that agree with H; change(CH) overrides the entries of CH in the innermost layer only.", "quantifier": "every stack of layers and every history of nested extend/write/shorten/merge", "why_tests_cant": "Nested transactional histories of unbounded depth.", "anchors": ["Kernel/Containers/rel_hashmap.ipp: operator[], operator(), contains, extend, shorten, merge, find_changes, find_differences, change"]}
{"id": "C07", "title": "memoised functions return what the function returns and call it once", "statement": "For hashfunc F built from f, F[x] == f(x) for every query in every history, and f is called at most once for each distinct argument.", "quantifier": "every sequence of queries, every function f, every default value (including f(x) == default)", "why_tests_cant": "Every history and every function, including those whose result is the map's default.", "anchors": ["Kernel/Containers/hashfunc.ipp: hashfunc_rep::apply"]}
{"id": "C08", "title": "array buffer accesses stay inside the allocation", "statement": "For any history of constructing, resizing, a<<x, a<<b with b a different array, and reads/writes a[i] with 0<=i<N(a), every access is inside the allocated block, the contents are those of the mathematical sequence (resize keeps the first min(old,new) elements), and reallocation happens only when the rounded capacity changes.", "quantifier": "every history of operations and all lengths", "why_tests_cant": "Memory safety for every length needs the capacity invariant (rounded length of N is what was allocated), not sample lengths.", "anchors": ["Kernel/Containers/array.ipp: round_length, array_rep::resize, array constructors, operator<<", "Kernel/Containers/array.hpp: array_rep, array, N, A"]}
{"id": "C09", "title": "appending an array to itself", "statement": "a << a leaves a holding its old contents twice.", "quantifier": "all arrays a", "why_tests_cant": "The failing case needs aliasing of the two handles together with the re-evaluation of N(b) after the resize; tests append distinct arrays.", "anchors": ["Kernel/Containers/array.ipp: operator<< (array<T>& a, array<T> b)"]}
{"id": "C10", "title": "array slicing and concatenation laws", "statement": "range(a,i,j) is the sequence a[i..j), append is concatenation and associative with the empty array as unit, range(a,0,k)*range(a,k,n) == a, reverse(reverse(a)) == a, contains(x,a) iff some element equals x, a==b iff same length and elements, equal arrays have equal hashes.", "quantifier": "all arrays, indices 0<=i<=j<=n, element types with decidable equality", "why_tests_cant": "Laws over all lengths and indices.", "anchors": ["Kernel/Containers/array.ipp: range, append, reverse, contains, operator==, operator!=, hash"]}
{"id": "C11", "title": "list operations are the sequence operations", "statement": "N, *, head(l,n), tail(l,n), reverse, remove, contains, last_item, suppress_last, copy, ==, < and <= on lists compute length, concatenation, first n, the rest, reversal, filtering, membership, last element, all but last, same sequence, equality, proper prefix and prefix; calls documented to need a longer list throw instead of reading a nil node.", "quantifier": "all lists and all argument values", "why_tests_cant": "Recursive definitions must agree with sequences of every length, and every error branch must be covered.", "anchors": ["Kernel/Containers/list.ipp: N, copy, operator*, head, tail, reverse, remove, contains, last_item, access_last, suppress_last, operator==, operator<, operator<="]}
{"id": "C12", "title": "in-place list append only extends the lists sharing that tail", "statement": "l << x and l << m append to the end of the chain of l, visible through every handle sharing that chain and invisible to every disjoint list; the result is acyclic when the two chains are disjoint.", "quantifier": "every heap of list nodes and every sharing pattern", "why_tests_cant": "Aliasing: quantifies over all heaps and handles, including self-append, which makes the list cyclic.", "anchors": ["Kernel/Containers/list.ipp: access_last, operator<<, operator>>, suppress_last"]}
{"id": "C13", "title": "merge_sort sorts stably in place", "statement": "merge_sort(a) leaves a permutation of a that is sorted for the given order, keeps equal elements in their original order, never reads or writes outside the array or its buffer; the two-array form applies the same permutation to the companion array.", "quantifier": "all arrays, all total preorders", "why_tests_cant": "Sortedness, permutation and stability for every length; the in-place merge is only correct because of the way the halves are split.", "anchors": ["Kernel/Algorithms/merge_sort.hpp: merge_sort, merge_sort_leq, merge_sort_sub"]}
{"id": "C14", "title": "string buffer accesses stay inside the allocation", "statement": "For any history of constructing, resizing, s<<c, s<<t (t may be s itself), s(i,j) and s[i] with 0<=i<N(s), every access is inside the allocated block and the contents are those of the mathematical byte sequence; s(i,j) clamps its bounds to the string.", "quantifier": "every history of operations and all lengths", "why_tests_cant": "Memory safety for every length and for self-append.", "anchors": ["Kernel/Types/string.cpp: round_length, string_rep::resize, operator(), operator<<, operator*", "Kernel/Types/string.hpp"]}
{"id": "C15", "title": "string comparison is a total order consistent with equality and hashing", "statement": "<= on strings is reflexive, antisymmetric, transitive and total, < is its strict part, == holds iff the bytes are the same, and equal strings have equal hashes.", "quantifier": "all strings, all bytes 0..255", "why_tests_cant": "Order laws over all triples of strings.", "anchors": ["Kernel/Types/string.cpp: operator==, operator<, operator<=, hash", "lolly/data/string_view.hpp: operator==, operator<, operator<="]}
{"id": "C16", "title": "decimal conversion round trips", "statement": "as_int(as_string(i)) == i and is_int(as_string(i)) for every int; and when is_int(s) holds and the value fits, as_int(s) is the integer that s denotes.", "quantifier": "all 32-bit integers; all byte strings for the second part", "why_tests_cant": "The second part fails only on strings such as \"+-5\"; the boundary cases of both need all inputs.", "anchors": ["Kernel/Types/string.cpp: as_int, as_string (int), is_int"]}
{"id": "C17", "title": "number recognisers do not read past the end of the string", "statement": "is_int(s) and is_double(s) read only characters of s.", "quantifier": "all byte strings", "why_tests_cant": "Reading s[N(s)] is usually harmless in a test run, and only specific inputs do it.", "anchors": ["Kernel/Types/string.cpp: is_int, is_double"]}
{"id": "C18", "title": "quoting round trips", "statement": "raw_unquote(raw_quote(s)) == s; is_quoted holds exactly for the results of raw_quote and raw_unquote leaves all other strings alone; a receiver for which the escape character makes the next byte literal reads escape_generic(s) back as s and meets no unprotected data delimiter; escape_spaces puts a backslash before every space and different strings have different results.", "quantifier": "all byte strings", "why_tests_cant": "Strings made only of quotes and backslashes are the interesting ones; all inputs are needed.", "anchors": ["Kernel/Types/analyze.cpp: raw_quote, raw_unquote, escape_generic, escape_spaces", "Kernel/Types/string.cpp: is_quoted"]}
{"id": "C19", "title": "escape_sh protects a word from the shell", "statement": "A shell that reads escape_sh(s) as one unquoted word obtains exactly s.", "quantifier": "all byte strings without NUL", "why_tests_cant": "Needs every special character in every position.", "anchors": ["Kernel/Types/analyze.cpp: escape_sh"]}
{"id": "C20", "title": "search returns the nearest occurrence", "statement": "search_forwards(what,pos,in) is the least position p>=pos at which what occurs in in, and -1 if there is none; search_backwards(what,pos,in) is the greatest position p<=pos with what occurring, or -1; contains/occurs hold iff there is an occurrence; count_occurrences counts all (overlapping) occurrences; the list form returns the least position where any of the patterns occurs.", "quantifier": "all patterns, texts and start positions", "why_tests_cant": "Minimality over all positions of all texts; empty patterns and ends of text.", "anchors": ["Kernel/Types/analyze.cpp: search_forwards, search_backwards, count_occurrences, occurs, contains, test, index_of"]}
{"id": "C21", "title": "replace substitutes every occurrence, left to right", "statement": "For a non-empty pattern, replace(s,what,by) terminates and is the concatenation obtained by cutting s at the leftmost non-overlapping occurrences of what and joining the pieces with by. Replacing what by itself changes nothing. For an empty pattern the call does not terminate unless s is empty.", "quantifier": "all strings s, what, by", "why_tests_cant": "Specification over all strings; non-termination cannot be shown by a test.", "anchors": ["Kernel/Types/analyze.cpp: replace"]}
{"id": "C22", "title": "tokenize and recompose are inverse", "statement": "For a non-empty separator, recompose(tokenize(s,sep),sep) == s, no token contains sep, and there is always at least one token; tokenize(recompose(a,sep),sep) == a when a is non-empty and no a[i]*sep creates an earlier occurrence. For an empty separator tokenize does not terminate unless s is empty.", "quantifier": "all strings and all non-empty separators", "why_tests_cant": "Round trip over all strings, separators that overlap themselves.", "anchors": ["Kernel/Types/analyze.cpp: tokenize, recompose"]}
{"id": "C23", "title": "wildcard matching", "statement": "match_wildcard(s,w) holds iff s can be obtained from w by replacing each '*' by some string.", "quantifier": "all strings and patterns", "why_tests_cant": "Backtracking matcher against a declarative definition for all inputs.", "anchors": ["Kernel/Types/analyze.cpp: match_wildcard"]}
{"id": "C24", "title": "trimming", "statement": "trim_spaces_left removes the longest prefix of white space, trim_spaces_right the longest suffix, trim_spaces both; trimming is idempotent, and trimming left and right commute.", "quantifier": "all byte strings, including all-blank ones", "why_tests_cant": "All strings.", "anchors": ["Kernel/Types/analyze.cpp: trim_spaces_left, trim_spaces_right, trim_spaces, is_whitespace"]}
{"id": "C25", "title": "tab expansion keeps columns", "statement": "convert_tabs_to_spaces(s,w) for w>0 contains no tab, leaves newlines where they are, and puts every non-tab character of a line at the column it would have with tab stops every w columns.", "quantifier": "all strings, all w>0", "why_tests_cant": "Column arithmetic over all strings and widths.", "anchors": ["Kernel/Types/analyze.cpp: convert_tabs_to_spaces"]}
{"id": "C26", "title": "differences describes how to turn one string into the other", "statement": "differences(s1,s2) is empty iff s1 == s2, and otherwise lists segments of both strings outside of which the two are equal; so distance(s1,s2) == 0 iff s1 == s2.", "quantifier": "all pairs of strings", "why_tests_cant": "A diff must be right for every pair; tests use pairs of different length.", "anchors": ["Kernel/Types/analyze.cpp: differences, distance, find_longest, find_common"]}
{"id": "C27", "title": "overlapping, prefix and suffix helpers", "statement": "overlapping(s1,s2) is the length of the longest string that is both a suffix of s1 and a prefix of s2. starts/ends decide prefix/suffix; remove_prefix and remove_suffix remove it iff it is there (and non-empty), otherwise return s.", "quantifier": "all pairs of strings", "why_tests_cant": "Maximality over all overlaps.", "anchors": ["Kernel/Types/analyze.cpp: overlapping, starts, ends, remove_prefix, remove_suffix"]}
{"id": "C28", "title": "case conversion", "statement": "locase_all and upcase_all act byte by byte, keep the length, are idempotent, map exactly the letters of the encoding, and locase(upcase(c)) == c for every lower-case letter c.", "quantifier": "all bytes and all strings", "why_tests_cant": "The byte table has asymmetric entries; all strings.", "anchors": ["Kernel/Types/analyze.cpp: upcase, locase, upcase_all, locase_all, upcase_first, locase_first, is_iso_locase, is_iso_upcase"]}
{"id": "C29", "title": "alphabetic numbering is a bijection", "statement": "alpha_nr(n) for n>=1 enumerates a,b,...,z,aa,ab,...: it is injective, its length never decreases, alpha_nr(n) has only letters a-z, and every non-empty string of letters a-z is alpha_nr of exactly one n; Alpha_nr is the same in upper case.", "quantifier": "all integers n, all strings over a-z", "why_tests_cant": "Bijectivity of an unbounded numbering.", "anchors": ["Kernel/Types/analyze.cpp: alpha_nr, Alpha_nr"]}
{"id": "C30", "title": "roman numerals denote their argument", "statement": "Reading to_roman(n) by the usual subtractive rule gives n for 1<=n<=3999; it is the standard numeral (greedy from the largest value, with cm, cd, xc, xl, ix, iv); to_roman(-n) is '-' followed by it; to_roman(0) is \"o\"; outside of the range the result is \"?\"; the conversion is injective on the range, and to_Roman is the upper-case version.", "quantifier": "all 32-bit integers", "why_tests_cant": "All integers, including the out-of-range ones.", "anchors": ["lolly/data/numeral.cpp: to_roman, to_Roman"]}
{"id": "C31", "title": "chinese numerals denote their argument", "statement": "to_hanzi(n) read by the usual rule for chinese numerals denotes n and is well formed (no unit without digits).", "quantifier": "all 32-bit integers", "why_tests_cant": "The failing arguments have a zero block of four digits; all integers are needed.", "anchors": ["lolly/data/numeral.cpp: to_hanzi, hanzi_sub"]}
{"id": "C32", "title": "hexadecimal round trips", "statement": "from_hex(to_Hex(i)) == i and from_hex(to_hex(i)) == i for every int; as_hexadecimal(i,len) gives exactly len digits, the low 4*len bits of i; to_padded_hex gives two digits whose value is the byte; binary_to_hexadecimal gives two digits per byte and is injective.", "quantifier": "all 32-bit integers, all len in 1..16, all byte strings", "why_tests_cant": "All integers including INT_MIN.", "anchors": ["lolly/data/numeral.cpp: to_Hex, to_hex, from_hex, as_hexadecimal, to_padded_hex, binary_to_hexadecimal"]}
{"id": "C33", "title": "base64 round trip", "statement": "decode_base64(encode_base64(s)) == s; the encoding uses only the base64 alphabet, '=' padding and newlines, no line is longer than 80 characters, and the number of non-newline characters is 4*ceil(N(s)/3).", "quantifier": "all byte strings", "why_tests_cant": "All lengths (mod 3 and mod 60) and all byte values.", "anchors": ["lolly/data/base64.cpp: encode_base64, decode_base64"]}
{"id": "C34", "title": "base64 decoding is total", "statement": "decode_base64(s) terminates without undefined behaviour on every input, skipping characters outside of the alphabet.", "quantifier": "all byte strings", "why_tests_cant": "Malformed inputs (padding in the wrong place, bytes >= 128) have to be covered exhaustively.", "anchors": ["lolly/data/base64.cpp: decode_base64"]}
{"id": "C35", "title": "UTF-8 encoding round trips", "statement": "Decoding encode_as_utf8(code) from position 0 gives code and consumes the whole string, for every code point up to 0x1FFFFF; decoding a concatenation of encodings yields the sequence of code points; different code points have different encodings and none is a prefix of another.", "quantifier": "all code points and all sequences of code points", "why_tests_cant": "All code points and all sequences.", "anchors": ["lolly/data/unicode.cpp: encode_as_utf8, decode_from_utf8"]}
{"id": "C36", "title": "UTF-8 decoding always advances and stays in the string", "statement": "For every byte string s and position 0<=i<N(s), decode_from_utf8(s,i) reads only bytes of s and leaves i' with i<i'<=min(N(s),i+4); a decoded multi-byte code point is taken from bytes that are really in the string.", "quantifier": "all byte strings (including malformed and truncated UTF-8), all positions", "why_tests_cant": "Malformed inputs are unbounded; progress is what makes every caller loop terminate.", "anchors": ["lolly/data/unicode.cpp: decode_from_utf8"]}
{"id": "C37", "title": "CJK and unicode range classification", "statement": "unicode_get_range(c) names the block containing c; is_cjk_unified_ideographs(\"<#XXXX>\") holds iff the hexadecimal code lies in 4E00..9FBF, for codes of any number of digits.", "quantifier": "all code points and all hexadecimal spellings", "why_tests_cant": "String comparison of hexadecimal digits agrees with numeric order only for equal lengths; all spellings are needed.", "anchors": ["lolly/data/unicode.cpp: unicode_get_range, is_cjk_unified_ideographs, has_cjk_unified_ideographs"]}
{"id": "C38", "title": "readers advance within the string", "statement": "read(s,i,t), read_int, read_double, read_line, read_word, skip_spaces, skip_whitespace, skip_line and skip_symbol never move i backwards nor beyond N(s), advance exactly over what they report (read_int: the maximal signed digit run denotes the result; read_double: sign, decimal number, optional exponent; read_line: up to and including the first newline), and leave i unchanged when they return false, except read_line, which returns false together with the unterminated last line.", "quantifier": "all strings and positions 0<=i<=N(s)", "why_tests_cant": "All strings and positions, including those at the end.", "anchors": ["Kernel/Types/analyze.cpp: read, read_int, read_double, read_line, read_word, skip_spaces, skip_whitespace, skip_line, skip_symbol"]}
{"id": "C39", "title": "binary parsing is big-endian and bounded", "statement": "parse(s,pos,x) for 8, 16 and 32-bit types reads 1, 2 or 4 bytes big-endian at pos with the right sign and advances pos by that amount; parsing the big-endian bytes of any value returns that value.", "quantifier": "all byte strings, all positions with enough bytes, all values", "why_tests_cant": "All values including the sign boundaries.", "anchors": ["Kernel/Types/analyze.cpp: parse (QI, QN, HI, HN, SI)"]}
{"id": "C40", "title": "parse_string is a pushback reader", "statement": "A parse_string behaves as one flat string: read and get_char consume from the front, write puts back at the front, get_string(n) returns the first n characters, test(t) holds iff the rest starts with t; the stack of pieces is not observable except through the boolean conversion.", "quantifier": "every history of read/write/get operations", "why_tests_cant": "Unbounded histories of pushbacks.", "anchors": ["Kernel/Types/parse_string.cpp: read, write, advance, get_char, get_string, test, operator bool"]}
{"id": "C41", "title": "indexed search finds exactly the occurrences", "statement": "For string_searcher S built on text s and any pattern with 1<=N(what)<=N(s), search_all returns exactly the positions where what occurs, in increasing order, and search_next returns the first one after the given position.", "quantifier": "all texts and patterns, whatever hash collisions occur", "why_tests_cant": "The index uses a 32-bit hash of power-of-two blocks; no collision may add or lose an occurrence.", "anchors": ["Data/String/fast_search.cpp: string_searcher_rep, fast_hash, hash_combine, search_all, search_next"]}
{"id": "C42", "title": "indexed search with a long pattern", "statement": "Searching for a pattern longer than the text returns no occurrence.", "quantifier": "all texts and all patterns longer than the text", "why_tests_cant": "The failing lookups are out-of-bounds reads that may go unnoticed in a test.", "anchors": ["Data/String/fast_search.cpp: search_sub, search_all"]}
{"id": "C43", "title": "longest common substring", "statement": "get_longest_common(s1,s2,b1,e1,b2,e2) returns ranges of equal length with s1(b1,e1) == s2(b2,e2), and no common substring is longer.", "quantifier": "all pairs of strings", "why_tests_cant": "Optimality over all pairs of positions, under a pruning rule.", "anchors": ["Data/String/fast_search.cpp: get_longest_common"]}
{"id": "C44", "title": "string_u16 keeps its contents and capacity", "statement": "For any history of construct, resize, reserve and expand_or_shrink_by, every access is inside the allocated block, the first min(old,new) elements are kept, N is as requested and no block is lost or freed twice.", "quantifier": "every history of operations", "why_tests_cant": "Unbounded histories; leaks are invisible to value tests.", "anchors": ["lolly/data/string_u16.cpp: resize, reserve, expand_or_shrink_by, round_length"]}
{"id": "C45", "title": "lolly_tree values", "statement": "copy(t) == t and shares no node with t; == is structural equality; t(i,j) and t1*t2 slice and concatenate children; t<<x appends a child; operations that need a compound tree do not interpret an atom as a compound node.", "quantifier": "all trees and indices", "why_tests_cant": "All trees; the union of atom and children makes wrong-case access undefined behaviour.", "anchors": ["lolly/data/lolly_tree.hpp: copy, operator==, operator(), operator*, operator<<, N, arity"]}
{"id": "C46", "title": "url concatenation is a normalised monoid", "statement": "url_here is a unit of * and url_none a zero of it for urls without a root; a right factor with a root absorbs the left one, except that a web server on the left keeps its host; multiplying two paths walks through the components of the second one starting from the first one, where '..' cancels the preceding name; the result does not depend on the bracketing unless the first path has a name followed by '..'; every url made by constructors and operators is right-nested with roots only at the far left; and * never indexes a missing component.", "quantifier": "all urls built by the constructors and operators", "why_tests_cant": "Algebraic laws over all url trees; the missing-component access needs a particular pair of roots.", "anchors": ["System/Classes/url.cpp: operator*, operator|, url_concat, url_or, is_rooted"]}
{"id": "C47", "title": "head and tail split a url", "statement": "For every path without '..', relative or below a root, tail(u) is its last component, head(u) is the path of the other components, and head(u)*tail(u) == u; for a path that consists of a single component head is '.' or the root.", "quantifier": "all urls", "why_tests_cant": "All url trees.", "anchors": ["System/Classes/url.cpp: head, tail"]}
{"id": "C48", "title": "url paths print and parse back", "statement": "For every relative, absolute or protocol-prefixed path made of non-empty names which do not contain '/', ':', '*' and do not start with '~' or '$', reading the printed path gives the path back; in particular as_string is injective on such paths. The same holds for a path with a wildcard component.", "quantifier": "all relative and absolute unix paths", "why_tests_cant": "Round trip over all paths.", "anchors": ["System/Classes/url.cpp: url_general, url_get_name, url_get_path, as_string (url, int)"]}
{"id": "C49", "title": "suffix and basename", "statement": "The suffix of a name is what follows its last dot (up to a '?', without the marks '~' and '#' of backup files at the end), provided that dot is neither the first nor the last character, else it is empty; it contains no '.' and no '?'. basename(u)*\".\"*suffix(u) recovers the name when suffix is non-empty, and a query after '?' does not matter. glue appends to the last name of a path and unglue removes the last n characters of it.", "quantifier": "all urls and suffixes", "why_tests_cant": "All names, including those with several or leading dots.", "anchors": ["System/Classes/url.cpp: suffix, basename, glue, unglue"]}
{"id": "C50", "title": "delta and relative are inverse", "statement": "relative(base, delta(base,u)) == u for paths base and u without '..', absolute or both relative, below any root or on any web site; delta returns.", "quantifier": "all pairs of absolute paths", "why_tests_cant": "All pairs of paths with any common prefix.", "anchors": ["System/Classes/url.cpp: delta, relative, delta_sub"]}
{"id": "C51", "title": "expand lists the alternatives in order", "statement": "expand(u) is a right-nested or of or-free urls that denote, in order, the alternatives of u; a component '...' stands for the directory before it and all directories above it, nearest first; sort puts the alternatives in increasing order, each once, and factor groups them so that at no level two alternatives begin with the same directory, both without changing the set of alternatives.", "quantifier": "all urls built from names, concatenation and or", "why_tests_cant": "All nestings of or and concat.", "anchors": ["System/Classes/url.cpp: expand, sort, factor, operator|"]}
{"id": "C52", "title": "allocator blocks never overlap", "statement": "For any history of fast_alloc, fast_free, fast_realloc, fast_new and fast_delete in which the client frees each block once with the size it was allocated with and writes only inside its blocks, live blocks are pairwise disjoint, 8-byte aligned, at least as large as requested, and keep what the client wrote until freed; fast_realloc keeps the first min(old,new) bytes.", "quantifier": "every history of well-behaved client operations with positive sizes", "why_tests_cant": "The free lists are threaded through client memory and reuse leftovers of chunks; only an invariant over all histories shows that nothing overlaps.", "anchors": ["System/Memory/impl/fast_alloc.cpp: enlarge_malloc, fast_alloc, fast_free, fast_realloc, fast_new, fast_delete"]}
{"id": "C53", "title": "zero-size allocation", "statement": "fast_free(fast_alloc(0),0) is harmless: it does not change the contents of any live block.", "quantifier": "every allocator state", "why_tests_cant": "The corruption appears only for particular states and a zero size.", "anchors": ["System/Memory/impl/fast_alloc.cpp: fast_alloc, fast_free, enlarge_malloc"]}
{"id": "C54", "title": "memory statistics return to the baseline", "statement": "mem_used() after freeing everything equals mem_used() before allocating.", "quantifier": "every history in which all blocks are freed", "why_tests_cant": "Accounting drift depends on sizes and on the realloc path.", "anchors": ["System/Memory/impl/fast_alloc.cpp: mem_used, compute_free, fast_alloc, fast_free, fast_realloc"]}
{"id": "C55", "title": "reference counting frees exactly at the last handle", "statement": "For any program that creates, copies, assigns (including self-assignment and assignment of a field of the object being released) and destroys handles to reference-counted objects whose fields are handles, no destroyed object is ever reached through a handle, no object is destroyed twice, and when the object graph is acyclic an object is destroyed exactly when the last handle to it disappears.", "quantifier": "every program over handles and every object graph", "why_tests_cant": "All sharing patterns and all orders of destruction, with cascades.", "anchors": ["Kernel/Abstractions/classdef.hpp: INC_COUNT, DEC_COUNT, CONCRETE_CODE, CONCRETE_NULL_CODE, operator="]}
{"id": "C56", "title": "blackbox is type safe", "statement": "open_box<T>(close_box<T>(x)) == x; opening with another type throws and never reinterprets the data; two boxes are equal iff both are nil or they hold equal values of the same type; equality is an equivalence.", "quantifier": "all types and values", "why_tests_cant": "All pairs of types.", "anchors": ["Kernel/Abstractions/blackbox.hpp: close_box, open_box, operator==, type_box", "Kernel/Abstractions/basic.cpp: new_type_identifier"]}
{"id": "C57", "title": "nested timers count outermost intervals", "statement": "For every well-nested history of timer_start and timer_cumul on any set of tasks, the accumulated time of a task is the sum of the lengths of its outermost intervals (modulo 2^32), the invocation count is their number, and tasks do not interfere; timer_reset forgets a task.", "quantifier": "every well-nested history and every monotone clock", "why_tests_cant": "Unbounded histories of nested intervals on several tasks.", "anchors": ["lolly/system/timer.cpp: timer_start, timer_cumul, timer_reset, bench_print"]}
{"id": "C58", "title": "buffered output is captured exactly and nests", "statement": "Between buffer() and the matching unbuffer() everything written (without NUL characters) is returned by unbuffer() in order and nothing reaches the underlying stream; after it the stream writes where it wrote before; nesting works to any depth and underlying streams are released exactly once.", "quantifier": "every well-nested history of buffer/write/unbuffer", "why_tests_cant": "Unbounded nesting and histories.", "anchors": ["System/IO/tm_ostream.cpp: buffer, unbuffer, redirect, buffered_ostream_rep, operator<<"]}
{"id": "C59", "title": "save then load", "statement": "If save_string(u,s) reports success, a following load_string(u,t) that reports success yields t == s; append_string extends the contents by exactly s; a failed load leaves the string unchanged; the boolean result is true iff the operation failed.", "quantifier": "all byte strings (including NUL and empty ones), all outcomes of the file operations", "why_tests_cant": "All contents and all failure points of the underlying calls.", "anchors": ["System/Files/file.cpp: load_string_try, save_string_try, append_string_try, cleanup_and_return_finally, append_to"]}
{"id": "C60", "title": "saving is atomic under a crash", "statement": "If the process dies at any point during save_string(u,s), the file holds either its old contents or s.", "quantifier": "every crash point and every old and new contents", "why_tests_cant": "Crash points between system calls cannot be scheduled by a unit test.", "anchors": ["System/Files/file.cpp: save_string_try"]}
{"id": "C61", "title": "captured process output is complete", "statement": "check_output(cmd,result,...) sets result to exactly the bytes the process wrote to the selected stream.", "quantifier": "every sequence of pipe read and wait results", "why_tests_cant": "Depends on how the kernel splits the output and on its length and contents.", "anchors": ["lolly/system/subprocess.cpp: check_output"]}
{"id": "C62", "title": "process input and output threads deliver all data", "statement": "evaluate_system writes every byte of each input string to its descriptor in order and then closes it, or reports failure; each output string is exactly what was read until end of file.", "quantifier": "every input string, every sequence of short writes, errors and reads", "why_tests_cant": "Partial writes and reads are scheduled by the kernel.", "anchors": ["Plugins/Unix/unix_sys_utils.cpp: _background_write_task, _background_read_task, _ts_string"]}
{"id": "C63", "title": "language and locale tables agree", "statement": "locale_to_language(language_to_locale(l)) == l for every supported language except \"american\" (which becomes english), every unknown language becomes english, and locale_to_language depends only on the first five characters of the locale.", "quantifier": "all strings", "why_tests_cant": "All strings, not only the table entries.", "anchors": ["System/Language/locale.cpp: locale_to_language, language_to_locale"]}
{"id": "C64", "title": "string_union and string_minus are set operations", "statement": "The characters of string_union(s1,s2) are those of s1 or s2, those of string_minus(s1,s2) are those of s1 not in s2 in their original order.", "quantifier": "all pairs of strings", "why_tests_cant": "All strings.", "anchors": ["Kernel/Types/analyze.cpp: string_union, string_minus"]}
{"id": "C65", "title": "legacy encodings round trip", "statement": "cork_to_il2 inverts il2_to_cork, spanish_to_ispanish inverts ispanish_to_spanish, and german_to_igerman inverts igerman_to_german on the strings over the alphabet of the source encoding that contain no escape sequence of the other.", "quantifier": "all byte strings over the respective alphabets", "why_tests_cant": "Per-byte tables lifted to all strings.", "anchors": ["Kernel/Types/analyze.cpp: il2_to_cork, cork_to_il2, ispanish_to_spanish, spanish_to_ispanish, igerman_to_german, german_to_igerman"]}
{"id": "C66", "title": "lookup of the first existing alternative", "statement": "load_string, save_string and append_string on a path with alternatives use the first alternative (in order) that is a regular file, and the last alternative if none is.", "quantifier": "all urls with any number of alternatives and all file systems", "why_tests_cant": "All numbers of alternatives and all states of the file system.", "anchors": ["System/Files/file.cpp: find_the_first_exist", "System/Classes/url.cpp: expand"]}
{"id": "C67", "title": "hashtree is a dictionary of key paths", "statement": "Setting the label at path p of a hashtree makes the label at p the new value and leaves the label at every other path unchanged; visiting a path with operator() never changes any label.", "quantifier": "every history of visits and label updates, all paths", "why_tests_cant": "Unbounded histories and paths.", "anchors": ["Kernel/Containers/hashtree.ipp: operator(), add_child, add_new_child, set_label, get_label, contains"]}
{"id": "C68", "title": "tuples compare and hash by components", "statement": "pair, triple, quartet, quintuple and sextuple are equal iff all components are equal, != is its negation, equal tuples have equal hashes, and tuples that differ in one component only, whose hashes differ there, have different hashes.", "quantifier": "all component values", "why_tests_cant": "All values.", "anchors": ["Kernel/Containers/ntuple.hpp: pair, triple, quartet, quintuple, operator==, operator!=, hash"]}
{"id": "C69", "title": "named resources are found by name", "statement": "After any history of creating and destroying named resources, looking a name up gives the live resource last created under that name, or nil when none was created since the last destruction of a resource of that name.", "quantifier": "every history of creations and destructions", "why_tests_cant": "Unbounded histories.", "anchors": ["Kernel/Abstractions/resource.hpp: rep, resource_ptr, RESOURCE, make"]}
{"id": "C70", "title": "equal scalar keys have equal hashes", "statement": "For every scalar type with a hash function (integers, floats, doubles, pointers), values that compare equal with == have equal hash codes, and computing the hash is defined for every value, so that the type can be the key of a hashmap or hashset.", "quantifier": "all values of the type", "why_tests_cant": "All bit patterns, including both zeros and NaN.", "anchors": ["Kernel/Abstractions/basic.hpp: hash", "Kernel/Abstractions/basic.cpp: hash (pointer)"]}
{"id": "C71", "title": "is_double accepts exactly the decimal floating-point literals", "statement": "is_double(s) holds exactly when s is an optional sign, digits with an optional fraction (at least one digit in all), and an optional exponent with its own sign and at least one digit.", "quantifier": "all byte strings", "why_tests_cant": "All strings; the failures are on unusual strings such as e5 or +-1.", "anchors": ["Kernel/Types/string.cpp: is_double"]}
{"id": "C72", "title": "is_id accepts exactly the identifiers", "statement": "is_id(s) holds exactly when s is nonempty, consists of letters, digits and underscores, and does not start with a digit.", "quantifier": "all byte strings", "why_tests_cant": "All strings, including bytes above 127.", "anchors": ["Kernel/Types/string.cpp: is_id"]}
{"id": "C73", "title": "footnote symbols number uniquely", "statement": "For n>=1, fnsymbol_nr(n) is one of six symbols taken in turn, repeated once more after every turn; different n give different strings; fnsymbol_nr(-n) is fnsymbol_nr(n).", "quantifier": "all int n except the smallest", "why_tests_cant": "Injectivity of an unbounded numbering whose codes have common prefixes.", "anchors": ["Kernel/Types/analyze.cpp: fnsymbol_nr"]}
{"id": "C74", "title": "text cleaning and Guile unescaping", "statement": "escape_verbatim turns tabs and newlines into spaces, drops every other control character and keeps the rest in order; dos_to_better removes exactly the carriage returns; unescape_guile replaces exactly the sequences backslash-x-two-hex-digits by their byte and doubles pairs of backslashes, leaves everything else alone, and never reads outside of its argument.", "quantifier": "all byte strings", "why_tests_cant": "Escape sequences may be cut at any position by the end of the string; all strings.", "anchors": ["Kernel/Types/analyze.cpp: escape_verbatim, dos_to_better, unescape_guile"]}
{"id": "C75", "title": "character classes of strings", "statement": "is_numeric, is_locase_alpha and is_alpha hold exactly for nonempty strings all of whose bytes are in the class; is_whitespace holds exactly for strings of blanks, tabs and newlines including the empty one; closing_delimiter maps only the three opening brackets.", "quantifier": "all byte strings", "why_tests_cant": "Bytes above 127 are negative chars; all strings.", "anchors": ["Kernel/Types/analyze.cpp: is_alpha, is_locase_alpha, is_numeric, is_whitespace, closing_delimiter"]}
{"id": "C76", "title": "finding the nearest non-letter", "statement": "find_non_alpha(s,pos,true) is the first position from pos on that holds no letter, find_non_alpha(s,pos,false) the last one before pos; -1 if there is none.", "quantifier": "all byte strings and positions 0<=pos<=N(s)", "why_tests_cant": "All strings and positions; off-by-one at both ends.", "anchors": ["Kernel/Types/analyze.cpp: find_non_alpha"]}
{"id": "C77", "title": "lengths split into number and unit", "statement": "parse_length splits a number without exponent followed by lower-case letters into exactly these two parts; every other string gives the unit error, except for the sign +- which is accepted, and strings whose part before the first lower-case letter is +, on which it reads outside of its argument.", "quantifier": "all byte strings", "why_tests_cant": "Exact acceptance over all strings.", "anchors": ["Kernel/Types/analyze.cpp: parse_length"]}
{"id": "C78", "title": "views: equality, order and slices", "statement": "For views (string_view, string_u16_view) == holds exactly for the same elements in the same order, != is its negation, < is the lexicographic order of the elements (a proper prefix comes first), <= is < or ==, exactly one of a<b, a==b, b<a holds, and v(b,e) shows exactly the existing elements with index from b to e, for all b and e.", "quantifier": "all pairs of views over an ordered element type; all int b, e", "why_tests_cant": "All sequences; tests see a few literals, and the order of chars above 127 depends on their sign.", "anchors": ["lolly/data/string_view.hpp: operators", "lolly/data/string_u16.cpp"]}
{"id": "C79", "title": "following a link on a web site stays on the host", "statement": "If u is a page below http://host (or another web protocol) and r is a relative path, then u*r is a page below the same host: the host is never dropped by '..' components, however many there are.", "quantifier": "all hosts, all pages, all relative paths", "why_tests_cant": "All depths and all paths; the host is an ordinary first component of the path, so nothing but the algorithm keeps it in place.", "anchors": ["System/Classes/url.cpp: operator*, url_concat"]}
{"id": "C80", "title": "descends is the prefix relation of paths", "statement": "descends(u, base) holds exactly if the components of base are the first components of u (for relative paths, and for paths below the same root); a url with alternatives descends exactly if each alternative does, from one of the alternatives of base.", "quantifier": "all pairs of paths", "why_tests_cant": "All depths and all pairs; tests see a few literals, none of them a sibling with a common name prefix.", "anchors": ["System/Classes/url.cpp: descends"]}
{"id": "C81", "title": "loading changes one variable", "statement": "load_string(u,s) changes no string variable other than s: a copy of s made before the call still holds what it held.", "quantifier": "all contents of files and strings, every answer of the system", "why_tests_cant": "Needs every way of sharing a string and every file.", "anchors": ["System/Files/file.cpp: load_string_try", "Kernel/Types/string.hpp: string"]}
{"id": "C82", "title": "placeholders for descriptors", "statement": "In the arguments of evaluate_system, $$i becomes the number of the descriptor on which input i can be read if fd_in[i] is negative, other arguments reach the process unchanged, and the array of the caller is not changed.", "quantifier": "all lists of inputs and all arguments", "why_tests_cant": "Descriptor numbers and indices of any number of digits.", "anchors": ["Plugins/Unix/unix_sys_utils.cpp: unix_system"]}
{"id": "C83", "title": "make_dir makes all directories on the way", "statement": "After make_dir(u) for a local path, u and every directory above it exist and nothing else was changed, provided no other kind of file is in the way (then nothing is changed); the call returns for every url.", "quantifier": "all paths of any depth, all states of the file system, all urls", "why_tests_cant": "All depths and all states of what exists already; whether the recursion ends depends on the head of every url.", "anchors": ["System/Files/file.cpp: make_dir, mkdir", "System/Classes/url.cpp: head"]}
{"id": "C84", "title": "mkdir, rmdir and remove act on exactly the alternatives", "statement": "mkdir, rmdir and remove of u1|u2|... call the system once for each local path among the alternatives (equal neighbours counting once), in order, with the text of the path, and for nothing else: not for web urls, roots, wildcards or the empty url.", "quantifier": "all lists of alternatives", "why_tests_cant": "All lists and mixtures of alternatives; a test can only look at what it expected to vanish.", "anchors": ["System/Files/file.cpp: mkdir, rmdir, remove"]}
{"id": "C85", "title": "subdirectories lists the directories below", "statement": "subdirectories(u) is the alternative of exactly the directories reachable from u through directories whose names do not begin with a dot, each once, each before those in it, in the order of the system's listings; it is the empty url if u is no directory.", "quantifier": "all finite directory trees and names", "why_tests_cant": "All trees and names; names are read back as urls, which tests with plain letters never notice.", "anchors": ["System/Files/file.cpp: subdirectories, read_directory"]}
{"id": "C86", "title": "file_size and last_modified tell the truth", "statement": "file_size is the number of bytes of a file and -1 exactly if it does not exist or is not local; last_modified is the time of the last change; is_newer(a,b) holds exactly if both exist and a was changed later, and is a strict order.", "quantifier": "all sizes and times that a file system can report", "why_tests_cant": "Sizes and times of 64 bits; no test creates a file of four gigabytes.", "anchors": ["System/Files/file.cpp: file_size, last_modified, is_newer"]}
{"id": "C87", "title": "is_of_type is the conjunction of its letters", "statement": "is_of_type(u, filter) holds for a local path exactly if filter is empty, or u exists and passes the test of each of the letters f, d, l, r, w, x in filter; it agrees with is_directory, is_regular and is_symbolic_link; other letters are ignored; urls of the web never pass and those of the ram disc always do.", "quantifier": "all filters, all states of the file system, all urls", "why_tests_cant": "All strings of letters and all answers of the system.", "anchors": ["System/Files/file.cpp: is_of_type, is_directory, is_regular, is_symbolic_link"]}
{"id": "C88", "title": "temporary files are new", "statement": "url_temp returns a path in the temporary directory, made from the first identifier for which no file exists, with the suffix after a dot; the path never names an existing file.", "quantifier": "all states of the file system and all sequences of identifiers", "why_tests_cant": "Collisions of identifiers do not occur in tests.", "anchors": ["System/Files/file.cpp: url_temp"]}
{"id": "C89", "title": "loops over iterators see each element once", "statement": "for (T x : iterate(c)) over a hash map or hash set runs exactly once for each key or element present and ends without throwing; *it may be read any number of times without moving the iterator, and ++it moves it to the next element.", "quantifier": "all maps and sets after any history", "why_tests_cant": "All histories, sizes and distributions over buckets; empty buckets at the ends are where the iterator can go wrong.", "anchors": ["Kernel/Containers/iterator.hpp: begin, end, operators", "Kernel/Containers/iterator.ipp: current, increase, spool"]}
{"id": "C90", "title": "a map may be changed while iterating over it", "statement": "A loop over iterate(h) that assigns new values to the keys it visits, or removes them, visits each key present at the start exactly once, and at the end each key has its new value or is gone.", "quantifier": "all maps after any history, all functions on values, all sets of keys to remove", "why_tests_cant": "Whether the table is reorganised during the loop depends on sizes; tests remove one key or none.", "anchors": ["Kernel/Containers/iterator.ipp: spool, next", "Kernel/Containers/hashmap.ipp: bracket_rw, reset, resize"]}
{"id": "C91", "title": "printing shows each element once", "statement": "Printing a hash map, hash set, list, array or iterator writes its elements (pairs k->v for maps) each exactly once, in order for lists and arrays, separated by ', ' between brackets, with no separator at the end.", "quantifier": "all containers and all element texts", "why_tests_cant": "All sizes and histories; a wrong count of separators shows only if the size field and the buckets disagree.", "anchors": ["Kernel/Containers/hashmap.ipp, hashset.ipp, list.ipp, array.ipp, iterator.ipp: operator<<"]}
{"id": "C92", "title": "a new process has exactly its descriptors", "statement": "A process started by evaluate_system finds input i on the descriptor asked for (or on the number put in place of $$i) and writes output j to the descriptor asked for; it holds no other end of any of these pipes, so that both sides see the end of the data, and all its other descriptors are those of the caller.", "quantifier": "all lists of inputs and outputs, all numbers of descriptors", "why_tests_cant": "Depends on which numbers the system gives to pipes, that is on what the caller has open; a test always runs with the same ones.", "anchors": ["Plugins/Unix/unix_sys_utils.cpp: unix_system", "Plugins/Unix/unix_sys_utils.cpp: _pipe_t, _file_actions_t"]}
{"id": "C93", "title": "running a process leaves the descriptors of the caller alone", "statement": "After evaluate_system every descriptor of the caller is as it would be had it not been called, in whatever way the process and the threads end.", "quantifier": "all interleavings with opening and closing of files by other threads", "why_tests_cant": "All interleavings; a descriptor that is closed twice harms only if another thread opens a file in between.", "anchors": ["Plugins/Unix/unix_sys_utils.cpp: unix_system", "Plugins/Unix/unix_sys_utils.cpp: ~_pipe_t, _background_read_task, _background_write_task"]}
{"id": "C94", "title": "running a process does not block for ever", "statement": "Whatever the sizes of inputs and outputs and the order in which the process reads and writes, evaluate_system returns if the program ends when it is run alone on the same inputs.", "quantifier": "all programs, all inputs, all capacities of pipes from 4096 on, all interleavings", "why_tests_cant": "All programs and schedules; a deadlock shows only for data larger than the pipes, in certain orders.", "anchors": ["Plugins/Unix/unix_sys_utils.cpp: unix_system"]}
{"id": "C95", "title": "the outputs of a process do not depend on the schedule", "statement": "The strings filled by evaluate_system are what the program writes when it is run alone on the same inputs, and its answer is the exit status of the program.", "quantifier": "all programs, all inputs, all interleavings and partial reads", "why_tests_cant": "All interleavings and all sizes of partial reads.", "anchors": ["Plugins/Unix/unix_sys_utils.cpp: unix_system"]}
{"id": "C96", "title": "indentation of output", "statement": "INDENT and UNINDENT sent to a stream change its indentation by two columns, LF starts a new line with that indentation, and HRULE draws a line up to column 78 whatever the indentation; what one stream shows does not depend on what was sent to another.", "quantifier": "all sequences of controls and texts on all streams", "why_tests_cant": "All sequences; the indentation is a global variable.", "anchors": ["Kernel/Abstractions/basic.cpp: operator<< (tm_ostream&, display_control)"]}
{"id": "C97", "title": "complete lines are visible", "statement": "As soon as a line that was printed to a standard stream is complete it has been given to the system, in whatever pieces it was printed; flush gives everything; after an error nothing more is printed.", "quantifier": "all sequences of texts, all points at which the buffer is emptied, all failures", "why_tests_cant": "Depends on when the C library empties its buffer.", "anchors": ["System/IO/tm_ostream.cpp: std_ostream_rep::write, flush, operator<<"]}
{"id": "C98", "title": "elements of arrays live once", "statement": "While an array lives its elements are constructed objects that have not been destroyed, no two of them the same; a change of length keeps those that stay; and at the end of its life every element that was ever constructed has been destroyed exactly once.", "quantifier": "all sequences of lengths, all sizes of elements", "why_tests_cant": "All sequences; an element that is never destroyed shows only as a leak.", "anchors": ["System/Memory/fast_alloc.hpp: tm_new_array, tm_resize_array, tm_delete_array", "Kernel/Containers/array.ipp: array_rep::array_rep, resize", "Kernel/Containers/array.hpp: ~array_rep"]}
{"id": "C99", "title": "digests of files", "statement": "md5_hexdigest, sha224_hexdigest and sha256_hexdigest of a local file are the MD5, SHA-224 and SHA-256 digests of its contents as lower-case hexadecimal digits; the result is empty exactly if the file cannot be read completely.", "quantifier": "all contents of files, all answers of the system", "why_tests_cant": "All contents; tests see a handful of files. What happens on partial reads and failures of the system is never tested.", "anchors": ["lolly/hash/md5.cpp: md5_hexdigest", "lolly/hash/sha.cpp: sha_hexdigest, sha224_hexdigest, sha256_hexdigest"]}
{"id": "C100", "title": "digests leave nothing behind", "statement": "After md5_hexdigest or sha_hexdigest no file is open that was not open before, and no memory stays allocated that nothing refers to.", "quantifier": "all files, all answers of the system", "why_tests_cant": "A file that stays open shows only after about a thousand calls.", "anchors": ["lolly/hash/md5.cpp: md5_hexdigest", "lolly/hash/sha.cpp: sha_hexdigest"]}
{"id": "C101", "title": "answers to requests can be read", "statement": "The result of http_get has one child for each of the labels STATUS_CODE, TEXT, URL, ELAPSED and HEADER, with that label, and its value is what the server sent (names of the header in lower case); http_response_set changes one child only; a copy of a result equals it and holds the same values, and results with different values differ.", "quantifier": "all answers of servers", "why_tests_cant": "All answers; tests ask one server. Values hide behind type identifiers and are lost silently.", "anchors": ["lolly/io/http.cpp: http_response_init, response_to_tree", "lolly/io/http.hpp: http_response_ref, http_response_set", "lolly/data/lolly_tree.hpp: copy, operator=="]}
{"id": "C102", "title": "requests say what was asked for", "statement": "http_get(u, headers) sends one request for the text of u whose header has exactly the lines of the map, with the user agent of the map.", "quantifier": "all urls and all maps after any history", "why_tests_cant": "All maps; which of two colliding lines is sent depends on the order of the buckets.", "anchors": ["lolly/io/http.cpp: as_cpr_header, http_get, http_head"]}
{"id": "C103", "title": "downloads write what arrived", "statement": "download(from, to, headers) makes the file `to` have exactly the contents that arrived, changes no other file, and changes nothing if nothing arrived.", "quantifier": "all contents, all states of the file system, all failures", "why_tests_cant": "All failures; tests have no server that breaks off.", "anchors": ["lolly/io/http.cpp: download"]}
{"id": "C104", "title": "host and path of a uri", "statement": "uri_host and uri_path of a url read from protocol://host/path are host and /path; the host of a url of the protocol file is empty, and the path of protocol://host is empty.", "quantifier": "all protocols, hosts and paths", "why_tests_cant": "All depths of paths and all protocols.", "anchors": ["lolly/data/uri.cpp: uri_host, uri_path"]}
{"id": "C105", "title": "lists of paths", "statement": "A list of paths separated by colons is read as its entries in order, as alternatives; empty entries are left out and equal neighbours count once; and alternatives print as a list that reads back as the same alternatives.", "quantifier": "all lists of paths", "why_tests_cant": "All lists of all lengths.", "anchors": ["System/Classes/url.cpp: url_get_path, url_general, as_string, operator|"]}
{"id": "C106", "title": "home directories and variables in urls", "statement": "At the beginning of the url of a file ~ stands for the home directory and $X for the directory that is the value of the variable X; a variable that is not set gives the url that stands for no file; on the web ~ and $ have no special meaning and the url prints as it was written.", "quantifier": "all environments, all names", "why_tests_cant": "Depends on the environment; tests have one.", "anchors": ["System/Classes/url.cpp: url_get_atom, url_get_name, url_general"]}
{"id": "C107", "title": "roots of urls", "statement": "reroot changes the protocol of an absolute url and nothing else, unroot leaves the path below the root, both leave relative urls as they are and work on each alternative; putting the old root back restores the url.", "quantifier": "all urls of paths and alternatives", "why_tests_cant": "All protocols, depths and alternatives.", "anchors": ["System/Classes/url.cpp: reroot, unroot, get_root"]}
{"id": "C108", "title": "environment variables", "statement": "get_env gives the value that was last set with set_env, values of other variables do not change, and a variable that is not set is empty.", "quantifier": "all variables, values and sequences of calls, also if calls of the system fail", "why_tests_cant": "All values (colons, NUL, empty ones) and histories; the test reads one variable.", "anchors": ["System/Misc/sys_utils.cpp: get_env, set_env"]}
{"id": "C109", "title": "shared libraries", "statement": "load_shared_library gives the library that is loaded under the name, or loads the file; if this fails nothing stays registered or open; a name finds exactly what is loaded under it; and the files that are open are those of the libraries that are loaded.", "quantifier": "all sequences of loads and unloads, all failures", "why_tests_cant": "Sequences of loads, failures and unloads; a handle that stays open is invisible.", "anchors": ["lolly/system/shared_lib.cpp: shared_lib_rep::shared_lib_rep, ~shared_lib_rep, load_shared_library", "Kernel/Abstractions/resource.hpp: rep, make"]}
{"id": "C110", "title": "results of evaluate_system", "statement": "evaluate_system gives the exit status of the process as a number followed by what it wrote to each of the descriptors asked for, in their order, under every schedule.", "quantifier": "all programs, inputs and schedules", "why_tests_cant": "Depends on the schedule of process and threads.", "anchors": ["System/Misc/sys_utils.cpp: evaluate_system", "Plugins/Unix/unix_sys_utils.cpp: unix_system"]}
{"id": "C111", "title": "life of tree nodes", "statement": "When the last handle of a lolly_tree disappears, its nodes, arrays and strings that nothing else uses are destroyed, each exactly once, and nothing that is still used is destroyed or touched afterwards.", "quantifier": "all programs that make, copy, assign and drop trees, arrays and strings; all shapes and operators", "why_tests_cant": "Sharing and the order of destruction range over all programs; leaks and accesses to destroyed objects do not show in the results that tests compare.", "anchors": ["lolly/data/lolly_tree.hpp: lolly_tree, lolly_tree_rep, ~lolly_tree_rep", "Kernel/Abstractions/classdef.hpp: CONCRETE_TEMPLATE_CODE"]}
{"id": "C112", "title": "moving and copying files, and the current directory", "statement": "move(u,v) and copy(u,v) act on files of this computer only: afterwards v has the contents that u had, u is gone after move and unchanged after copy, no other file changes, and loading v gives those contents. Urls that are no single local file are refused, and a failure of the system is reported. chdir(u) changes to the directory u, or throws.", "quantifier": "all file systems, all paths, urls of the web, alternatives, all answers of the system", "why_tests_cant": "What happens to other files, with urls of the web or alternatives, and when calls of the system fail is out of reach of tests on one temporary directory; move and copy have no tests.", "anchors": ["System/Files/file.cpp: move, copy, chdir"]}
{"id": "C113", "title": "the directory of temporary files", "statement": "url_temp_dir gives a directory that exists and that belongs to this process alone, the same one at each call.", "quantifier": "all file systems and what other programs do to them between calls, all process numbers", "why_tests_cant": "Needs other programs that change the file system, and processes that fork.", "anchors": ["System/Files/file.cpp: url_temp_dir, url_temp_dir_sub"]}
{"id": "C114", "title": "UTF-16 and UTF-8", "statement": "utf8_to_utf16 and utf16_to_utf8 turn every text of unicode characters in one encoding into the same text in the other (UTF-16 with the most significant byte first), wchar_to_utf8 does so up to the terminating zero; both together give back the text; of invalid UTF-16 the valid part is converted; and no byte outside the buffers is touched.", "quantifier": "all texts of all lengths, all characters with and without surrogate pairs", "why_tests_cant": "All texts; whether the buffers are large enough depends on the worst ratio of the two encodings; tests convert three characters.", "anchors": ["lolly/data/unicode.cpp: utf16_to_utf8, wchar_to_utf8, utf8_to_utf16"]}
{"id": "C115", "title": "values in trees", "statement": "A leaf that is made from an integer, a truth value or a string gives it back; is_int, is_double and is_bool accept exactly the leaves whose string is such a value, and as_int and as_bool convert what they accept; a tree with an operator is no value; every tree is exactly one of atomic, compound and generic; and != is the negation of ==.", "quantifier": "all trees, strings and integers", "why_tests_cant": "All trees and all strings; the tests use a few leaves.", "anchors": ["lolly/data/lolly_tree.hpp: is_compound, is_generic, operator!=, is_func, is_bool, is_int, is_double, is_string, as_bool, as_int, as_long_int"]}
{"id": "C116", "title": "processes on Windows", "statement": "win_system gives the exit status of the program and appends to each output string exactly what the program writes to that descriptor if each input is given to it as a file, for every order in which caller, process and threads move; it returns whenever the program alone would end; and a program that cannot be started gives an error.", "quantifier": "all programs, inputs, sizes of pipes and schedules", "why_tests_cant": "Depends on the schedule of the process and the threads and on how much pipes hold; tests run one program with short inputs.", "anchors": ["Plugins/Windows/win_sys_utils.cpp: win_system", "Plugins/Windows/spawn.cpp: bkgread, spawn_system::spawn_system, spawn_system::wait, Channel::wait"]}
{"id": "C117", "title": "paths on Windows", "statement": "url_system reads d:\\a\\b as the path a, b on the drive d, \\\\h\\a as the path a on the computer h, and a\\b as a relative path, with \\ or / between the names; as_string prints them with \\ and what it prints is read as the same url; the parent of a file is its directory, the top of a drive is its own parent, and no path leads from one drive to another.", "quantifier": "all drives, names and depths", "why_tests_cant": "All names and depths, and another operating system than the one that the tests run on.", "anchors": ["System/Classes/url.cpp: url_system, url_default, url_get_name, url_get_atom, is_semi_root, operator*, as_string, head"]}
{"id": "C118", "title": "entries of a directory", "statement": "read_directory(u, error_flag) gives the names of all entries of the directory u, in the order of the system, and clears the flag; if u is no directory of this computer, it gives nothing and sets the flag.", "quantifier": "all directories and names of entries", "why_tests_cant": "All names of files; tests look at one directory of the source tree. The names are found by reading paths as urls.", "anchors": ["System/Files/file.cpp: read_directory, tb_directory_walk_func"]}
{"id": "C119", "title": "descriptors on Windows", "statement": "A process that win_system starts has its end of the pipe of each input and output under the number that was asked for, and nothing of the other ends; while it runs and afterwards the caller has the descriptors that it had before, and no number is closed that is not open.", "quantifier": "all numbers, all tables of open descriptors, all numbers that the system gives, all failures", "why_tests_cant": "Depends on what else is open; descriptors that stay open or are redirected for good do not show in the output that tests compare.", "anchors": ["Plugins/Windows/spawn.cpp: Channel::Init, redirect, closeUnused, restore, close, ~Channel, spawn_system::spawn_system", "Plugins/Windows/win_sys_utils.cpp: win_system"]}
{"id": "C120", "title": "lists of paths on Windows", "statement": "On Windows url_system reads a list of paths with ; between them as the alternatives that its entries stand for, in order and without the empty entries; as_string prints alternatives of paths as such a list, and what it prints is read as the same alternatives.", "quantifier": "all lists of any length, all entries", "why_tests_cant": "All lists, and another operating system than the one that the tests run on.", "anchors": ["System/Classes/url.cpp: url_system, url_get_path, heuristic_is_path, operator|, as_string"]}
{"id": "C121", "title": "home and variables on Windows", "statement": "In paths on Windows ~ at the beginning stands for the directory that the variable HOME names, and $V for the directory that the variable V names, whether their values end with a separator or not; if V is not set the url stands for no file.", "quantifier": "all variables, values that are paths on a drive, and names", "why_tests_cant": "All values of variables, and another operating system than the one that the tests run on.", "anchors": ["System/Classes/url.cpp: url_system, url_get_atom, unblank, url_get_name"]}
{"id": "C122", "title": "addresses and file urls on Windows", "statement": "On Windows url_system reads http, https and ftp addresses, and texts that begin with www. or ftp., as their protocol and the names between the slashes; it reads file:///d:/a as the path on the drive d, file://h/a as the path on the computer h and local:a as the file a; as_string prints them so that the same url is read again.", "quantifier": "all names and depths", "why_tests_cant": "All names and depths, and another operating system than the one that the tests run on.", "anchors": ["System/Classes/url.cpp: url_system, url_get_name, url_get_atom, as_string", "System/Classes/url.cpp: file_url, http_url, https_url, ftp_url"]}
{"id": "C123", "title": "absolute urls stay absolute", "statement": "is_rooted(u), is_rooted(u,p) and is_rooted_web(u) tell whether every alternative of u begins with a root, a root of the protocol p, a root of the web; u * v has the same roots as u for every relative v, however many .. it has, and is relative if u and v are; an absolute v, and alternatives of absolute urls, replace u.", "quantifier": "all urls with any alternatives", "why_tests_cant": "All nestings of paths and alternatives and any number of ..; tests try a few paths.", "anchors": ["System/Classes/url.cpp: is_rooted, is_rooted_web, is_name, is_rooted_name, is_ramdisc, operator*, operator|"]}
{"id": "C124", "title": "rounding to the nearest integer", "statement": "tm_round(x) is the integer nearest to x, the greater one for x half way between two integers; as_int(x) is this integer whenever it is an int; rounding keeps the order and leaves integers alone.", "quantifier": "all doubles", "why_tests_cant": "2^64 doubles; the sum inside is rounded itself, so that errors hide in single numbers next to a half and among large ones.", "anchors": ["Kernel/Abstractions/basic.hpp: as_int (double), tm_round"]}
{"id": "C125", "title": "the language on Windows", "statement": "On Windows get_locale_language gives the language of the library that the user has set for Windows, the same as the locale of this language gives on Linux; variants of a language other than british do not matter; an unknown language is english; and all calls give the same.", "quantifier": "all language identifiers, all changes of the setting between calls", "why_tests_cant": "65536 identifiers, on another operating system than the one the tests run on.", "anchors": ["System/Language/locale.cpp: windows_locale_to_language, get_locale_language"]}
{"id": "C126", "title": "names of the user", "statement": "get_user_login gives the login name of the user that runs the program and get_user_name the full name, without what follows it in the data base of users, for every user; on Windows the display name in UTF-8, of any length.", "quantifier": "all users and entries of the data base, all display names", "why_tests_cant": "Tests know the one user that runs them; uninitialised memory happens to be right in most runs.", "anchors": ["System/Misc/sys_utils.cpp: get_user_login, get_user_name", "Plugins/Unix/unix_sys_utils.cpp: unix_get_login, unix_get_username", "Plugins/Windows/win_sys_utils.cpp: win_get_username"]}
{"id": "C127", "title": "placeholders in arguments on Windows", "statement": "win_system replaces $$i in the arguments by the descriptor, and $%i by the handle, of the pipe of input i if its number is -1, leaves everything else in the arguments alone, and does not change the arguments of the caller.", "quantifier": "all arguments, numbers of inputs, descriptors and handles", "why_tests_cant": "All arguments and numbers of inputs, on another operating system than the one that the tests run on.", "anchors": ["Plugins/Windows/win_sys_utils.cpp: win_system"]}
{"id": "C128", "title": "files by name", "statement": "file_url(name).concretize() is the name of the file that name stands for: the same path for an absolute path, with the home directory in the place of ~, and an error if a variable at the beginning is not set; url(dir, name), url_unix and url_standard with a directory give the url of dir/name, or of name if it is absolute; url_pwd gives the directory that the system says.", "quantifier": "all paths of any depth, all environments", "why_tests_cant": "All names and depths; tests try a few short paths.", "anchors": ["System/Classes/file_url.cpp: file_url, file_url::concretize, url_unix", "System/Classes/url.cpp: url::url, url_system, url_standard, url_pwd"]}
{"id": "C129", "title": "doubles as decimal text", "statement": "as_string(x) and << write the six-digit decimal nearest to the double x; the order of doubles is kept, is_double accepts the text, integers below a million are written like ints, and an exponent is written exactly below a ten thousandth and from a million on. as_double(s) is the double nearest to the number that the decimal literal s stands for, and white space before it does not matter. Decimals of up to six digits survive reading and writing, and as_double(as_string(x)) is written like x again.", "quantifier": "all doubles and all decimal literals", "why_tests_cant": "2^64 doubles and all literals; rounding errors and changes of the layout occur at single values.", "anchors": ["Kernel/Types/string.cpp: as_string (double), as_double", "System/IO/tm_ostream.cpp: operator<< (float), operator<< (double)"]}
{"id": "C130", "title": "values written to streams appear in full and in order", "statement": "Writing an integer of any built-in type to a stream writes its decimal notation, without superfluous zeros and the same for every type that holds it; booleans are written as words, characters and C strings as themselves up to a NUL, floats and doubles as as_string gives them. No value makes the fixed buffers overflow. When values are written one after the other between buffer() and unbuffer(), unbuffer() returns their texts in order, is_int accepts the texts of integers, as_int (as_long_int) reads back those of absolute value below 2^31 (2^63), and integers each followed by a character that is no digit and no minus sign can be told apart from the text alone.", "quantifier": "all values of all integer types (with long of 32 or 64 bits), booleans, characters, C strings, floats and doubles; all sequences of values; all states of the streams of a program", "why_tests_cant": "There are 2^64 values of some types, and the buffers are large enough only if the longest text over all values fits.", "anchors": ["System/IO/tm_ostream.cpp:218-325", "System/IO/tm_ostream.cpp:191-205"]}
{"id": "C131", "title": "call runs the words of a command once", "statement": "lolly::system::call (cmd) runs one program: the first word that the shell's expansion makes of the command, with all the words as arguments, so that plain words put together with blanks arrive as they are. It gives the status of the program; 0 is given only if a program was run and ended with status 0. A blank command, or one that cannot be expanded, runs nothing, and the result tells so; everything allocated for the words is given back.", "quantifier": "all commands and all answers of wordexp and of the process", "why_tests_cant": "The expansion and the status come from the system; a test tries a few commands of one machine.", "anchors": ["lolly/system/subprocess.cpp:25-53"]}
{"id": "C132", "title": "arguments of main on Windows", "statement": "While an object lolly::system::args made from argc and argv lives, argc is the number of arguments of the command line, argv[i] is the i-th argument in UTF-8 and argv[argc] is null; if the system does not give the arguments, argc is 0 and argv[0] is null. When it is destroyed argc and argv are what they were before, and all memory used is given back.", "quantifier": "all command lines, including empty arguments, and all characters; all values of argc and argv before", "why_tests_cant": "The command line of a test run is fixed, and the code exists only on Windows.", "anchors": ["lolly/system/args.cpp:31-58", "lolly/system/args.hpp:18-47"]}
{"id": "C133", "title": "blocks of the jemalloc and mimalloc variants of the allocator", "statement": "With the jemalloc or mimalloc variant of the allocator, any sequence of fast_alloc, fast_free, fast_realloc, fast_new, fast_delete and writes to the bytes of live blocks that is right for the default allocator is right as well, with the same blocks and contents; blocks of no bytes may also be asked for and freed. Live blocks have the sizes asked for, are aligned to eight bytes and do not overlap, what was written can be read, fast_realloc keeps the common part, and when everything has been freed no memory is held. With jemalloc, and with mimalloc once lolly is initialised, none of the functions returns NULL.", "quantifier": "all histories of operations and all answers of the library", "why_tests_cant": "A test tries some histories with one variant on one machine; the variants are never compared.", "anchors": ["System/Memory/impl/je_malloc.cpp:23-66", "System/Memory/impl/mi_malloc.cpp:23-46", "System/Memory/impl/mi_malloc.cpp:74-102"]}
{"id": "C134", "title": "cork_to_il2 keeps the letters", "statement": "cork_to_il2 leaves plain ASCII alone, and writes every letter of a text in the Cork encoding with the code that the same letter has in ISO 8859-2, or, if an accented letter has none, as the letter without its accent. The length is kept, no control characters are made of letters, and two texts over the characters that both encodings have are never made equal.", "quantifier": "all byte strings", "why_tests_cant": "The test suite does not call the function; a wrong entry in a table of 128 octal escapes is seen only with a text that has the letter.", "anchors": ["Kernel/Types/analyze.cpp:328-370"]}
{"id": "C135", "title": "urls that are printed alike are equal", "statement": "If as_string prints two urls alike then the urls are equal: the braces put around alternatives, wildcards and rooted urls inside of paths and lists always show how the url is built.", "quantifier": "all urls built of names, wildcards, roots, concatenations and alternatives to any depth", "why_tests_cant": "There are infinitely many urls, and missing braces confuse only particular pairs of them.", "anchors": ["System/Classes/url.cpp:728-803", "System/Classes/url.cpp:705-721"]}
{"id": "C136", "title": "nodes of hashtrees are shared through handles", "statement": "A handle to a node of a hashtree keeps standing for that node: whatever is done to it (labels set, children made by operator() or put in place with add_child, also below several nodes or in a circle) is seen through every other handle to it and nowhere else; contains and N of a node tell exactly the keys that have been visited or linked.", "quantifier": "every program that makes nodes, visits, links and labels them, all keys and labels", "why_tests_cant": "Sharing and cycles give unboundedly many shapes of graphs.", "anchors": ["Kernel/Containers/hashtree.ipp: operator(), add_child, add_new_child, contains, N, set_label", "Kernel/Containers/hashtree.hpp"]}
{"id": "C137", "title": "hash codes are computed without overflow", "statement": "The hash code of a string, of a string of 16-bit characters and of an array is computed without a signed overflow, for any contents, and is the value of the mixing formula with all results reduced to 32 bits.", "quantifier": "all strings of bytes, all strings of 16-bit characters, all sequences of hash codes of elements", "why_tests_cant": "The overflow happens only for a few contents out of millions, and usually shows no effect until a compiler makes use of it.", "anchors": ["Kernel/Types/string.cpp:185-194", "lolly/data/string_u16.hpp:102-110", "Kernel/Containers/array.ipp:203-210"]}
{"id": "C138", "title": "guards around blocks report overwritten memory", "statement": "In a debugging build, giving back an object or an array whose surroundings were not overwritten reports nothing, destroys every element once and gives back exactly the memory that was got; if bytes right before or right behind it were overwritten, this is reported and nothing worse happens.", "quantifier": "all sizes, all numbers of elements, all contents, all bytes that were overwritten", "why_tests_cant": "Which bytes are overwritten, and with what, are unboundedly many cases; the guards miss only a few of them.", "anchors": ["System/Memory/fast_alloc.hpp:363-404", "System/Memory/impl/fast_alloc.cpp:139-226"]}
{"id": "C139", "title": "measured times are the real ones up to a millisecond", "statement": "raw_time is the number of whole milliseconds since 1970, and texmacs_time that since the start of the program; differences of two readings, and the sums of timers made of them, are less than a millisecond per interval away from the time that has passed on the clock, and do not decrease while the clock does not. get_sec_time and get_usec_time read one after the other give a time between the two readings.", "quantifier": "all times of the clock (of more than a hundred thousand years), all sequences of readings, all nested uses of timers", "why_tests_cant": "A test sees a few readings of a real clock; errors of the second kind happen only when a second begins between two calls.", "anchors": ["System/Classes/tm_timer.cpp:22-51", "lolly/system/timer.cpp:30-47"]}
{"id": "C140", "title": "failed checks are reported and reach one handler", "statement": "If a check of lolly fails (ASSERT, TM_FAILED), nothing more of the block is run, cout gets a report with the message, and the innermost handler for strings gets exactly that message; each failure reaches one handler, in order, or ends the program. the_exception holds the message of the last failure until handle_exceptions is called, which displays and clears it, so a program that calls it after each handler has nothing pending at the end.", "quantifier": "all programs of prints, indentations, checks, nested blocks with handlers (which may fail themselves) and calls of handle_exceptions; all messages", "why_tests_cant": "Nesting of blocks and failures in handlers give unboundedly many orders of events.", "anchors": ["Kernel/Abstractions/basic.cpp:21-46", "Kernel/Abstractions/basic.hpp:50-94"]}
{"id": "C141", "title": "stack traces show the innermost frames", "statement": "get_stacktrace (n) gives a title and then one line for each of the innermost n frames above the caller, in order, with the name of the function; from the text the frames can be read back.", "quantifier": "all stacks, all names (also missing ones), all limits", "why_tests_cant": "The stack of a test is fixed, and names depend on the compiler.", "anchors": ["System/Misc/sys_utils.cpp:174-216"]}
{"id": "C142", "title": "objects made by tm_new live once and their memory comes back", "statement": "Every object made by tm_new, and every element of an array made by tm_new_array, is constructed once and destroyed at most once, elements in the opposite order, and its memory is given back after that and not before; objects never share memory; after everything that was made was deleted, mem_used is what it was at the start. This holds whatever constructors, destructors and handlers of exceptions do.", "quantifier": "all programs of nested constructions, deletions, exceptions and handlers, all sizes and numbers of elements", "why_tests_cant": "A test runs one nesting, and rarely lets a constructor throw.", "anchors": ["System/Memory/fast_alloc.hpp:57-361", "System/Memory/fast_alloc.hpp:405-443", "System/Memory/impl/fast_alloc.cpp:139-226"]}
{"id": "C143", "title": "strong_equal compares items, and items written through lists", "statement": "strong_equal (l, m) is true exactly if l and m have the same items in the same order, as its documentation says; l[i]= x makes x item i of l, changes that item in every list that runs through the same node and nothing else, and throws for an index outside the list; is_atom holds exactly for lists of one item.", "quantifier": "every heap of list nodes, every sharing pattern, all indices", "why_tests_cant": "Lists share nodes in arbitrary ways; whether equal items suffice depends on how the lists were made.", "anchors": ["Kernel/Containers/list.hpp: strong_equal, is_atom, operator[]", "Kernel/Containers/list.ipp: strong_equal, operator[]"]}
{"id": "C144", "title": "references to values of hash maps stay valid", "statement": "A reference to the value of a key given by h(x) stays valid as long as the key is in the map: reading it gives h[x], writing it changes h[x] and nothing else, whatever keys are looked up, assigned, added or removed in between.", "quantifier": "all programs before and after taking the reference, all keys, values and table sizes, every hash function", "why_tests_cant": "Whether a reference is left dangling depends on the size of the table at the moment a key is added or removed, and a dangling reference often still seems to work.", "anchors": ["Kernel/Containers/hashmap.hpp: operator()", "Kernel/Containers/hashmap.ipp: bracket_rw, reset, resize"]}
{"id": "C145", "title": "references to elements of arrays and loops over arrays", "statement": "A reference to a[i] stays valid as long as a has an element i: it is a[i] for reading and writing, whatever elements are written, appended or dropped in between. A loop for (T x : a) visits the elements a has at its start, each once and in order, with the values they have when they are visited, whatever its body does to a; elements appended meanwhile are not visited, and neither are elements that were dropped.", "quantifier": "all arrays, all histories before the reference is taken or the loop starts, all sequences of operations made by the body of the loop", "why_tests_cant": "Whether the block of the array moves depends on the lengths it has in between; memory that was freed often still holds the old elements.", "anchors": ["Kernel/Containers/array.hpp:161-164", "Kernel/Containers/array.ipp:20-55", "Kernel/Containers/array.ipp:132-148"]}
{"id": "C146", "title": "threads that use the library at the same time", "statement": "Threads may use strings, arrays and other containers at the same time, even common ones: no object to which some thread has a handle is destroyed, all others are; no block of memory belongs to two threads, and no block is lost.", "quantifier": "any number of threads, all programs of copying and dropping handles and of allocating, freeing and writing blocks, every schedule of the single accesses to memory", "why_tests_cant": "The wrong schedules are rare and cannot be provoked by a test.", "anchors": ["Kernel/Abstractions/classdef.hpp:74-75", "Kernel/Abstractions/classdef.hpp:84-89", "System/Memory/impl/fast_alloc.cpp:75-111"]}
{"id": "C147", "title": "lists of any length", "statement": "Every list that can be made can also be copied, compared, searched, indexed, appended to, concatenated and destroyed, whatever its length, with the stack of an ordinary program.", "quantifier": "all lengths and sizes of the stack, every sharing of nodes", "why_tests_cant": "The lists of tests are short; how long a list may be depends on the stack.", "anchors": ["Kernel/Containers/list.ipp:35-61", "Kernel/Containers/list.ipp:87-143", "Kernel/Containers/list.ipp:162-227", "Kernel/Abstractions/classdef.hpp:112-118"]}
{"id": "C148", "title": "smallest and largest of several numbers", "statement": "min and max of several numbers, combined in any order and grouping, give the smallest and the largest of them; the order does not matter.", "quantifier": "all integers, all doubles (zeros of both signs, infinities, NaNs), all ways of nesting the calls", "why_tests_cant": "There are 2^128 pairs of doubles and unboundedly many nestings; special values are rarely tested.", "anchors": ["Kernel/Abstractions/minmax.hpp:27-94"]}
{"id": "C149", "title": "the cost of growing and shrinking", "statement": "Adding or removing an item at the end of an array or string, or in a hash map, takes constant time on average, apart from searching: m such operations, starting from nothing, move, allocate and free at most a constant times m cells in total, and so does making an array, string or hash map of n items one by one.", "quantifier": "all sequences of operations, all lengths, all element types and hash functions", "why_tests_cant": "A test measures some sequences on one machine; the worst ones are those that cross a capacity again and again.", "anchors": ["Kernel/Containers/array.ipp:20-55", "Kernel/Containers/array.ipp:132-138", "Kernel/Types/string.cpp:24-54", "Kernel/Containers/hashmap.ipp:47-63", "Kernel/Containers/hashmap.ipp:81-120"]}
{"id": "C150", "title": "sorting with any comparison", "statement": "Whatever the comparison given to merge_sort answers (also answers that contradict each other, that depend on earlier calls, or an exception), merge_sort comes to an end, and afterwards the array has the same elements as before, each as often, in some order; if the comparison throws, the exception reaches the caller and the same holds. For n elements with 2^(k-1) < n <= 2^k the comparison is called at most n k - 2^k + 1 times. With a second array that goes along, the elements that stood at the same place still do; if the lengths differ nothing changes. With a comparison without effects the result is the sorted array.", "quantifier": "all arrays, all comparisons with their own state, all points at which they may throw", "why_tests_cant": "A test uses a few comparisons that are orders; one that lies or throws in the middle of a merge is rarely tried.", "anchors": ["Kernel/Algorithms/merge_sort.hpp:21-115"]}
{"id": "C151", "title": "deep trees and trees that share parts", "statement": "A tree can be copied, compared and destroyed whatever its depth, with the stack of an ordinary program, and copying and comparing take time and memory in proportion to the number of nodes of the trees, also if they occur at several places of a tree.", "quantifier": "all trees, all depths, all ways in which parts are shared, all sizes of the stack", "why_tests_cant": "Tests use small trees; that a tree made by forty calls cannot be copied, or a deep one not destroyed, appears only with particular shapes.", "anchors": ["lolly/data/lolly_tree.hpp:152-159", "lolly/data/lolly_tree.hpp:245-259", "lolly/data/lolly_tree.hpp:387-398", "Kernel/Abstractions/classdef.hpp:84-89", "Kernel/Containers/array.ipp:98-116"]}
{"id": "C152", "title": "values of hash maps that are changed in place", "statement": "In a hash map whose values are strings or arrays, changing the value of one key in place, h(k) << x, changes what h[k] gives and nothing else: not what another key gives, not the default, no variable that a value was read into or stored from, and not a copy of the map. In the same way appending to such a variable does not change the map.", "quantifier": "all programs of assigning, copying, appending, reading, storing and resetting, with any number of variables and keys, every hash function", "why_tests_cant": "A test that appends to one key and looks at this key is right; the wrong values appear at keys that were not touched, and only after certain orders of operations.", "anchors": ["Kernel/Containers/hashmap.ipp:81-105", "Kernel/Containers/hashmap_extra.ipp: copy", "Kernel/Abstractions/classdef.hpp:137-176", "Kernel/Types/string.cpp:130-153", "Kernel/Containers/array.ipp:132-148"]}
{"id": "C153", "title": "keys of hash maps whose variables are changed", "statement": "A string or array that was stored as key in a hash map is found with its value until it is reset, and the map enumerates exactly the keys stored and not reset, each once, whatever happens to the variables they were given by.", "quantifier": "all programs of assigning, copying, appending, storing and resetting, with any number of variables, every hash function", "why_tests_cant": "Tests rarely change a variable after it was used as key, and whether the entry is found depends on hash codes and the size of the table.", "anchors": ["Kernel/Containers/hashmap.ipp:47-120", "Kernel/Abstractions/classdef.hpp:137-176", "Kernel/Types/string.cpp:130-153"]}
{"id": "C154", "title": "copies of strings, arrays and trees", "statement": "After v= copy (w) the variable v shows what w shows. Whatever is then done to v and to parts taken from it (appending to strings and labels, appending and assigning children and elements), w and all other variables show what they did before; and whatever is done to them, v shows what w showed when it was copied.", "quantifier": "all programs of making, passing on, taking apart, changing and copying strings, arrays and trees, with any number of variables", "why_tests_cant": "A wrong copy shows the right content at once; that it has a part in common with the original is seen only when exactly this part is changed later.", "anchors": ["lolly/data/lolly_tree.hpp:387-398", "Kernel/Containers/array.hpp:176-180", "Kernel/Containers/array.ipp:57-62", "Kernel/Types/string.cpp:130-137", "Kernel/Abstractions/classdef.hpp:137-176"]}
{"id": "C155", "title": "changing strings that functions return", "statement": "A string that a function returned can be changed: after v= f (...), where f is upcase_first, locase_first, remove_prefix, remove_suffix, raw_unquote of strings, or as_string, protocol, suffix, basename of urls, v << x changes no other string variable and no url, and whatever is done to them does not change v.", "quantifier": "all programs of calling these functions, appending, and making urls from new strings, given strings and parts of other urls, with any number of variables", "why_tests_cant": "Whether the result is a new string depends on what the argument is: a test with an argument for which the function has something to do sees nothing wrong, and a test of the result alone neither.", "anchors": ["Kernel/Types/analyze.cpp:114-124", "Kernel/Types/analyze.cpp:167-179", "Kernel/Types/analyze.cpp:425-430", "System/Classes/url.cpp:65-88", "System/Classes/url.cpp:369-418", "System/Classes/url.cpp:728-803", "Kernel/Abstractions/classdef.hpp:137-176"]}
{"id": "C156", "title": "cost of collecting the output of commands", "statement": "When a command is run and its output collected, the number of characters copied in memory is at most a constant times the length of the output.", "quantifier": "all sequences of reads, of any sizes and number, up to the end of the output or an error", "why_tests_cant": "Tests of commands have outputs of a few lines, which are collected by one read; the cost shows for long outputs, and as time only.", "anchors": ["Plugins/Unix/unix_sys_utils.cpp:62-93", "Plugins/Unix/unix_sys_utils.cpp:137-154", "Plugins/Unix/unix_sys_utils.cpp:276-280"]}
{"id": "C157", "title": "cost of printing urls", "statement": "When a url is printed by as_string, the number of characters copied by concatenations is at most a constant times the length of the text.", "quantifier": "all urls, of any depth and any names", "why_tests_cant": "Urls in tests have a few components; the cost shows for long paths and lists of paths, and as time only.", "anchors": ["System/Classes/url.cpp:728-803", "Kernel/Types/string.cpp:155-164"]}
{"id": "C158", "title": "is_writable tells whether output has arrived", "statement": "As long as is_writable() is true for the streams on a file, everything that was written to them has arrived in the file, in the order in which it was written, and nothing else; it becomes false only after printing to the file has failed, for all handles of the stream, and then it stays false and nothing more is written.", "quantifier": "every history of making, copying, assigning, redirecting, buffering, unbuffering, writing and destroying streams, every pattern of failures of the C library", "why_tests_cant": "Failures of the C library cannot be made at will, and histories with shared handles are unbounded.", "anchors": ["System/IO/tm_ostream.cpp: is_writable, std_ostream_rep::write, std_ostream_rep, buffered_ostream_rep"]}
{"id": "C159", "title": "cost of finding keys", "statement": "Finding a key in a hashmap takes a number of comparisons that does not depend on the number of keys.", "quantifier": "all programs, all keys, all sizes of maps", "why_tests_cant": "Tests use a handful of keys; how many entries are looked at shows only in the time, and only for certain sets of keys.", "anchors": ["Kernel/Containers/hashmap.ipp: contains, bracket_rw, bracket_ro, reset", "Kernel/Abstractions/basic.hpp: hash", "Kernel/Types/string.cpp: hash"]}
{"id": "C160", "title": "running a process does not endanger the caller", "statement": "Whatever a process does with its inputs, and whatever fails while it is started, evaluate_system returns to the caller; then its threads have ended, the process has been waited for, its memory is freed and its pipes are closed; and it reports a failure if no process was started.", "quantifier": "all programs, inputs and schedules, all patterns of failing system calls", "why_tests_cant": "Failures of system calls cannot be made at will in tests; the signal is raised only for certain schedules or long inputs, and threads that run on after a return do harm only later.", "anchors": ["Plugins/Unix/unix_sys_utils.cpp: unix_system, _pipe_t, _background_write_task"]}
{"id": "C161", "title": "objects called through handles", "statement": "Calling a promise or a unary_function evaluates the object to which the handle refers; this object lives until its evaluation returns, whatever the evaluation does with handles, and every object is destroyed exactly once, as soon as no handle refers to it. Destructors may use handles, and a handle made from a null pointer is the null handle.", "quantifier": "all classes of promises and functions, all programs that make, copy, clear and call handles, nested to any depth", "why_tests_cant": "The methods are written by the user and may do anything with the handles; a destroyed object often still works.", "anchors": ["Kernel/Containers/promise.hpp: operator()", "Kernel/Containers/unary_function.hpp: operator()", "Kernel/Abstractions/classdef.hpp: ABSTRACT_NULL_TEMPLATE_CODE, CONCRETE_NULL_TEMPLATE_CODE, DEC_COUNT_NULL"]}
{"id": "C162", "title": "cost of searching and matching in strings", "statement": "Searching a string (search_forwards, search_backwards, contains, occurs, count_occurrences), replace and tokenize compare at most (N(in)+1)*(N(what)+1) characters, and match_wildcard(s,w) makes at most (N(s)+1)*(N(w)+1) steps.", "quantifier": "all strings, patterns and positions", "why_tests_cant": "Bounds on the cost for all inputs; the bad inputs are rare and tests are short.", "anchors": ["Kernel/Types/analyze.cpp: test, search_forwards, search_backwards, count_occurrences, replace, tokenize, match_wildcard"]}
{"id": "C163", "title": "values written by several threads to streams of their own", "statement": "When every thread writes numbers and characters with << to a stream of its own, every stream receives exactly the texts of the values written by its thread, in order, and no memory outside the buffers is accessed.", "quantifier": "any number of threads, all sequences of values of the built-in types, every schedule of the single accesses to memory", "why_tests_cant": "The wrong schedules are rare and cannot be provoked by a test.", "anchors": ["System/IO/tm_ostream.cpp:225-319"]}
{"id": "C164", "title": "cost of building lists and of going through them", "statement": "A list of n items can be built with l << x, or with x >> l and reverse, and gone through from node to node or with N and l[i], in a number of steps proportional to n.", "quantifier": "all lists of any length and all items", "why_tests_cant": "Bounds on the cost for all lengths; tests use short lists.", "anchors": ["Kernel/Containers/list.ipp: operator<<, operator>>, operator[], N, reverse"]}
{"id": "C165", "title": "functions used by global objects before and after main", "statement": "The constructors and destructors of a program's own global objects may use the functions of the library as main does, in whatever order the linker arranges the initialisation: numerals, conversions of encodings, timers, output to cout and cerr, resources, processes, temporary files and languages.", "quantifier": "all programs with any number of global objects, all orders of initialisation, all sequences of calls in constructors, destructors and main", "why_tests_cant": "The order of initialisation is fixed by the build of the test program; a test exercises one order, and usually only calls made by main.", "anchors": ["lolly/data/numeral.cpp:18-29", "Kernel/Types/analyze.cpp:320-338", "lolly/system/timer.cpp:22-25", "System/IO/tm_ostream.cpp:340-344", "Kernel/Abstractions/basic.cpp:22-23", "Kernel/Abstractions/resource.hpp:37", "System/Files/file.cpp: url_temp_dir, url_temp_dir_sub", "System/Language/locale.cpp: windows_locale_to_language"]}
{"id": "C166", "title": "views of literals, arrays and std::string, and back", "statement": "A view made from a literal, from an array that holds a text with a NUL at its end, or from a std::basic_string shows exactly the characters of the text; such views can be compared and cut into parts, again and again, like views of strings; and converting a view to std::basic_string gives back the characters that it shows.", "quantifier": "all texts of any length over any element type, all parts of parts", "why_tests_cant": "The lengths of all texts; tests use short literals, for which the conversion of the length to int and the end of the array do not matter.", "anchors": ["lolly/data/string_view.hpp:30-66", "lolly/data/string_view.hpp: comparison operators"]}
{"id": "C167", "title": "how long a view of a string may be used", "statement": "A view of a string, and every part of it, may be used as long as the string exists, and it shows the characters that the string has when the view is read.", "quantifier": "all programs that make strings, views and parts of views, and assign characters to, append to, resize and destroy the strings, in any order", "why_tests_cant": "After the string has changed, reading freed memory often gives the old characters; the programs and lengths are unbounded.", "anchors": ["Kernel/Types/string.hpp:57-59", "Kernel/Types/string.cpp:38-54", "lolly/data/string_view.hpp:57-66"]}
{"id": "C168", "title": "searchers whose text is changed", "statement": "A string_searcher made from a string gives the places at which the pattern is in this string, also after the string was changed, through the variable it was made from, through another variable that shares the string, or through the string that get_string returned.", "quantifier": "all programs that make, share, copy and change strings and make searchers from them, in any order; all patterns", "why_tests_cant": "The string and the searcher are changed and used in different places; whether an answer is wrong depends on where the change was, and an access outside the table often goes unnoticed.", "anchors": ["Data/String/fast_search.cpp:46-118", "Data/String/fast_search.hpp:20-39", "Kernel/Abstractions/classdef.hpp:137-176"]}
{"id": "C169", "title": "hash maps changed while they are gone through by their own functions", "statement": "Calling join, pre_patch, post_patch or write_back of a hash map with the map itself as argument gives what the same call gives with a copy of the map; and the routine given to generate may change or remove the entry of the key it is called with: it is called exactly once for each key that was present.", "quantifier": "all maps made by any sequence of calls, all hash functions, all bases and patches, all choices of the entries that are changed or removed", "why_tests_cant": "Whether a loop misses entries or leaves the table depends on the sizes at which tables shrink and on the distribution of the keys; small examples are right, and reading outside the table often goes unnoticed.", "anchors": ["Kernel/Containers/hashmap.ipp: generate, join, reset, resize", "Kernel/Containers/hashmap_extra.ipp: write_back, pre_patch, post_patch"]}
{"id": "C170", "title": "C strings with automatic memory", "statement": "A c_string made from a string can be given to functions of C, which read the characters of the string from it; its copies share one buffer; the buffer and the pointers made from it are good as long as a copy exists, and the buffer is freed exactly once, with the last copy.", "quantifier": "all programs that make, copy, assign, convert, write to and destroy C strings, in any order; all texts", "why_tests_cant": "A freed buffer usually still holds the text; leaks and double frees depend on the order in which copies are assigned and destroyed.", "anchors": ["Kernel/Types/string.hpp:103-131", "Kernel/Types/string.cpp: as_charp", "Kernel/Abstractions/classdef.hpp: CONCRETE_CODE, INC_COUNT, DEC_COUNT"]}
{"id": "C171", "title": "what a string searcher costs", "statement": "Making a string_searcher for a text of n characters takes a time, and holds a number of positions, proportional to n log n; search_all and search_next then take a time proportional to the length of the pattern times the number of its occurrences, however long the text is; get_longest_common takes a time proportional to the product of the lengths of the two texts (times a logarithm).", "quantifier": "all texts, patterns and positions of any length", "why_tests_cant": "Only growth in all sizes shows the difference; tests use short texts, and typical texts do not show the worst case.", "anchors": ["Data/String/fast_search.cpp:46-68", "Data/String/fast_search.cpp:79-118", "Data/String/fast_search.cpp:124-166"]}
{"id": "C172", "title": "very long strings and arrays", "statement": "Strings and arrays can be built by the constructors, resize, <<, * and copy up to the greatest length that an int can hold, memory permitting, and then contain what was put into them; a C text of any length can be made a string.", "quantifier": "all programs of string commands, all array commands and all calls on 16 bit strings, all lengths of 32 bit integers", "why_tests_cant": "A test would need texts of more than a gigabyte, and a loop that does not end looks like a slow test.", "anchors": ["Kernel/Types/string.cpp:24-79, 139-164", "Kernel/Containers/array.ipp:20-55, 132-148", "lolly/data/string_u16.cpp:16-82"]}
{"id": "C173", "title": "positions that are any int", "statement": "The functions that test, read, skip and search from a position in a string can be given any int as position: from 0 up to the end they do what they are described to do and no computation with the position overflows; beyond the end there is nothing to be read, the answer is false, -1 or the empty string and the position is left as it is; in front of the beginning nothing is read either.", "quantifier": "all strings of up to 2^30 characters, all patterns and all positions of type int", "why_tests_cant": "Tests use positions inside the string; a read next to the string usually finds harmless memory, and an overflow needs a position near the greatest int.", "anchors": ["Kernel/Types/analyze.cpp:541-563", "Kernel/Types/analyze.cpp:588-729", "Kernel/Types/analyze.cpp:810-867", "Kernel/Types/analyze.cpp:934-945"]}
{"id": "C174", "title": "hash maps with keys whose functions throw", "statement": "If hash or == of a key throws an exception during a call of a hash map, the exception reaches the caller at once and the map is as it was before that call; a call that returns did what it does without exceptions. Whatever was thrown before, the map can be used on: a key that is found has the value it was given last. A routine given to generate that throws was called for the keys before and none after.", "quantifier": "all histories of a map with calls that return and calls that throw, any choice of the calls of functions of keys that throw, all keys, values and hash functions", "why_tests_cant": "Tests use strings and numbers as keys, whose functions do not throw; what is left of a map depends on which of the many calls throws.", "anchors": ["Kernel/Containers/hashmap.ipp:47-63", "Kernel/Containers/hashmap.ipp:65-74", "Kernel/Containers/hashmap.ipp:81-94", "Kernel/Containers/hashmap.ipp:96-105", "Kernel/Containers/hashmap.ipp:107-120", "Kernel/Containers/hashmap.ipp:122-132"]}
{"id": "C175", "title": "arrays of elements whose functions throw", "statement": "If the constructor or the assignment of an element throws an exception while an array is made, lengthened or filled, the exception reaches the caller at once; the array is as it was before the call, its elements can still be read, and it can be changed further and destroyed. A call that returns did what it does without exceptions.", "quantifier": "all histories of an array with calls that return and calls that throw, any choice of the calls of functions of elements that throw, all lengths and elements", "why_tests_cant": "Tests use elements that do not throw; freed memory usually still holds the old elements, so that the damage is not seen.", "anchors": ["Kernel/Containers/array.ipp:30-33", "Kernel/Containers/array.ipp:35-55", "Kernel/Containers/array.ipp:132-148", "Kernel/Containers/array.hpp:73-75", "System/Memory/fast_alloc.hpp:406-443"]}
{"id": "C176", "title": "hash sets of elements whose functions throw", "statement": "If the hash function or the comparison of elements throws an exception while an element of a hash set is looked for, inserted or removed, the exception reaches the caller at once and the set is as it was before the call: the same elements are found, N is their number and comparisons with other sets answer as before. The set can be used further, and a call that returns did what it does without exceptions.", "quantifier": "all histories of a hash set with calls that return and calls that throw, any choice of the calls of functions of elements that throw, all elements and hash functions", "why_tests_cant": "Tests use elements whose functions do not throw; that elements get lost depends on which of the calls made while the table is rebuilt throws.", "anchors": ["Kernel/Containers/hashset.ipp:16-33", "Kernel/Containers/hashset.ipp:35-49", "Kernel/Containers/hashset.ipp:51-59", "Kernel/Containers/hashset.ipp:61-74", "Kernel/Containers/hashset.ipp:87-110"]}
{"id": "C177", "title": "doubles as text whatever the locale", "statement": "The text that as_string and the streams write for a double, and the double that as_double reads from a text, do not depend on the locale the program has set: a number written in one locale is read in any other as it is in the locale C, is_double accepts it, and no buffer is overrun.", "quantifier": "all doubles, all texts, all decimal points of locales, of one or several bytes", "why_tests_cant": "Tests run in the locale C, where the decimal point is the one that the library expects; the question is about every pair of locales and every text.", "anchors": ["Kernel/Types/string.cpp:240-253", "Kernel/Types/string.cpp:302-308", "System/IO/tm_ostream.cpp:297-311"]}
{"id": "C178", "title": "merging changes when functions of keys throw", "statement": "If hash or == of a key throws while the changes of the upper layer of a relative hash map are merged into the layer below, the exception reaches the caller and nothing visible through the map has changed: every key has the value it had, the merge can be repeated, and the changes can still be discarded by shorten, which gives the layer below as it was.", "quantifier": "all layers, whatever calls on them threw before, any choice of the calls of functions of keys that throw, all keys, values and hash functions", "why_tests_cant": "Tests use keys whose functions do not throw; what is left of the two layers depends on which call throws and on whether the table below has to grow.", "anchors": ["Kernel/Containers/rel_hashmap.ipp:54-60", "Kernel/Containers/rel_hashmap.ipp:62-68", "Kernel/Containers/rel_hashmap.ipp:110-121"]}
{"id": "C179", "title": "sorting elements whose assignment throws", "statement": "If the assignment of an element throws an exception while merge_sort sorts an array, the exception reaches the caller at once, and the array has the same elements as before, each as often, in some order. A call that returns has sorted the array.", "quantifier": "all arrays, all comparisons, any choice of the assignments that throw", "why_tests_cant": "Tests sort numbers and strings, whose assignment does not throw; what is left depends on which of the assignments throws and on all the comparisons before it.", "anchors": ["Kernel/Algorithms/merge_sort.hpp:25-49", "Kernel/Algorithms/merge_sort.hpp:51-62"]}
{"id": "C180", "title": "remembered functions that use themselves", "statement": "A hashfunc answers every query with what its function gives for the argument, also if the function makes queries itself, throws exceptions and catches those of its queries; a program that uses it ends if and only if it does so without remembering, with the same result. The function is called at most once for each argument, and the same query always has the same answer, whatever variables the function depends on.", "quantifier": "all functions that make any queries, throw and catch exceptions and use variables of the program, all programs that use them, all hash functions", "why_tests_cant": "Tests remember functions that only compute; the nesting of queries, exceptions and calls is unbounded.", "anchors": ["Kernel/Containers/hashfunc.ipp:16-23", "Kernel/Containers/hashfunc.hpp:18-36"]}
{"id": "C181", "title": "lists of elements whose copying throws", "statement": "If copying an element throws an exception while a list is made from other ones by copy, *, head, reverse, remove, << or >>, the exception reaches the caller, all lists are as they were, all nodes and elements made so far are destroyed, and all memory taken is given back; if no copy throws, the list has the right items and no other list has lost any.", "quantifier": "all lists in memory, also with shared nodes, all patterns of copies that throw, both orders in which a compiler may evaluate the arguments", "why_tests_cant": "Tests use elements whose copies never throw; which copy throws, in which list and at which depth of recursion, is unbounded.", "anchors": ["Kernel/Containers/list.ipp:47-67, 162-189, 201-218", "Kernel/Containers/list.hpp:113-141", "System/Memory/fast_alloc.hpp:97-103"]}
{"id": "C182", "title": "sorting long arrays", "statement": "merge_sort sorts every array that can be made, however long, without an overflow of its int positions, and needs a stack only for as many nested calls as the number of elements has binary digits: at most 30.", "quantifier": "all arrays of at most 2^30 elements, all comparisons, all depths of the stack", "why_tests_cant": "Tests sort arrays of a few elements; the sums of positions overflow only for a billion elements.", "anchors": ["Kernel/Algorithms/merge_sort.hpp:25-62, 68-115"]}
{"id": "C183", "title": "sorting an array with a second handle of the same elements", "statement": "merge_sort_leq (a, b) sorts a also when the companion b shares its elements (array<T> b= a copies nothing): afterwards the elements are in order.", "quantifier": "all arrays, all comparisons", "why_tests_cant": "Tests sort with companions that have elements of their own, such as the positions 0, 1, 2, ...", "anchors": ["Kernel/Algorithms/merge_sort.hpp:68-115", "Kernel/Abstractions/classdef.hpp:215-218"]}
{"id": "C184", "title": "comparing output streams", "statement": "Two tm_ostream variables compare equal with == exactly if they are the same stream: what is written to one is written where the other writes. In particular a stream that was copied, passed by value or assigned is equal to the original.", "quantifier": "all programs with any number of streams, all variables", "why_tests_cant": "Tests compare at most a stream with itself; whether == agrees with what is written concerns all ways in which handles come to be shared.", "anchors": ["System/IO/tm_ostream.cpp:176-179"]}
{"id": "C185", "title": "making uuids", "statement": "lolly::hash::uuid_make () returns exactly the 36 characters that the generator has made, in a string of its own that later calls do not change, or throws if there are none; nothing outside its buffer is touched, whatever the memory of the buffer held before.", "quantifier": "all texts of the generator, all contents of the uninitialised buffer, all sequences of calls", "why_tests_cant": "A test sees one uuid and one state of the stack; a buffer that is one character too short mostly goes unnoticed.", "anchors": ["lolly/hash/uuid.cpp:19-27", "Kernel/Types/string.cpp:67-72"]}
{"id": "C186", "title": "leaving out what a layer of a relative hashmap does not change", "statement": "Comparing the innermost layer of a relative hashmap with the layers below (H->next->find_changes (H->item)) leaves in it exactly the keys whose values differ from those below; the layers below and everything that is read from or contained in the map stay the same.", "quantifier": "all relative hashmaps with at least two layers, all contents of the layers, all hash functions, all keys", "why_tests_cant": "A test compares a few keys of one map; a key whose value is the default, or a layer that is compared with itself, is not among them.", "anchors": ["Kernel/Containers/rel_hashmap.ipp:70-88", "Kernel/Containers/rel_hashmap.hpp:29-43"]}
