{
 "claims": [
  {
   "property": "C01",
   "status": "proved",
   "theorems": [
    "Pyincpp.C01_parse_literal",
    "Pyincpp.C01_parse_rejects",
    "Pyincpp.C01_print_canonical",
    "Pyincpp.C01_numeral_shape"
   ],
   "note": "All byte strings without NUL; Literal is an independent grammar."
  },
  {
   "property": "C02",
   "status": "proved",
   "theorems": [
    "Pyincpp.C02_print_parse",
    "Pyincpp.C02_stream_round_trip",
    "Pyincpp.C02_stream_word"
   ],
   "note": "Round trip through the text and through a stream positioned anywhere before white space or end of input."
  },
  {
   "property": "C03",
   "status": "proved",
   "theorems": [
    "Pyincpp.C03_add",
    "Pyincpp.C03_sub"
   ],
   "note": "Exact for all operands in the lenient memory mode (the access one past the end in operator-= adds 0 and is harmless). C04 says exactly when the standard calls it undefined."
  },
  {
   "property": "C04",
   "status": "partial",
   "theorems": [
    "Pyincpp.C04_fails",
    "Pyincpp.C04_sub_exact",
    "Pyincpp.C04_add_exact",
    "Pyincpp.C04_in_bounds_partial",
    "Pyincpp.C04_div_exact",
    "Pyincpp.C04_div_low",
    "Pyincpp.C04_div_dvd",
    "Pyincpp.C04_is_prime_exact",
    "Pyincpp.C04_next_prime_exact",
    "Pyincpp.C04_sqrt_exact",
    "Pyincpp.C04_gcd_exact",
    "Pyincpp.C04_pow_exact",
    "Pyincpp.C04_log_exact",
    "Pyincpp.C04_program_exact"
   ],
   "note": "False of the code: 10 - 10 accesses the element behind the last one. C04_sub_exact / C04_add_exact characterise it exactly, C04_div_exact does for / and %, and C04_is_prime_exact, C04_next_prime_exact, C04_sqrt_exact, C04_gcd_exact, C04_pow_exact and C04_log_exact for the functions that divide, C04_program_exact for whole programs; the _partial theorem lists the operations that stay in bounds."
  },
  {
   "property": "C05",
   "status": "partial",
   "theorems": [
    "Pyincpp.C05_add_self_value",
    "Pyincpp.C05_fails",
    "Pyincpp.C05_add_self_exact",
    "Pyincpp.C05_self_partial"
   ],
   "note": "False of the code for +=: 5 += 5 gives 20. C05_add_self_exact says exactly when it is right, C05_add_self_value what it gives otherwise; the other four operators are proved."
  },
  {
   "property": "C06",
   "status": "proved",
   "theorems": [
    "Pyincpp.C06_mul"
   ],
   "note": "Including absence of int overflow in the accumulators."
  },
  {
   "property": "C07",
   "status": "proved",
   "theorems": [
    "Pyincpp.C07_div",
    "Pyincpp.C07_div_zero"
   ],
   "note": "Lenient memory mode, see C03/C04."
  },
  {
   "property": "C08",
   "status": "partial",
   "theorems": [
    "Pyincpp.C08_fails",
    "Pyincpp.C08_mod_exact",
    "Pyincpp.C08_mod_small",
    "Pyincpp.C08_div_mod_partial",
    "Pyincpp.C08_identity_iff",
    "Pyincpp.C08_mod_zero"
   ],
   "note": "False of the code for negative dividends (-7 % 5 = 2). C08_mod_exact gives the exact value, C08_identity_iff exactly when the identity holds."
  },
  {
   "property": "C09",
   "status": "proved",
   "theorems": [
    "Pyincpp.C09_eq",
    "Pyincpp.C09_order"
   ],
   "note": ""
  },
  {
   "property": "C10",
   "status": "partial",
   "theorems": [
    "Pyincpp.C10_exact",
    "Pyincpp.C10_canonical",
    "Pyincpp.C10_history_partial",
    "Pyincpp.C10_equal_iff",
    "Pyincpp.C10_hash_value",
    "Pyincpp.C10_hash_sign"
   ],
   "note": "Canonical form after every program is proved without exception; the values agree with mathematics for programs without the three defective statements (x += x with a digit above 4, % with negative dividend, Int(INT_MIN)). C10_exact gives the final values of every program, defective statements included."
  },
  {
   "property": "C100",
   "status": "partial",
   "theorems": [
    "Pyincpp.C100_same",
    "Pyincpp.C100_cmp",
    "Pyincpp.C100_inc",
    "Pyincpp.C100_dec",
    "Pyincpp.C100_count_up_partial",
    "Pyincpp.C100_count_down_partial",
    "Pyincpp.C100_crement_not",
    "Pyincpp.C100_add",
    "Pyincpp.C100_sub",
    "Pyincpp.C100_mul",
    "Pyincpp.C100_div_partial",
    "Pyincpp.C100_mod_partial",
    "Pyincpp.C100_nine",
    "Pyincpp.C100_shift_not"
   ],
   "note": "C100_cmp, C100_add, C100_sub (linear), C100_mul (exact), C100_div_partial and C100_mod_partial: the subtractions are exactly the digit sum of the quotient, at most 9 per digit (C100_nine). C100_inc and C100_dec are exact. Counting up from zero and down to zero is constant on the average, with the exact totals (C100_count_up_partial, C100_count_down_partial). False: the shift of the divisor moves all its digits, which is not constant even on the average (C100_shift_not), and alternating ++ and -- at a power of ten is not constant on the average (C100_crement_not). C100_same: the counted functions are those of the model."
  },
  {
   "property": "C101",
   "status": "partial",
   "theorems": [
    "Pyincpp.C101_floor_div",
    "Pyincpp.C101_floor_div_not",
    "Pyincpp.C101_mod",
    "Pyincpp.C101_mod_not",
    "Pyincpp.C101_pow_mod",
    "Pyincpp.C101_isqrt",
    "Pyincpp.C101_literal",
    "Pyincpp.C101_literal_not",
    "Pyincpp.Frac.C101_fraction_mod"
   ],
   "note": "Exact conditions, against definitions of Python in Spec/Python.lean. / is // exactly without remainder or with operands of the same sign (C101_floor_div). % and pow with a modulus: C101_mod, C101_pow_mod. sqrt is math.isqrt unless it runs for ever (C101_isqrt). Int(s) accepts what int(s) accepts without underscores and white space (C101_literal). Fractions: C101_fraction_mod. Witnesses: C101_floor_div_not, C101_mod_not, C101_literal_not. gcd, lcm, factorial and pow without modulus agree by C20, C15, C17."
  },
  {
   "property": "C102",
   "status": "partial",
   "theorems": [
    "Pyincpp.C102_slice",
    "Pyincpp.C102_slice_not",
    "Pyincpp.C102_find",
    "Pyincpp.C102_find_not",
    "Pyincpp.C102_count",
    "Pyincpp.C102_replace",
    "Pyincpp.C102_split",
    "Pyincpp.C102_strip",
    "Pyincpp.C102_strip_not",
    "Pyincpp.C102_repeat",
    "Pyincpp.C102_format_partial",
    "Pyincpp.C102_format_not",
    "Pyincpp.C102_to_integer",
    "Pyincpp.C102_to_integer_not"
   ],
   "note": "count always agrees (C102_count). Slices agree whenever the code returns; it throws where Python moves a bound (C102_slice, C102_slice_not). find agrees or is undefined, exactly when (C102_find, C102_find_not). Exact conditions: C102_replace, C102_split (the default drops empty pieces), C102_strip, C102_repeat, C102_to_integer; letters are C30. Format strings with {} fields: C102_format_partial without doubled braces, C102_format_not; other fields of Python are not compared."
  },
  {
   "property": "C103",
   "status": "partial",
   "theorems": [
    "Pyincpp.C103_slice",
    "Pyincpp.C103_insert",
    "Pyincpp.C103_index",
    "Pyincpp.C103_repeat",
    "Pyincpp.C103_dict_update",
    "Pyincpp.C103_dict_construct",
    "Pyincpp.C103_dict_not",
    "Pyincpp.C103_dict_order",
    "Pyincpp.C103_popitem",
    "Pyincpp.C103_print_set"
   ],
   "note": "C103_slice, C103_insert, C103_index, C103_repeat: agreement within the bounds, outside they throw or are undefined, exactly when. Dictionaries keep the first value of a key, Python the last: C103_dict_construct, C103_dict_update, C103_dict_not. The order of iteration is that of Python exactly if the keys come in increasing order (C103_dict_order). pop takes the least key, popitem the last inserted (C103_popitem). A set is printed as in Python unless it is empty (C103_print_set). Operators of sets are C43, C44."
  },
  {
   "property": "C104",
   "status": "partial",
   "theorems": [
    "Pyincpp.C104_int",
    "Pyincpp.C104_int_float",
    "Pyincpp.C104_int_special",
    "Pyincpp.C104_int_not",
    "Pyincpp.C104_trip",
    "Pyincpp.C104_fraction_partial",
    "Pyincpp.C104_fraction_exact",
    "Pyincpp.C104_fraction_not",
    "Pyincpp.C104_int_of_fraction",
    "Pyincpp.C104_complex",
    "Pyincpp.C104_complex_not",
    "Pyincpp.C104_index",
    "Pyincpp.C104_index_not",
    "Pyincpp.C104_str_index_not",
    "Pyincpp.C104_repeat_not",
    "Pyincpp.C104_rotate_partial",
    "Pyincpp.C104_rotate_pow",
    "Pyincpp.C104_rotate_not"
   ],
   "note": "False of the code: everything is converted to int first. Int(v) is v exactly if INT_MIN < v <= INT_MAX, otherwise it is v modulo 2^32 or undefined (C104_int, C104_int_not: Int(3000000000) = -1294967296, Int(2.5) = 2); doubles lose their fraction and are undefined if too large (C104_int_float, C104_int_special). Int(x.to_integer<T>()) is x exactly up to INT_MAX (C104_trip). A fraction as an Int is its integer part, always (C104_int_of_fraction). Fractions: C104_fraction_exact, C104_fraction_partial, C104_fraction_not. Complex: exact precisely up to 53 significant bits (C104_complex, C104_complex_not). An index of type size_t beyond the end may read another element, exactly when (C104_index, C104_index_not, C104_str_index_not); counts and shifts are C104_repeat_not, C104_rotate_partial, C104_rotate_pow, C104_rotate_not."
  },
  {
   "property": "C105",
   "status": "partial",
   "theorems": [
    "Pyincpp.C105_different",
    "Pyincpp.C105_int",
    "Pyincpp.C105_fraction",
    "Pyincpp.C105_str",
    "Pyincpp.C105_str_partial",
    "Pyincpp.C105_sequence",
    "Pyincpp.C105_dict",
    "Pyincpp.C105_tuple",
    "Pyincpp.C105_str_not",
    "Pyincpp.C105_str_exact",
    "Pyincpp.C105_complex_not"
   ],
   "note": "Proved for Int, Fraction and Str (C105_int, C105_fraction, C105_str) and, if it holds of the elements, for List, Deque, Set, Dict and Tuple, to any depth (C105_sequence, C105_dict, C105_tuple, with C105_different). Strings within containers: proved without quotes (C105_str_partial), false otherwise (C105_str_not), exactly when for lists (C105_str_exact). False for Complex (C105_complex_not)."
  },
  {
   "property": "C106",
   "status": "partial",
   "theorems": [
    "Pyincpp.C106_int",
    "Pyincpp.C106_sequence",
    "Pyincpp.C106_dict",
    "Pyincpp.C106_fraction",
    "Pyincpp.C106_strings_partial",
    "Pyincpp.C106_strings_not",
    "Pyincpp.C106_nested_not"
   ],
   "note": "Proved for Int, List, Deque and Set of Int, Dict of Ints and Fraction (C106_int, C106_sequence, C106_dict, C106_fraction), and for lists of strings that have no quotes and are not empty (C106_strings_partial). False otherwise: C106_strings_not, and lists of lists cannot be split like that (C106_nested_not)."
  },
  {
   "property": "C107",
   "status": "partial",
   "theorems": [
    "Pyincpp.C107_exact",
    "Pyincpp.C107_int",
    "Pyincpp.C107_str",
    "Pyincpp.C107_fraction_exact",
    "Pyincpp.C107_fraction_partial",
    "Pyincpp.C107_fraction_not",
    "Pyincpp.C107_complex_exact",
    "Pyincpp.C107_complex_partial",
    "Pyincpp.C107_complex_not",
    "Pyincpp.C107_search_not"
   ],
   "note": "Exact in general: keys act as those of a finite map in every implementation if and only if == tells any two of them apart (C107_exact). Proved for Int and Str (C107_int, C107_str). Fraction: exactly if the keys have different nearest doubles (C107_fraction_exact), in particular below 2^26 (C107_fraction_partial); otherwise implementations differ in what they find (C107_fraction_not). Complex: exactly for finite keys that are not too close (C107_complex_exact, C107_complex_partial, C107_complex_not). Few comparisons is false for Int: inserting n different ones takes at least n(n-33)/66 calls of == in every implementation (C107_search_not)."
  },
  {
   "property": "C108",
   "status": "partial",
   "theorems": [
    "Pyincpp.C108_running_partial",
    "Pyincpp.C108_sum_partial",
    "Pyincpp.C108_product_partial",
    "Pyincpp.C108_relative_not"
   ],
   "note": "The relative error can be total: 2^53 + 1 - 2^53 gives 0 (C108_relative_not). Proved instead: an error bound computed along with the expression, from the exact absolute values (C108_running_partial, all four operations, any depth); for sums ((1+2^-53)^n - 1) times the sum of the absolute values (C108_sum_partial); for products ((1+6*2^-53)^n - 1) times the absolute value and a term for underflow (C108_product_partial)."
  },
  {
   "property": "C109",
   "status": "partial",
   "theorems": [
    "Pyincpp.C109_int",
    "Pyincpp.C109_containers",
    "Pyincpp.C109_fraction_exact",
    "Pyincpp.C109_fraction_partial",
    "Pyincpp.C109_fraction_not",
    "Pyincpp.C109_groups",
    "Pyincpp.C109_digits",
    "Pyincpp.C109_complex_exact",
    "Pyincpp.C109_complex_partial",
    "Pyincpp.C109_complex_not"
   ],
   "note": "True of Int, whose digits are written one by one (C109_int), and of containers of Int (C109_containers). False of Fraction: 1234/5 is printed as 1,234/5, which cannot be read back (C109_fraction_not), and of Complex (C109_complex_not); exactly which numbers are affected in which locales is C109_fraction_exact and C109_complex_exact. What grouping inserts: C109_groups, C109_digits. Reading fractions on such streams: C110."
  },
  {
   "property": "C11",
   "status": "proved",
   "theorems": [
    "Pyincpp.C11_inc_dec"
   ],
   "note": ""
  },
  {
   "property": "C110",
   "status": "partial",
   "theorems": [
    "Pyincpp.C110_round_trip_partial",
    "Pyincpp.C110_ungrouped",
    "Pyincpp.C110_classic_refuses",
    "Pyincpp.C110_blank_not",
    "Pyincpp.C110_wrong_groups_not",
    "Pyincpp.Locale.C110_int_exact",
    "Pyincpp.C110_failed_numerator"
   ],
   "note": "Proved for locales whose separator and point are no digit, minus or slash, in front of the end or a blank that is not the separator (C110_round_trip_partial). False if the separator is a blank, as in French: 1 and 234 are read as 1234 (C110_blank_not), and for separators in wrong places: 12,34 is read as 1234 and only the stream shows it (C110_wrong_groups_not). A text of another locale is refused in the classic one exactly if it is grouped (C110_classic_refuses), and without groups reading is the same as in the classic locale (C110_ungrouped). C110_int_exact: what is read of groups of any sizes and any length; C110_failed_numerator: what the fraction is then."
  },
  {
   "property": "C111",
   "status": "partial",
   "theorems": [
    "Pyincpp.Chain.C111_use",
    "Pyincpp.Chain.C111_copy",
    "Pyincpp.Chain.C111_no_leak",
    "Pyincpp.Chain.C111_reference_exact",
    "Pyincpp.Chain.C111_part_exact",
    "Pyincpp.Chain.C111_alias",
    "Pyincpp.Chain.C111_loop_partial",
    "Pyincpp.Chain.C111_list_exact",
    "Pyincpp.Chain.C111_loop_not",
    "Pyincpp.Chain.C111_part_not",
    "Pyincpp.C111_int_value_exact",
    "Pyincpp.C111_int_copy",
    "Pyincpp.C111_int_exact",
    "Pyincpp.C111_list_value_partial",
    "Pyincpp.C111_set_value",
    "Pyincpp.C111_set_exact",
    "Pyincpp.C111_deque_value_partial",
    "Pyincpp.C111_deque_not",
    "Pyincpp.C111_str"
   ],
   "note": "Within the expression and for copies it always holds (C111_use, C111_copy), also of exceptions. A reference to the result, or a loop over it, is undefined exactly if the object is a temporary and the last member returns a reference (C111_reference_exact, C111_list_exact for all members of List); a reference to an element exactly if the object is a temporary (C111_part_exact). Witnesses: C111_loop_not, C111_part_not. On variables references are aliases (C111_alias). C111_no_leak: no temporary is left over. C111_list_value_partial: what a chain of members of List gives. The same for Int (C111_int_value_exact, C111_int_copy, C111_int_exact), Set (C111_set_value, C111_set_exact) and Deque (C111_deque_value_partial, C111_deque_not: its members return references only). C111_str: members of Str return by value only, so that references to their results are always in order."
  },
  {
   "property": "C112",
   "status": "partial",
   "theorems": [
    "Pyincpp.Lst.C112_same",
    "Pyincpp.Lst.C112_find",
    "Pyincpp.Lst.C112_count",
    "Pyincpp.Lst.C112_remove_first",
    "Pyincpp.Lst.C112_remove_all",
    "Pyincpp.Lst.C112_uniquify_partial",
    "Pyincpp.Lst.C112_uniquify_different",
    "Pyincpp.Lst.C112_uniquify_not",
    "Pyincpp.Lst.C112_append_partial",
    "Pyincpp.Lst.C112_prepend_exact",
    "Pyincpp.Lst.C112_prepend_not"
   ],
   "note": "True of index, count, -= and /=, with the exact numbers for every == (C112_find, C112_count, C112_remove_first, C112_remove_all), and of appending (C112_append_partial: three elements at most). False of uniquify, which takes between d(d-1)/2 + (n-d) and d(d-1)/2 + (n-d)d calls for n elements of which d are different (C112_uniquify_partial, C112_uniquify_different, C112_uniquify_not), and of inserting in front, which writes n(n+1)/2 elements for n insertions (C112_prepend_exact, C112_prepend_not). C112_same: the counted functions are those of the model."
  },
  {
   "property": "C113",
   "status": "proved",
   "theorems": [
    "Pyincpp.Moves.C113_reverse",
    "Pyincpp.Moves.C113_erase",
    "Pyincpp.Moves.C113_remove",
    "Pyincpp.Moves.C113_insert",
    "Pyincpp.Moves.C113_rotate",
    "Pyincpp.Moves.C113_remove_all",
    "Pyincpp.Moves.C113_remove_all_needs"
   ],
   "note": "For every function that says what moving leaves, std::reverse, std::rotate, std::remove and the insert and erase of std::vector, written out as the moves and swaps of libstdc++, give what Model/List.lean gives (C113_reverse, C113_rotate, C113_erase, C113_remove, C113_insert). For /= with an element of the list itself this holds if that element equals itself or no element equals it (C113_remove_all); without this it does not (C113_remove_all_needs), but no type of the library has such an equality. The moves of std::stable_sort are in C114. Not modelled: insert when the vector has to grow, which copies."
  },
  {
   "property": "C114",
   "status": "partial",
   "theorems": [
    "Pyincpp.StableSort.C114_any",
    "Pyincpp.StableSort.C114_order",
    "Pyincpp.StableSort.C114_safe_partial",
    "Pyincpp.StableSort.C114_two",
    "Pyincpp.StableSort.C114_throw_not"
   ],
   "note": "std::stable_sort of libstdc++ 13 written out in moves, with insertion sort of chunks of 7, merging through the buffer and merging backward. C114_any: with every comparator that returns, sort returns, stays in its memory, and the list has the same elements as before. C114_order: with a strict weak order the result is that of Model/List.lean, the stable sort of C38, whatever moving leaves. A comparator that throws can lose elements (C114_two, C114_throw_not), because they are in the buffer or in a local variable; C114_safe_partial: still, sort stays in its memory, ends, lets nothing out but what the comparator throws, and the list keeps its length and has only elements of before and what moving leaves of them. The full statement asks that elements are kept when the comparator throws, which is false. Less memory for the buffer: C117."
  },
  {
   "property": "C115",
   "status": "partial",
   "theorems": [
    "Pyincpp.C115_same",
    "Pyincpp.C115_find_partial",
    "Pyincpp.C115_scan_partial",
    "Pyincpp.C115_ends",
    "Pyincpp.C115_passed",
    "Pyincpp.C115_linear_not",
    "Pyincpp.C115_same_integer",
    "Pyincpp.C115_to_integer_partial",
    "Pyincpp.C115_to_integer_square",
    "Pyincpp.C115_to_integer_not"
   ],
   "note": "The functions with counts of what they look at are those of Model/Str.lean (C115_same, C115_same_integer). C115_find_partial: find passes one character for every place up to the occurrence, and compares at most the length of the pattern at each place that has its first character. C115_scan_partial, C115_ends: all searches of count, replace or split together pass an exact number of characters, not more than the string has (C115_passed), with the same bound for comparisons. C115_to_integer_partial: to_integer takes at most 7n*n + 4n rounds and writes at most 8n*n + 9n digits. The full statement says linear, and is false: a...ab in a...a (C115_linear_not), and every decimal numeral without leading zeros takes between n*n and 11n*n rounds (C115_to_integer_square, C115_to_integer_not). Comparisons are counted as std::string_view::find of libstdc++ 13 makes them: it looks for the first character, then compares the pattern up to the first difference."
  },
  {
   "property": "C116",
   "status": "proved",
   "theorems": [
    "Pyincpp.StableSort.C116_state",
    "Pyincpp.StableSort.C116_calls",
    "Pyincpp.StableSort.C116_log",
    "Pyincpp.StableSort.C116_order",
    "Pyincpp.StableSort.C116_state_not"
   ],
   "note": "C116_state: the outcome and the list are those of C114 for every comparator whose answer does not depend on its state. C116_calls, C116_log: the number of calls, for every comparator, also one that throws. C116_order: with a strict weak order both together, for the stable sort of C38. The condition is needed: with a comparator that says no first and yes after, sort goes over the beginning of every list of three or more elements (C116_state_not)."
  },
  {
   "property": "C117",
   "status": "proved",
   "theorems": [
    "Pyincpp.StableSort.C117_any",
    "Pyincpp.StableSort.C117_order",
    "Pyincpp.StableSort.C117_enough",
    "Pyincpp.StableSort.C117_memory_not",
    "Pyincpp.StableSort.C117_safe"
   ],
   "note": "__inplace_stable_sort, __merge_without_buffer, __stable_sort_adaptive_resize, __merge_adaptive_resize and __rotate_adaptive of libstdc++ 13 written out; std::rotate is that of C113. C117_order: with a strict weak order the result is that of C38 for every size of the buffer. C117_any: with every comparator that returns, the elements are kept. C117_safe: for every comparator, also one that throws. C117_enough: with memory for half the elements the steps are those of C114. With a comparator that is no order the result does depend on the memory (C117_memory_not)."
  },
  {
   "property": "C118",
   "status": "partial",
   "theorems": [
    "Pyincpp.C118_exists",
    "Pyincpp.C118_height",
    "Pyincpp.C118_find",
    "Pyincpp.C118_add",
    "Pyincpp.C118_hint",
    "Pyincpp.C118_remove",
    "Pyincpp.C118_extend",
    "Pyincpp.C118_add_any",
    "Pyincpp.C118_extend_any_partial",
    "Pyincpp.C118_extend_any_not",
    "Pyincpp.C118_operators",
    "Pyincpp.C118_le",
    "Pyincpp.C118_set",
    "Pyincpp.C118_dict"
   ],
   "note": "The functions of stl_tree.h that search, link and unlink nodes written out; the rebalancing of tree.cc is any that keeps the order and gives red-black trees (C118_exists: there is one). C118_set and C118_dict: every history, with the number of comparisons; C118_find, C118_add, C118_hint, C118_remove, C118_extend, C118_operators, C118_le: each function. Adding loses nothing with any comparator (C118_add_any), extending with one that does not say yes both ways (C118_extend_any_partial); with <= for < extending overwrites a child of a node (C118_extend_any_not)."
  },
  {
   "property": "C119",
   "status": "proved",
   "theorems": [
    "Pyincpp.C119_set_step",
    "Pyincpp.C119_set_strong",
    "Pyincpp.C119_set",
    "Pyincpp.C119_no_compare",
    "Pyincpp.C119_extend_leaves",
    "Pyincpp.C119_dict_step",
    "Pyincpp.C119_dict_strong",
    "Pyincpp.C119_dict"
   ],
   "note": "On the trees of C118. C119_set_step and C119_dict_step: what each call does; C119_set_strong and C119_dict_strong: a call other than extend leaves the tree itself as it was; C119_set and C119_dict: every history. C119_no_compare: the calls that never compare. a range that is half added (C119_extend_leaves)."
  },
  {
   "property": "C12",
   "status": "proved",
   "theorems": [
    "Pyincpp.C12_inspectors"
   ],
   "note": ""
  },
  {
   "property": "C120",
   "status": "proved",
   "theorems": [
    "Pyincpp.C120_iterator_add",
    "Pyincpp.C120_iterator_sub",
    "Pyincpp.C120_new",
    "Pyincpp.C120_size",
    "Pyincpp.C120_index",
    "Pyincpp.C120_places",
    "Pyincpp.C120_push_back",
    "Pyincpp.C120_push_front",
    "Pyincpp.C120_pop_back",
    "Pyincpp.C120_pop_front",
    "Pyincpp.C120_history",
    "Pyincpp.C120_memory"
   ],
   "note": "The functions of stl_deque.h and deque.tcc written out: iterators (C120_iterator_add, C120_iterator_sub), moving the pointers to the blocks, new and freed blocks. C120_push_back, C120_push_front, C120_pop_back, C120_pop_front: each function, with the places of the elements; C120_history: every history with memory; C120_memory: every history with any memory."
  },
  {
   "property": "C121",
   "status": "proved",
   "theorems": [
    "Pyincpp.C121_extend_back",
    "Pyincpp.C121_extend_front",
    "Pyincpp.C121_requests_back",
    "Pyincpp.C121_requests_front",
    "Pyincpp.C121_no_leak_back",
    "Pyincpp.C121_no_leak_front"
   ],
   "note": "The functions of stl_deque.h and deque.tcc written out for a range at the end and at the begin. C121_extend_back, C121_extend_front: the elements, or bad_alloc and nothing changed, with the places of the elements; C121_requests_back, C121_requests_front: how much memory is enough; C121_no_leak_back, C121_no_leak_front: a failing call keeps no block."
  },
  {
   "property": "C13",
   "status": "proved",
   "theorems": [
    "Pyincpp.C13_is_prime"
   ],
   "note": ""
  },
  {
   "property": "C14",
   "status": "proved",
   "theorems": [
    "Pyincpp.C14_next_prime"
   ],
   "note": ""
  },
  {
   "property": "C15",
   "status": "proved",
   "theorems": [
    "Pyincpp.C15_factorial",
    "Pyincpp.C15_factorial_neg"
   ],
   "note": ""
  },
  {
   "property": "C16",
   "status": "partial",
   "theorems": [
    "Pyincpp.C16_fails",
    "Pyincpp.C16_sqrt_exact",
    "Pyincpp.C16_sqrt_partial",
    "Pyincpp.C16_sqrt_neg"
   ],
   "note": "False of the code: sqrt(8) never returns. C16_sqrt_exact: hangs exactly when x >= 4 and x+1 is a perfect square, otherwise returns the integer square root."
  },
  {
   "property": "C17",
   "status": "proved",
   "theorems": [
    "Pyincpp.C17_pow",
    "Pyincpp.C17_pow_neg"
   ],
   "note": ""
  },
  {
   "property": "C18",
   "status": "partial",
   "theorems": [
    "Pyincpp.C18_fails",
    "Pyincpp.C18_fails_negative_base",
    "Pyincpp.C18_pow_mod_partial",
    "Pyincpp.C18_pow_mod_abs",
    "Pyincpp.C18_exact",
    "Pyincpp.C18_iff"
   ],
   "note": "False of the code for negative bases and for |m| = 1; proved for non-negative bases, and up to sign for all bases with |b| != 1. C18_exact gives the value for every base, exponent and modulus, C18_iff says exactly when the property holds."
  },
  {
   "property": "C19",
   "status": "proved",
   "theorems": [
    "Pyincpp.C19_log",
    "Pyincpp.C19_log_domain"
   ],
   "note": "Hypothesis: the number of decimal digits fits int."
  },
  {
   "property": "C20",
   "status": "proved",
   "theorems": [
    "Pyincpp.C20_gcd_lcm"
   ],
   "note": ""
  },
  {
   "property": "C21",
   "status": "partial",
   "theorems": [
    "Pyincpp.C21_fails",
    "Pyincpp.C21_of_int_partial",
    "Pyincpp.C21_to_integer_exact",
    "Pyincpp.C21_to_integer_partial"
   ],
   "note": "False of the code for INT_MIN (undefined behaviour both ways); proved for all other values and all 8..64 bit types, with the exact exception."
  },
  {
   "property": "C22",
   "status": "proved",
   "theorems": [
    "Pyincpp.C22_random",
    "Pyincpp.C22_random_default",
    "Pyincpp.C22_random_throws"
   ],
   "note": "For every outcome of the random source."
  },
  {
   "property": "C23",
   "status": "partial",
   "theorems": [
    "Pyincpp.C23_any_exact",
    "Pyincpp.C23_base",
    "Pyincpp.C23_accept_partial",
    "Pyincpp.C23_accept_not",
    "Pyincpp.C23_unique",
    "Pyincpp.C23_reject_partial",
    "Pyincpp.C23_reject_not"
   ],
   "note": "Proved for every text whose length fits int, every base and memory mode, except a malformed text of exactly INT_MAX characters, where leaving the loop overflows (C23_reject_not). Longer texts: C23_accept_not. C23_any_exact: any longer text is read as its first size() characters."
  },
  {
   "property": "C24",
   "status": "partial",
   "theorems": [
    "Pyincpp.C24_any_exact",
    "Pyincpp.C24_special",
    "Pyincpp.C24_accept_partial",
    "Pyincpp.C24_unique",
    "Pyincpp.C24_reject_partial",
    "Pyincpp.C24_overflow_not",
    "Pyincpp.C24_overflow_not_witness",
    "Pyincpp.C24_reject_not",
    "Pyincpp.C24_exact_partial"
   ],
   "note": "False of the code for exponents above INT_MAX (undefined behaviour, C24_overflow_not covers all of them) and malformed texts of INT_MAX characters; all other texts proved. double is abstract; C24_exact_partial instantiates it with the rationals. Longer texts: C24_any_exact."
  },
  {
   "property": "C25",
   "status": "partial",
   "theorems": [
    "Pyincpp.C25_any_exact",
    "Pyincpp.C25_find_partial",
    "Pyincpp.C25_find_not",
    "Pyincpp.C25_find_not_witness",
    "Pyincpp.C25_contains_partial",
    "Pyincpp.C25_find_default",
    "Pyincpp.C25_starts_ends"
   ],
   "note": "False of the code for negative start (outside the stated range) and for stop < start within the string: undefined behaviour. The _partial and _not theorems cover every argument. Longer strings: C25_any_exact."
  },
  {
   "property": "C26",
   "status": "partial",
   "theorems": [
    "Pyincpp.C26_any_exact",
    "Pyincpp.C26_scan",
    "Pyincpp.C26_count",
    "Pyincpp.C26_replace",
    "Pyincpp.C26_replace_length",
    "Pyincpp.C26_replace_self",
    "Pyincpp.C26_empty_partial",
    "Pyincpp.C26_replace_empty_iff",
    "Pyincpp.C26_empty_not"
   ],
   "note": "Proved for every non-empty pattern. Empty pattern: count overflows on a string of INT_MAX characters, and replace drops what follows a NUL byte in the new text; C26_replace_empty_iff says exactly when it is right. Longer strings: C26_any_exact."
  },
  {
   "property": "C27",
   "status": "partial",
   "theorems": [
    "Pyincpp.C27_split_any_exact",
    "Pyincpp.C27_join_any_exact",
    "Pyincpp.C27_split_empty",
    "Pyincpp.C27_split_join_partial",
    "Pyincpp.C27_split_not",
    "Pyincpp.C27_split_exact",
    "Pyincpp.C27_join_split",
    "Pyincpp.C27_join"
   ],
   "note": "False of the code for a string of INT_MAX one-byte separators: the pieces do not fit a List. C27_split_exact: this is the only exception among the strings whose length fits int. Longer strings and lists: C27_split_any_exact, C27_join_any_exact."
  },
  {
   "property": "C28",
   "status": "partial",
   "theorems": [
    "Pyincpp.C28_list_slice_partial",
    "Pyincpp.C28_list_slice_small_partial",
    "Pyincpp.C28_list_slice_throws",
    "Pyincpp.C28_list_slice_overflow",
    "Pyincpp.C28_list_slice_not",
    "Pyincpp.C28_list_slice_max",
    "Pyincpp.C28_list_any_exact",
    "Pyincpp.C28_str_any_exact",
    "Pyincpp.C28_str_slice_partial",
    "Pyincpp.C28_str_slice_throws",
    "Pyincpp.C28_str_slice_overflow",
    "Pyincpp.C28_str_slice_not",
    "Pyincpp.C28_str_slice_max"
   ],
   "note": "False of the code where i += step overflows and for lists of INT_MAX elements. C28_list_slice_partial and C28_list_slice_overflow together cover every list of fewer elements. The same for Str. Longer lists: C28_list_any_exact. Longer strings: C28_str_any_exact."
  },
  {
   "property": "C29",
   "status": "partial",
   "theorems": [
    "Pyincpp.C29_deque_rotate_left",
    "Pyincpp.C29_deque_rotate_right_partial",
    "Pyincpp.C29_deque_compose",
    "Pyincpp.C29_deque_rotate_right_not",
    "Pyincpp.C29_list_rotate_left",
    "Pyincpp.C29_list_rotate_right_partial",
    "Pyincpp.C29_list_rotate_right_not",
    "Pyincpp.C29_list_right_left_partial",
    "Pyincpp.C29_list_compose",
    "Pyincpp.C29_list_restore_partial",
    "Pyincpp.C29_str_any_exact",
    "Pyincpp.C29_str_rotate_left",
    "Pyincpp.C29_str_rotate_right_partial",
    "Pyincpp.C29_str_rotate_right_not",
    "Pyincpp.C29_str_compose",
    "Pyincpp.C29_str_restore_partial",
    "Pyincpp.C29_str_reverse",
    "Pyincpp.C29_str_reverse_long_not"
   ],
   "note": "False of the code for >>= INT_MIN (List and Deque with two or more elements, Str with two or more characters); everything else is proved for lengths that fit int. Longer strings: C29_str_any_exact."
  },
  {
   "property": "C30",
   "status": "partial",
   "theorems": [
    "Pyincpp.C30_case_exact",
    "Pyincpp.C30_letters_partial",
    "Pyincpp.C30_case_not",
    "Pyincpp.C30_length"
   ],
   "note": "False of the code: lower sets bit 5 and upper clears it in every byte. C30_case_exact says exactly for which strings the property holds."
  },
  {
   "property": "C31",
   "status": "partial",
   "theorems": [
    "Pyincpp.C31_strip_any_exact",
    "Pyincpp.C31_unique",
    "Pyincpp.C31_strip_exact",
    "Pyincpp.C31_strip_partial",
    "Pyincpp.C31_strip_not",
    "Pyincpp.C31_strip_strict_exact",
    "Pyincpp.C31_strip_blank_not",
    "Pyincpp.C31_strip_long_not"
   ],
   "note": "False of the code for bytes of 0x80 and above, which count as blank. C31_strip_exact says what is removed for every string whose length fits int and every argument; one character more and leading blanks stay (C31_strip_long_not). C31_strip_any_exact gives the outcome for every string, of whatever size. By the standard the call is undefined exactly when nothing is left, as for the empty string: `begin() + i + 1` with i = -1 forms `begin() - 1` (C31_strip_strict_exact, C31_strip_blank_not)."
  },
  {
   "property": "C32",
   "status": "partial",
   "theorems": [
    "Pyincpp.C32_list_erase_partial",
    "Pyincpp.C32_list_erase_not",
    "Pyincpp.C32_str_any_exact",
    "Pyincpp.C32_str_erase_partial",
    "Pyincpp.C32_str_erase_not"
   ],
   "note": "False of the code: erase(3, 1) is undefined behaviour. The _partial and _not theorems cover every argument, for List and Str. Longer strings: C32_str_any_exact."
  },
  {
   "property": "C33",
   "status": "proved",
   "theorems": [
    "Pyincpp.C33_deque_index",
    "Pyincpp.C33_deque_huge_not",
    "Pyincpp.C33_list_index",
    "Pyincpp.C33_list_any_exact",
    "Pyincpp.C33_str_any_exact",
    "Pyincpp.C33_str_huge_not",
    "Pyincpp.C33_str_index"
   ],
   "note": "Longer lists and deques: C33_list_any_exact and C42_deque_history_exact; indices count by size(), and are undefined if size() is INT_MIN (C33_deque_huge_not). Longer strings: C33_str_any_exact."
  },
  {
   "property": "C34",
   "status": "partial",
   "theorems": [
    "Pyincpp.C34_list_repeat_partial",
    "Pyincpp.C34_list_repeat_not",
    "Pyincpp.C34_list_any_exact",
    "Pyincpp.C34_list_huge_not",
    "Pyincpp.C34_str_any_exact",
    "Pyincpp.C34_str_repeat_partial",
    "Pyincpp.C34_str_repeat_not",
    "Pyincpp.C34_str_repeat_not_witness",
    "Pyincpp.C34_str_concat"
   ],
   "note": "False of the code where size * n leaves the range of int (undefined behaviour) or is exactly INT_MAX (rejected by List only). List and Str. C34_list_any_exact gives the outcome for every list, of whatever size. The same for every string: C34_str_any_exact."
  },
  {
   "property": "C35",
   "status": "proved",
   "theorems": [
    "Pyincpp.C35_format",
    "Pyincpp.C35_format_unique",
    "Pyincpp.C35_surplus"
   ],
   "note": "An argument is represented by the text operator<< prints for it. A group runs from the first { to the first } behind it."
  },
  {
   "property": "C36",
   "status": "partial",
   "theorems": [
    "Pyincpp.C36_list_history_partial",
    "Pyincpp.C36_list_history_not",
    "Pyincpp.C36_list_self_append_strict",
    "Pyincpp.C36_list_any_exact",
    "Pyincpp.C36_list_history_exact"
   ],
   "note": "Proved for every history of fair operations; Fair excludes backwards erase, >>= INT_MIN, removal by a reference into the list that gets overwritten, and += whose sum is within 1 of INT_MAX. C36_list_history_not shows the exclusions are needed. C36_list_history_exact gives the outcome of every history of lists that fit int, the excluded operations included, in both memory modes; C36_list_any_exact that of every history of lists of any size."
  },
  {
   "property": "C37",
   "status": "proved",
   "theorems": [
    "Pyincpp.C37_list_uniquify"
   ],
   "note": ""
  },
  {
   "property": "C38",
   "status": "proved",
   "theorems": [
    "Pyincpp.C38_list_sort_unique",
    "Pyincpp.C38_list_sort"
   ],
   "note": "std::stable_sort is modelled as Lean's merge sort with the comparator of the call. C38_list_sort_unique: the result is the only sorted and stable arrangement."
  },
  {
   "property": "C39",
   "status": "partial",
   "theorems": [
    "Pyincpp.C39_list_remove_all_partial",
    "Pyincpp.C39_list_remove_all_self",
    "Pyincpp.C39_list_remove_all_not",
    "Pyincpp.C39_list_filter_partial",
    "Pyincpp.C39_list_map",
    "Pyincpp.C39_list_map_order"
   ],
   "note": "False of the code for l /= l[0]; C39_list_remove_all_self gives the exact result. filter: proved for the usual copy_if; undefined by the letter of the standard."
  },
  {
   "property": "C40",
   "status": "partial",
   "theorems": [
    "Pyincpp.C40_list_index_partial",
    "Pyincpp.C40_list_index_not",
    "Pyincpp.C40_list_index_default",
    "Pyincpp.C40_list_find_count",
    "Pyincpp.C40_list_any_exact"
   ],
   "note": "False of the code: index reads outside the list unless 0 <= start <= min(stop, size). The _partial and _not theorems cover every argument. Longer lists: C40_list_any_exact."
  },
  {
   "property": "C41",
   "status": "partial",
   "theorems": [
    "Pyincpp.C41_deque_size",
    "Pyincpp.C41_deque_extend_not",
    "Pyincpp.C41_dict_extend_not",
    "Pyincpp.C41_dict_add",
    "Pyincpp.C41_list_size_partial",
    "Pyincpp.C41_list_append_exact",
    "Pyincpp.C41_list_extend_not",
    "Pyincpp.C41_list_huge_not",
    "Pyincpp.C41_set_add",
    "Pyincpp.C41_set_extend_not",
    "Pyincpp.C41_str_size_not"
   ],
   "note": "False of the code for extend (unchecked) and operator* (see C34) for Deque extend_back/extend_front, for Str operator+, for Set extend and |=, and for Dict extend."
  },
  {
   "property": "C42",
   "status": "partial",
   "theorems": [
    "Pyincpp.C42_deque_history_partial",
    "Pyincpp.C42_deque_history_not",
    "Pyincpp.C42_deque_history_exact",
    "Pyincpp.C42_deque_huge_not"
   ],
   "note": "False of the code: >>= INT_MIN is undefined behaviour, and extending beyond INT_MAX is unchecked. Proved for every history of fair operations, Fair excluding exactly these; C42_deque_history_not shows the exclusion is needed. C42_deque_history_exact gives the outcome of every history of a deque of any size, without exclusion."
  },
  {
   "property": "C43",
   "status": "proved",
   "theorems": [
    "Pyincpp.C43_inter",
    "Pyincpp.C43_union",
    "Pyincpp.C43_diff",
    "Pyincpp.C43_symDiff",
    "Pyincpp.C43_self"
   ],
   "note": "For every strict weak order; the compound forms also with the set itself as operand."
  },
  {
   "property": "C44",
   "status": "partial",
   "theorems": [
    "Pyincpp.C44_proper_exact",
    "Pyincpp.C44_subset",
    "Pyincpp.C44_equal",
    "Pyincpp.C44_proper_partial",
    "Pyincpp.C44_proper_not"
   ],
   "note": "<=, >= and == for all sets; < and > for sets of at most INT_MAX elements. False of the code beyond: size() is cut to 32 bits (C44_proper_not). C44_proper_exact says what < and > mean for sets of any size."
  },
  {
   "property": "C45",
   "status": "partial",
   "theorems": [
    "Pyincpp.C45_set_history_exact",
    "Pyincpp.C45_set_huge_not",
    "Pyincpp.C45_set_history_partial",
    "Pyincpp.C45_set_construct"
   ],
   "note": "Proved for every history of fair operations; Fair excludes growth beyond INT_MAX through extend, |= and ^=, which do not check it (C41_set_extend_not). C45_set_history_exact gives the outcome of every history of a set of any size, without exclusion."
  },
  {
   "property": "C46",
   "status": "partial",
   "theorems": [
    "Pyincpp.C46_dict_history_exact",
    "Pyincpp.C46_dict_history_partial",
    "Pyincpp.C46_dict_construct"
   ],
   "note": "Proved for every history of fair operations; Fair excludes growth beyond INT_MAX through extend, which does not check it (C41_dict_extend_not). C46_dict_history_exact gives the outcome of every history of a dictionary of any size, without exclusion."
  },
  {
   "property": "C47",
   "status": "partial",
   "theorems": [
    "Pyincpp.C47_keys_partial",
    "Pyincpp.C47_values_partial",
    "Pyincpp.C47_items_partial",
    "Pyincpp.C47_keys_not",
    "Pyincpp.C47_keys_exact",
    "Pyincpp.C47_values_exact"
   ],
   "note": "Proved for every dictionary of at most INT_MAX pairs. False of the code beyond: keys() throws (C47_keys_not). C47_keys_exact and C47_values_exact say what dictionaries of any size give."
  },
  {
   "property": "C48",
   "status": "partial",
   "theorems": [
    "Pyincpp.C48_minmax_partial",
    "Pyincpp.C48_minmax_not"
   ],
   "note": "False of the code for the empty dictionary: undefined behaviour. Proved for all others."
  },
  {
   "property": "C49",
   "status": "partial",
   "theorems": [
    "Pyincpp.C49_construct_partial",
    "Pyincpp.C49_construct_not",
    "Pyincpp.C49_unique"
   ],
   "note": "False of the code for INT_MIN: undefined behaviour (C49_construct_not covers every such call). Proved for all other arguments; results of arithmetic: C50."
  },
  {
   "property": "C50",
   "status": "partial",
   "theorems": [
    "Pyincpp.C50_add_partial",
    "Pyincpp.C50_sub_partial",
    "Pyincpp.C50_mul_partial",
    "Pyincpp.C50_div_partial",
    "Pyincpp.C50_div_zero",
    "Pyincpp.C50_neg_abs",
    "Pyincpp.C50_arithmetic_not",
    "Pyincpp.C50_assign",
    "Pyincpp.C50_inc_dec_partial"
   ],
   "note": "Each operator: exact if and only if the stated values fit, otherwise undefined behaviour. False of the code as stated: a result numerator of INT_MIN is in range but the constructor cannot take it (C50_arithmetic_not)."
  },
  {
   "property": "C51",
   "status": "proved",
   "theorems": [
    "Pyincpp.C51_mod",
    "Pyincpp.C51_mod_zero",
    "Pyincpp.C51_mod_bound"
   ],
   "note": "With the exact condition under which no overflow occurs."
  },
  {
   "property": "C52",
   "status": "partial",
   "theorems": [
    "Pyincpp.Frac.C52_equal_exact",
    "Pyincpp.C52_less_partial",
    "Pyincpp.C52_less_not",
    "Pyincpp.C52_equal_partial",
    "Pyincpp.C52_equal_not"
   ],
   "note": "False of the code: < and its relatives overflow on large operands, and == compares doubles (two different fractions compare equal). The _partial theorems say exactly when < is right and give a bound under which == is. C52_equal_exact says when == is true: if one double is nearest to both values."
  },
  {
   "property": "C53",
   "status": "proved",
   "theorems": [
    "Pyincpp.C53_gcd_exact",
    "Pyincpp.C53_lcm_exact",
    "Pyincpp.C53_gcd",
    "Pyincpp.C53_gcd_fits",
    "Pyincpp.C53_gcd_greatest",
    "Pyincpp.C53_lcm",
    "Pyincpp.C53_lcm_fits"
   ],
   "note": "Every pair of fractions; overflow is the only other outcome, and C53_gcd_fits/C53_lcm_fits exclude it under a bound; C53_gcd_exact and C53_lcm_exact say for which rational numbers it happens."
  },
  {
   "property": "C54",
   "status": "partial",
   "theorems": [
    "Pyincpp.C54_print",
    "Pyincpp.C54_read_int",
    "Pyincpp.C54_read_ratio",
    "Pyincpp.C54_round_trip",
    "Pyincpp.C54_malformed_partial",
    "Pyincpp.C54_malformed_not"
   ],
   "note": "Round trip proved for every fraction and continuation. False of the code for malformed texts: +z reads as 0, numbers out of range are clamped (C54_malformed_not); all other malformed words are proved to throw."
  },
  {
   "property": "C55",
   "status": "partial",
   "theorems": [
    "Pyincpp.C55_complex_partial",
    "Pyincpp.C55_complex_not",
    "Pyincpp.C55_fraction_partial",
    "Pyincpp.C55_fraction_not",
    "Pyincpp.C55_int_terminates"
   ],
   "note": "Int terminates always. Fraction and Complex: false of the code on streams without a byte above 0x20 (infinite loop); terminate on all others."
  },
  {
   "property": "C56",
   "status": "partial",
   "theorems": [
    "Pyincpp.C56_exact",
    "Pyincpp.C56_div_partial",
    "Pyincpp.C56_div_zero",
    "Pyincpp.C56_div_not",
    "Pyincpp.C56_assign",
    "Pyincpp.C56_double",
    "Pyincpp.C56_double_div_overflow"
   ],
   "note": "Exact reals: everything but the zero test of division, which also rejects divisors below 2^-52 in both components (C56_div_not). Doubles: C56_double, exact on integer components up to 2^25; C56_double_div_overflow."
  },
  {
   "property": "C57",
   "status": "partial",
   "theorems": [
    "Pyincpp.C57_reflexive_partial",
    "Pyincpp.C57_symmetric",
    "Pyincpp.C57_equal_partial",
    "Pyincpp.C57_equal_not",
    "Pyincpp.C57_equal_exact"
   ],
   "note": "False of the code: not transitive, not reflexive for infinities, hash incompatible (C57_equal_not). Symmetric always; an equivalence compatible with every hash on multiples of 2^-52. C57_equal_exact says for which numbers == is true."
  },
  {
   "property": "C58",
   "status": "partial",
   "theorems": [
    "Pyincpp.C58_pow_partial",
    "Pyincpp.C58_pow_zero",
    "Pyincpp.C58_pow_not",
    "Pyincpp.C58_double_exact"
   ],
   "note": "Exact reals. False of the code for base or exponent below 2^-52 (C58_pow_not); proved for all others. For double arithmetic, whatever the functions of <cmath> are, C58_double_exact says when pow answers 1, throws or computes."
  },
  {
   "property": "C59",
   "status": "proved",
   "theorems": [
    "Pyincpp.C59_made",
    "Pyincpp.C59_get",
    "Pyincpp.C59_rest",
    "Pyincpp.C59_size",
    "Pyincpp.C59_eq_types",
    "Pyincpp.C59_eq",
    "Pyincpp.C59_ne"
   ],
   "note": "Element types are any collection of types with their own ==. Up to INT_MAX elements."
  },
  {
   "property": "C60",
   "status": "proved",
   "theorems": [
    "Pyincpp.C60_print",
    "Pyincpp.C60_containers",
    "Pyincpp.C60_bracketed",
    "Pyincpp.C60_tuple",
    "Pyincpp.C60_str"
   ],
   "note": "List, Deque, Set, Dict, Tuple, Str; an element is represented by the text its own operator<< gives."
  },
  {
   "property": "C61",
   "status": "partial",
   "theorems": [
    "Pyincpp.C61_complex",
    "Pyincpp.C61_complex_input",
    "Pyincpp.C61_fraction",
    "Pyincpp.C61_fraction_input",
    "Pyincpp.C61_int_assign",
    "Pyincpp.C61_int_input",
    "Pyincpp.C61_list",
    "Pyincpp.C61_list_map_not",
    "Pyincpp.C61_list_map_partial",
    "Pyincpp.C61_deque",
    "Pyincpp.C61_set",
    "Pyincpp.C61_dict"
   ],
   "note": "All mutating operations of all classes, including operator>>, but List::map with a throwing action: false of the code (C61_list_map_not)."
  },
  {
   "property": "C62",
   "status": "partial",
   "theorems": [
    "Pyincpp.C62_read_real",
    "Pyincpp.C62_read_imag",
    "Pyincpp.C62_read_pair",
    "Pyincpp.C62_malformed_partial",
    "Pyincpp.C62_malformed_ub",
    "Pyincpp.C62_large_partial",
    "Pyincpp.C62_large_imag_ub",
    "Pyincpp.C62_malformed_not",
    "Pyincpp.C62_round_trip_not",
    "Pyincpp.C62_print"
   ],
   "note": "Well-formed texts proved. False of the code for malformed texts (C62_malformed_not: accepted; C62_malformed_ub: use of an uninitialised variable), for numbers out of range (C62_large_partial, C62_large_imag_ub) and for the round trip (C62_round_trip_not: printed in parentheses, which are not read)."
  },
  {
   "property": "C63",
   "status": "partial",
   "theorems": [
    "Pyincpp.C63_copy",
    "Pyincpp.C63_move_container",
    "Pyincpp.C63_move_int",
    "Pyincpp.C63_move_fraction",
    "Pyincpp.C63_move_complex",
    "Pyincpp.C63_str_partial",
    "Pyincpp.C63_str_not"
   ],
   "note": "All classes but Str proved, self-assignment and self-move included (a moved-from object is zero or empty). False of the code for Str: its member is const, and every assignment and move writes to it through const_cast (C63_str_not); as compilers perform it, the values are right (C63_str_partial)."
  },
  {
   "property": "C64",
   "status": "partial",
   "theorems": [
    "Pyincpp.C64_seq_less_partial",
    "Pyincpp.C64_seq_equal",
    "Pyincpp.C64_seq_order",
    "Pyincpp.C64_str",
    "Pyincpp.C64_set_elements_not",
    "Pyincpp.C64_double_not",
    "Pyincpp.C64_double_partial"
   ],
   "note": "Proved for every element type with a strict weak (total) order, nested sequences included, and for Str. False for elements whose < is no such order: List<Set<int>> and List<double> with NaN (C64_set_elements_not, C64_double_not; proved without NaN in C64_double_partial)."
  },
  {
   "property": "C65",
   "status": "partial",
   "theorems": [
    "Pyincpp.C65_int",
    "Pyincpp.C65_str",
    "Pyincpp.C65_seq",
    "Pyincpp.C65_fraction_partial",
    "Pyincpp.C65_fraction_not",
    "Pyincpp.C65_set_not",
    "Pyincpp.C65_set_of_sets_not"
   ],
   "note": "Int, Str, List, Deque proved. False of the code for Fraction (comparison overflows; proved for parts up to 32767) and for Set (< is the proper subset relation; C65_set_of_sets_not shows what a Set<Set<int>> then does)."
  },
  {
   "property": "C66",
   "status": "partial",
   "theorems": [
    "Pyincpp.C66_fraction_partial",
    "Pyincpp.C66_fraction_not",
    "Pyincpp.C66_str"
   ],
   "note": "Str proved; Fraction: equal values have equal hashes, but fractions that only compare equal need not (C66_fraction_not). Int is in C10, Complex in C57."
  },
  {
   "property": "C67",
   "status": "partial",
   "theorems": [
    "Pyincpp.C67_int",
    "Pyincpp.C67_fraction_partial",
    "Pyincpp.C67_fraction_not",
    "Pyincpp.C67_complex_partial",
    "Pyincpp.C67_complex_not"
   ],
   "note": "Int: every successful read. False of the code for Fraction and for real Complex numbers at the end of the input: read correctly, but the stream has failed (the _not theorems, for every such number); proved in all other positions."
  },
  {
   "property": "C68",
   "status": "partial",
   "theorems": [
    "Pyincpp.C68_int_partial",
    "Pyincpp.C68_int_not",
    "Pyincpp.C68_fraction_partial",
    "Pyincpp.C68_fraction_not",
    "Pyincpp.C68_complex_partial",
    "Pyincpp.C68_complex_not"
   ],
   "note": "Reading by count proved for the three classes. The loop is false of the code for all three: for Int it always ends with an exception, for Fraction and Complex it loses the last number or never ends; each _not theorem covers all inputs of this form."
  },
  {
   "property": "C69",
   "status": "partial",
   "theorems": [
    "Pyincpp.C69_line_partial",
    "Pyincpp.C69_exhausted",
    "Pyincpp.C69_line_not",
    "Pyincpp.C69_lines_partial",
    "Pyincpp.C69_round_trip_not",
    "Pyincpp.C69_loop_partial"
   ],
   "note": "Lines proved as compilers perform the write; by the standard it is undefined, the member being const (C69_line_not). The round trip through operator<< is false for every string (C69_round_trip_not)."
  },
  {
   "property": "C70",
   "status": "proved",
   "theorems": [
    "Pyincpp.C70_iterate",
    "Pyincpp.C70_end",
    "Pyincpp.C70_set_order",
    "Pyincpp.C70_set_find",
    "Pyincpp.C70_dict_find"
   ],
   "note": "List, Deque, Set, Dict and Str: an iterator is a position; find of List is in C40."
  },
  {
   "property": "C71",
   "status": "proved",
   "theorems": [
    "Pyincpp.C71_equal"
   ],
   "note": "Linearly ordered keys, lawful == of values."
  },
  {
   "property": "C72",
   "status": "partial",
   "theorems": [
    "Pyincpp.C72_own_range_not",
    "Pyincpp.C72_tree_partial",
    "Pyincpp.C72_list_partial",
    "Pyincpp.C72_list_list_not"
   ],
   "note": "False by the standard (C72_own_range_not) and, as libstdc++ is implemented, false for lists of elements that moving changes (C72_list_list_not: a list of lists gets empty lists appended; Int and the other number classes have move constructors that are not noexcept and are copied); C72_list_partial says exactly when the list is doubled."
  },
  {
   "property": "C73",
   "status": "partial",
   "theorems": [
    "Pyincpp.C73_meaning",
    "Pyincpp.C73_nearest_partial",
    "Pyincpp.C73_close_partial",
    "Pyincpp.C73_zero_not",
    "Pyincpp.C73_inf_not",
    "Pyincpp.C73_determined",
    "Pyincpp.C73_not",
    "Pyincpp.C73_long_not"
   ],
   "note": "Proved for mantissas below 2^53 with at most 22 fraction digits and no exponent (or an exact mantissa with an exponent up to 22). False in general: C73_not (last place), C73_zero_not (0e309 is NaN), C73_inf_not, C73_long_not; C73_close_partial bounds the relative error by (4n+10) 2^-53. std::pow(10, n) is assumed exact for n <= 22, or nearest."
  },
  {
   "property": "C74",
   "status": "partial",
   "theorems": [
    "Pyincpp.C74_add",
    "Pyincpp.C74_sub",
    "Pyincpp.C74_mul",
    "Pyincpp.C74_div_partial",
    "Pyincpp.C74_component_not",
    "Pyincpp.C74_range_not"
   ],
   "note": "+, - (2^-53) and * (6*2^-53 of the product of the norms, plus 2^-1072) proved. / proved within 18*2^-53 for divisors with a component of at least 2^-52; smaller ones are refused, which is false of the property (C74_div_partial says exactly when). Component by component it is false (C74_component_not), as beyond 2^512 (C74_range_not)."
  },
  {
   "property": "C75",
   "status": "partial",
   "theorems": [
    "Pyincpp.C75_chars",
    "Pyincpp.C75_chars_ub",
    "Pyincpp.C75_data_partial",
    "Pyincpp.C75_data_not",
    "Pyincpp.C75_int_data",
    "Pyincpp.C75_int_data_not",
    "Pyincpp.C75_sequence",
    "Pyincpp.C75_size_not"
   ],
   "note": "Proved for up to INT_MAX elements; beyond, size() is wrong (C75_size_not). Str(s.data()) == s exactly when s has no NUL (C75_data_partial, C75_data_not); Int(s.data()) is right for every literal, but accepts others as well (C75_int_data_not). The constructors of Set and Dict are in C45_set_construct and C46_dict_construct."
  },
  {
   "property": "C76",
   "status": "partial",
   "theorems": [
    "Pyincpp.C76_text",
    "Pyincpp.C76_notation",
    "Pyincpp.C76_exact",
    "Pyincpp.C76_order",
    "Pyincpp.C76_complex",
    "Pyincpp.C76_reread_partial",
    "Pyincpp.C76_reread_iff",
    "Pyincpp.C76_not"
   ],
   "note": "The text, its exactness and order proved for every finite double. Reading back gives the number exactly when it is the double nearest to a six-digit decimal (C76_reread_iff), otherwise it is lost (C76_not: 1 and the next double are printed alike). Default stream format (%g, precision 6) assumed."
  },
  {
   "property": "C77",
   "status": "partial",
   "theorems": [
    "Pyincpp.C77_exact",
    "Pyincpp.C77_gcd_not",
    "Pyincpp.C77_history_partial",
    "Pyincpp.C77_small",
    "Pyincpp.C77_determined",
    "Pyincpp.C77_not"
   ],
   "note": "Every program either overflows an int or ends with the exact values in lowest terms; overflow happens (C77_not), also where the result fits. C77_small: none with parts up to 32767 in +, -, *, /, %, <, up to 215 in gcd and 35 in lcm. C77_exact: which programs overflow, decided by the rational numbers alone; all others end with the exact values. C77_gcd_not: gcd overflows where none of the operators does and the result fits."
  },
  {
   "property": "C78",
   "status": "proved",
   "theorems": [
    "Pyincpp.C78_nearest",
    "Pyincpp.C78_order",
    "Pyincpp.C78_exact"
   ],
   "note": "Nearest, relative error 2^-53, order, exactness."
  },
  {
   "property": "C79",
   "status": "partial",
   "theorems": [
    "Pyincpp.C79_state",
    "Pyincpp.C79_text_partial",
    "Pyincpp.C79_sequence_partial",
    "Pyincpp.C79_fill_iff",
    "Pyincpp.C79_format",
    "Pyincpp.C79_shown",
    "Pyincpp.C79_str",
    "Pyincpp.C79_int_iff",
    "Pyincpp.C79_unsigned",
    "Pyincpp.C79_showpos",
    "Pyincpp.C79_not"
   ],
   "note": "C79_state gives output and state for every nesting of values and every width, fill and adjustment under the default flags. False of the code: the width is used up by the first character, an Int of two digits leaves the fill character '0', showpos and oct spoil an Int (C79_not; C79_int_iff says exactly which flags). format() is right for all arguments (C79_format)."
  },
  {
   "property": "C80",
   "status": "partial",
   "theorems": [
    "Pyincpp.C80_uniform_partial",
    "Pyincpp.C80_not",
    "Pyincpp.C80_small_partial"
   ],
   "note": "Uniform if the draws are independent and uniform (C80_uniform_partial, by counting outcomes). They come from a generator with a 32-bit seed, therefore from ten digits on some numbers are never returned (C80_not); up to nine digits the seed would suffice."
  },
  {
   "property": "C81",
   "status": "partial",
   "theorems": [
    "Pyincpp.C81_int_iff",
    "Pyincpp.C81_int_partial",
    "Pyincpp.C81_int_not",
    "Pyincpp.C81_fraction_partial",
    "Pyincpp.C81_fraction_not",
    "Pyincpp.C81_complex_iff",
    "Pyincpp.C81_complex_not"
   ],
   "note": "False of the code: all Ints together have at most 33 hashes; C81_int_iff says exactly when two coincide. 1/2 and 7 coincide; fractions sharing a part do not. std::hash<int> is the identity."
  },
  {
   "property": "C82",
   "status": "proved",
   "theorems": [
    "Pyincpp.C82_basic",
    "Pyincpp.C82_gcd",
    "Pyincpp.C82_gcd_tight",
    "Pyincpp.C82_pow",
    "Pyincpp.C82_pow_mod",
    "Pyincpp.C82_log",
    "Pyincpp.C82_sqrt",
    "Pyincpp.C82_is_prime",
    "Pyincpp.C82_factorial",
    "Pyincpp.C82_next_prime"
   ],
   "note": "The bounds are on the fuel of the model, which bounds every loop of a call. C82_gcd is Lame's theorem, C82_gcd_tight shows its order is right; C82_next_prime uses Bertrand's postulate."
  },
  {
   "property": "C83",
   "status": "partial",
   "theorems": [
    "Pyincpp.C83_stable",
    "Pyincpp.C83_removed",
    "Pyincpp.C83_get_now",
    "Pyincpp.C83_get_later_partial",
    "Pyincpp.C83_get_not"
   ],
   "note": "dict[key], and get of a held key: proved for every sequence of operations; after removal the reference dangles. get of a missing key with a temporary default returns a dangling reference (C83_get_not); C83_get_later_partial says exactly when it may be read."
  },
  {
   "property": "C84",
   "status": "partial",
   "theorems": [
    "Pyincpp.Lst.C84_filter",
    "Pyincpp.Lst.C84_remove_all",
    "Pyincpp.Lst.C84_remove_all_keeps",
    "Pyincpp.Lst.C84_list_unchanged_partial",
    "Pyincpp.Lst.C84_not",
    "Pyincpp.Lst.C84_list_agree",
    "Pyincpp.PSet.C84_set_unchanged",
    "Pyincpp.PSet.C84_set_extend",
    "Pyincpp.PSet.C84_set_extend_not",
    "Pyincpp.PSet.C84_set_agree",
    "Pyincpp.PDict.C84_dict_unchanged",
    "Pyincpp.PDict.C84_dict_extend",
    "Pyincpp.PDict.C84_dict_agree"
   ],
   "note": "True for List remove and uniquify, Set add, remove and the assigning set operations, Dict add and remove (C84_*_unchanged). False for filter and /= (C84_not) and extend (C84_set_extend_not); C84_filter, C84_remove_all, C84_set_extend and C84_dict_extend give the exact state left. Which pairs a tree compares is a parameter (C119 has the trees). For sort with a comparator that throws see C114 and C117."
  },
  {
   "property": "C85",
   "status": "partial",
   "theorems": [
    "Pyincpp.Lst.C85_exact_partial",
    "Pyincpp.Lst.C85_write",
    "Pyincpp.Lst.C85_append",
    "Pyincpp.Lst.C85_insert",
    "Pyincpp.Lst.C85_remove",
    "Pyincpp.Lst.C85_in_place",
    "Pyincpp.Lst.C85_extend",
    "Pyincpp.Lst.C85_filter",
    "Pyincpp.Lst.C85_erase",
    "Pyincpp.Lst.C85_remove_first",
    "Pyincpp.Lst.C85_new_buffer",
    "Pyincpp.Lst.C85_reuse",
    "Pyincpp.Lst.C85_moved_in",
    "Pyincpp.Lst.C85_not",
    "Pyincpp.Lst.C85_room",
    "Pyincpp.Lst.C85_room_not"
   ],
   "note": "C85_exact_partial says when the reference may be read, for every capacity and growth rule; the other theorems work it out per operation. Appending at full capacity and functions that build a new vector leave it dangling (C85_not, C85_new_buffer). Room is kept by all members but uniquify and *= (C85_room, C85_room_not)."
  },
  {
   "property": "C86",
   "status": "proved",
   "theorems": [
    "Pyincpp.Dq.C86_exact",
    "Pyincpp.Dq.C86_same_element",
    "Pyincpp.Dq.C86_ends"
   ],
   "note": "C86_exact follows the position through every sequence of operations; the reference reads the element at that position, and dangles exactly when the element has been removed. Rotation and reversal move values, not places. References to front and back are the same as by index."
  },
  {
   "property": "C87",
   "status": "partial",
   "theorems": [
    "Pyincpp.C87_fraction_exact",
    "Pyincpp.C87_set",
    "Pyincpp.C87_dict",
    "Pyincpp.C87_int",
    "Pyincpp.C87_str",
    "Pyincpp.C87_seq_cmp",
    "Pyincpp.C87_seq",
    "Pyincpp.C87_fraction_partial",
    "Pyincpp.C87_nested",
    "Pyincpp.C87_list",
    "Pyincpp.C87_int_eq",
    "Pyincpp.C87_set_exact",
    "Pyincpp.C87_dict_exact"
   ],
   "note": "C87_set, C87_dict and C87_list carry the histories of C45, C46 and C36 over to elements that represent values of a linear order; C87_int, C87_str, C87_seq and C87_fraction_partial say which types do. Fractions up to parts of 32767, since < multiplies them as int; C87_fraction_exact says exactly which collections of fractions work as keys. The histories are those with fair arguments, as in C36, C45, C46. Sets as elements are left out: their < is inclusion (C65_set_not)."
  },
  {
   "property": "C88",
   "status": "partial",
   "theorems": [
    "Pyincpp.PSet.C88_exact",
    "Pyincpp.PSet.C88_begin",
    "Pyincpp.PSet.C88_find",
    "Pyincpp.PSet.C88_loop_partial",
    "Pyincpp.PSet.C88_behind",
    "Pyincpp.PSet.C88_remove_not"
   ],
   "note": "C88_exact, C88_loop_partial: the loop visits the next greater element that is then in the set; it is undefined exactly if a body erases the element it is at, even if it adds it again. C88_remove_not: so a loop that removes what it visits is undefined on every nonempty set. C88_behind: bodies that change only what has been visited see the original elements. Loops whose body adds ahead without end are those without a Visits derivation."
  },
  {
   "property": "C89",
   "status": "partial",
   "theorems": [
    "Pyincpp.Lst.C89_iter_partial",
    "Pyincpp.Lst.C89_index",
    "Pyincpp.Lst.C89_range_partial",
    "Pyincpp.Lst.C89_append_not",
    "Pyincpp.Lst.C89_in_place"
   ],
   "note": "By index: proved (C89_index). With iterators: exactly if no body loses the place it is at (C89_iter_partial); range-based: exactly if moreover the list keeps its length and place (C89_range_partial), as bodies that assign or exchange elements do (C89_in_place). Appending in the body is undefined on every nonempty list (C89_append_not)."
  },
  {
   "property": "C90",
   "status": "partial",
   "theorems": [
    "Pyincpp.PDict.C90_exact",
    "Pyincpp.PDict.C90_begin",
    "Pyincpp.PDict.C90_find",
    "Pyincpp.PDict.C90_loop_partial",
    "Pyincpp.PDict.C90_remove_not",
    "Pyincpp.PDict.C90_update"
   ],
   "note": "C90_exact, C90_loop_partial: the loop visits the next greater key that is then held, with its value then; it is undefined exactly if a body erases the pair it is at, even if it adds it again. C90_remove_not: so a loop that removes what it visits is undefined on every nonempty dictionary. C90_update: assigning to d[k] in the loop is fine. Loops whose body adds ahead without end are those without a VisitsPairs derivation."
  },
  {
   "property": "C91",
   "status": "partial",
   "theorems": [
    "Pyincpp.PSet.C91_set_partial",
    "Pyincpp.PSet.C91_remove_not",
    "Pyincpp.PSet.C91_reading",
    "Pyincpp.PDict.C91_dict_partial",
    "Pyincpp.PDict.C91_dict_remove_not"
   ],
   "note": "C91_set_partial, C91_dict_partial: each round visits the greatest element below the place of the iterator, which is the element visited before (the end at first). The next element is looked for from the same place, so an element added just below the place is visited. The loop is undefined exactly if a body erases the element visited before, or nothing is left below the place. C91_remove_not, C91_dict_remove_not: a loop that removes what it visits leaves half the elements, or is undefined if their number is odd. C91_reading: bodies that only read see all elements."
  },
  {
   "property": "C92",
   "status": "partial",
   "theorems": [
    "Pyincpp.Dq.C92_index",
    "Pyincpp.Dq.C92_iter_partial",
    "Pyincpp.Dq.C92_range_partial",
    "Pyincpp.Dq.C92_push_not",
    "Pyincpp.Dq.C92_pop_front_not",
    "Pyincpp.Dq.C92_pop_back_not",
    "Pyincpp.Dq.C92_in_place",
    "Pyincpp.Dq.C92_drain",
    "Pyincpp.Dq.C92_queue",
    "Pyincpp.Dq.C92_queue_levels",
    "Pyincpp.Dq.C92_stack",
    "Pyincpp.Dq.C92_end_not"
   ],
   "note": "By index: proved (C92_index), it visits the indices of the deque as it then is. With iterators: exactly if no body inserts or erases the element the loop is at (C92_iter_partial); range-based: moreover not the last element (C92_range_partial). Pushing or popping the front in the body is undefined on every nonempty deque (C92_push_not, C92_pop_front_not), popping the back for odd numbers of elements (C92_pop_back_not). Bodies that only assign or exchange are fine (C92_in_place). Loops that take elements from an end are defined whatever the bodies do (C92_drain). Queue and stack loops: proved (C92_queue, C92_queue_levels, C92_stack), up to INT_MAX elements in all."
  },
  {
   "property": "C93",
   "status": "partial",
   "theorems": [
    "Pyincpp.PSet.C93_set_partial",
    "Pyincpp.PSet.C93_set_reverse_partial",
    "Pyincpp.PSet.C93_set_forever",
    "Pyincpp.PSet.C93_set_not",
    "Pyincpp.PDict.C93_dict_partial",
    "Pyincpp.PDict.C93_dict_reverse_partial",
    "Pyincpp.Lst.C93_list_index",
    "Pyincpp.Lst.C93_list_iter_partial",
    "Pyincpp.Dq.C93_deque_index",
    "Pyincpp.Dq.C93_deque_iter_partial",
    "Pyincpp.Dq.C93_queue_not"
   ],
   "note": "Proved for loops by index over a list or deque (C93_list_index, C93_deque_index). With iterators and range-based they end unless they are undefined (C93_list_iter_partial, C93_deque_iter_partial; C89 and C92 say exactly when). Sets and dictionaries: the same for element types without endless ascending chains, descending for reverse loops (C93_set_partial, C93_set_reverse_partial, C93_dict_partial, C93_dict_reverse_partial), in particular for every finite type. False without that (C93_set_forever, C93_set_not), and for loops that pop and push (C93_queue_not)."
  },
  {
   "property": "C94",
   "status": "partial",
   "theorems": [
    "Pyincpp.Lst.C94_list_partial",
    "Pyincpp.Lst.C94_list_last_not",
    "Pyincpp.Lst.C94_list_append_not",
    "Pyincpp.Lst.C94_list_in_place",
    "Pyincpp.Lst.C94_list_ends_partial",
    "Pyincpp.Dq.C94_deque_partial",
    "Pyincpp.Dq.C94_deque_not",
    "Pyincpp.Dq.C94_deque_pop_front_not",
    "Pyincpp.Dq.C94_deque_in_place",
    "Pyincpp.Dq.C94_deque_ends_partial"
   ],
   "note": "Exact: each round reads the position before the one held. For lists that is the next lower index as long as the place behind it is not lost (C94_list_partial), for deques as long as nothing is inserted and the element behind it is not erased (C94_deque_partial). Bodies that only assign or exchange visit every index (C94_list_in_place, C94_deque_in_place). Undefined otherwise: appending to a list, inserting in a deque or popping its last element (C94_list_last_not, C94_list_append_not, C94_deque_not), and popping the first element if the length is odd (C94_deque_pop_front_not). Defined loops end after at most as many rounds as there were elements (C94_list_ends_partial, C94_deque_ends_partial)."
  },
  {
   "property": "C95",
   "status": "partial",
   "theorems": [
    "Pyincpp.Cx.C95_arith",
    "Pyincpp.Cx.C95_hash",
    "Pyincpp.Cx.C95_print_partial",
    "Pyincpp.Cx.C95_print_not",
    "Pyincpp.Cx.C95_arg_not",
    "Pyincpp.Cx.C95_programs_partial",
    "Pyincpp.Cx.C95_programs",
    "Pyincpp.Cx.C95_read",
    "Pyincpp.Cx.C95_read_zero",
    "Pyincpp.Str.C95_to_decimal",
    "Pyincpp.Str.C95_to_decimal_minus",
    "Pyincpp.Frac.C95_fraction"
   ],
   "note": "True for + - * /, unary -, conjugate and == (C95_arith), hashes (C95_hash), reading (C95_read), to_decimal (C95_to_decimal) and Fraction (C95_fraction). Programs see the same comparisons and exceptions and end with the same values (C95_programs). False of the text and of arg: -Complex(0) is printed as (-0+0j) (C95_print_not), and arg of -1+0j and -1-0j differ (C95_arg_not). C95_print_partial and C95_programs_partial say exactly where the text differs."
  },
  {
   "property": "C96",
   "status": "proved",
   "theorems": [
    "Pyincpp.C96_index",
    "Pyincpp.C96_contains",
    "Pyincpp.C96_find_count",
    "Pyincpp.C96_remove_first",
    "Pyincpp.C96_remove_all",
    "Pyincpp.C96_remove_all_self",
    "Pyincpp.C96_uniquify",
    "Pyincpp.C96_uniquify_result",
    "Pyincpp.C96_equal",
    "Pyincpp.C96_equal_tree",
    "Pyincpp.C96_nan_found",
    "Pyincpp.C96_nan_uniquify",
    "Pyincpp.C96_nan_equal",
    "Pyincpp.C96_nan_order",
    "Pyincpp.C96_complex_uniquify_not",
    "Pyincpp.C96_complex_count"
   ],
   "note": "For any function ==: C96_index, C96_contains, C96_find_count, C96_remove_first, C96_remove_all, C96_uniquify (the exact choice), C96_uniquify_result, C96_equal and C96_equal_tree (sets, dictionaries). l /= l[p] in full, also where it removes the wrong elements: C96_remove_all_self. NaN is never found, counted or removed and uniquify keeps all of them (C96_nan_found, C96_nan_uniquify, C96_nan_equal). C96_nan_order says for which doubles < is a strict weak order. With the tolerance of Complex, uniquify depends on the order (C96_complex_uniquify_not)."
  },
  {
   "property": "C97",
   "status": "proved",
   "theorems": [
    "Pyincpp.C97_set_history",
    "Pyincpp.C97_dict_history",
    "Pyincpp.C97_set_ranks",
    "Pyincpp.C97_equal",
    "Pyincpp.C97_double",
    "Pyincpp.C97_double_zero"
   ],
   "note": "C97_set_history and C97_dict_history: for every strict weak order and every sequence of operations, results, exceptions and the elements held, including which of equivalent ones, also where size() is cut to 32 bits. C97_set_ranks: seen through the rank, it is the mathematical set of C45. C97_equal: == of sets if == of the elements is equivalence. C97_double: doubles without NaN are such a type, only the two zeros are equivalent and different; C97_double_zero: the zero that came first stays."
  },
  {
   "property": "C98",
   "status": "partial",
   "theorems": [
    "Pyincpp.C98_sub",
    "Pyincpp.C98_add_partial",
    "Pyincpp.C98_add_not",
    "Pyincpp.C98_inc_dec_partial",
    "Pyincpp.C98_inc_not",
    "Pyincpp.C98_copy_partial",
    "Pyincpp.C98_copy_not",
    "Pyincpp.C98_mul_partial",
    "Pyincpp.C98_mul_not",
    "Pyincpp.C98_div_partial",
    "Pyincpp.C98_div_not",
    "Pyincpp.C98_mod_partial",
    "Pyincpp.C98_mod_not",
    "Pyincpp.C98_int_partial",
    "Pyincpp.C98_commit",
    "Pyincpp.C98_extend_partial",
    "Pyincpp.C98_extend_not",
    "Pyincpp.C98_filter_partial",
    "Pyincpp.C98_filter_not",
    "Pyincpp.C98_set_add",
    "Pyincpp.C98_set_extend_partial",
    "Pyincpp.C98_set_extend_not",
    "Pyincpp.C98_set_pop_partial",
    "Pyincpp.C98_set_pop_not",
    "Pyincpp.C98_dict_add",
    "Pyincpp.C98_dict_pop_partial",
    "Pyincpp.C98_dict_pop_not"
   ],
   "note": "False as it stands. It holds for -= (C98_sub), for += ++ -- of an Int that is not zero, for Set::add, Dict::add and the members that ask for all memory first (C98_set_add, C98_dict_add, C98_commit). For =, *=, /=, %=, for += ++ -- of zero, filter, extend and pop the _partial theorems say exactly what is left for every number of requests granted, and the _not theorems give runs that break the statement: ++ of zero leaves an Int with sign 1 and no digits, which is undefined to print. C98_int_partial bounds what is left and shows that it is in order otherwise."
  },
  {
   "property": "C99",
   "status": "partial",
   "theorems": [
    "Pyincpp.C99_cmp_partial",
    "Pyincpp.C99_cmp_low",
    "Pyincpp.C99_lowDigits",
    "Pyincpp.C99_cmp_not",
    "Pyincpp.C99_digits",
    "Pyincpp.C99_add",
    "Pyincpp.C99_add_short",
    "Pyincpp.C99_add_not",
    "Pyincpp.C99_mul",
    "Pyincpp.C99_mul_not",
    "Pyincpp.C99_inc",
    "Pyincpp.C99_inc_not",
    "Pyincpp.C99_div",
    "Pyincpp.C99_div_not",
    "Pyincpp.C99_gcd",
    "Pyincpp.C99_lcm",
    "Pyincpp.C99_factorial",
    "Pyincpp.C99_isPrime",
    "Pyincpp.C99_nextPrime",
    "Pyincpp.C99_sqrt",
    "Pyincpp.C99_log",
    "Pyincpp.C99_pow",
    "Pyincpp.C99_pow_not",
    "Pyincpp.C99_pow_base",
    "Pyincpp.C99_powmod_partial",
    "Pyincpp.C99_powmod_exact",
    "Pyincpp.C99_powmod_not",
    "Pyincpp.C99_toInteger_partial",
    "Pyincpp.C99_toInteger_low",
    "Pyincpp.C99_toInteger_not",
    "Pyincpp.C99_text_partial",
    "Pyincpp.C99_text_exact",
    "Pyincpp.C99_text_not",
    "Pyincpp.C99_partial"
   ],
   "note": "False as it stands. Up to 2^30 - 1 digits everything holds (C99_partial and the others). C99_add, C99_mul, C99_inc, C99_div, C99_digits, C99_gcd, C99_lcm, C99_factorial, C99_isPrime, C99_nextPrime, C99_sqrt, C99_log and C99_pow say for all operands exactly when the int counters suffice; otherwise the behaviour is undefined. The _not theorems give operands: dividing 2^31 digits by 1, squaring 2^30 + 1 digits, 10 to the power of 2^30. From 2^31 + 1 digits on <=> and to_integer go by the low digits only, so two different numbers can be neither less nor greater (C99_cmp_not); a text of 2^32 + 2 ones reads as 11 (C99_text_not). With a modulus the exact condition for pow goes through the remainders (C99_powmod_exact)."
  }
 ]
}
