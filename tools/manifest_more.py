status.update({
    "C23": (Q, "Proved for every text whose length fits int, every base and memory mode, except a malformed text of exactly INT_MAX characters, where leaving the loop overflows (C23_reject_not). Longer texts: C23_accept_not. C23_any_exact: any longer text is read as its first size() characters."),
    "C24": (Q, "False of the code for exponents above INT_MAX (undefined behaviour, C24_overflow_not covers all of them) and malformed texts of INT_MAX characters; all other texts proved. double is abstract; C24_exact_partial instantiates it with the rationals. Longer texts: C24_any_exact."),
    "C25": (Q, "False of the code for negative start (outside the stated range) and for stop < start within the string: undefined behaviour. The _partial and _not theorems cover every argument. Longer strings: C25_any_exact."),
    "C26": (Q, "Proved for every non-empty pattern. Empty pattern: count overflows on a string of INT_MAX characters, and replace drops what follows a NUL byte in the new text; C26_replace_empty_iff says exactly when it is right. Longer strings: C26_any_exact."),
    "C27": (Q, "False of the code for a string of INT_MAX one-byte separators: the pieces do not fit a List. C27_split_exact: this is the only exception among the strings whose length fits int. Longer strings and lists: C27_split_any_exact, C27_join_any_exact."),
    "C28": (Q, "False of the code where i += step overflows and for lists of INT_MAX elements. C28_list_slice_partial and C28_list_slice_overflow together cover every list of fewer elements. The same for Str. Longer lists: C28_list_any_exact. Longer strings: C28_str_any_exact."),
    "C29": (Q, "False of the code for >>= INT_MIN (List and Deque with two or more elements, Str with two or more characters); everything else is proved for lengths that fit int. Longer strings: C29_str_any_exact."),
    "C30": (Q, "False of the code: lower sets bit 5 and upper clears it in every byte. C30_case_exact says exactly for which strings the property holds."),
    "C31": (Q, "False of the code for bytes of 0x80 and above, which count as blank. C31_strip_exact says what is removed for every string whose length fits int and every argument; one character more and leading blanks stay (C31_strip_long_not). C31_strip_any_exact gives the outcome for every string, of whatever size. By the standard the call is undefined exactly when nothing is left, as for the empty string: `begin() + i + 1` with i = -1 forms `begin() - 1` (C31_strip_strict_exact, C31_strip_blank_not)."),
    "C32": (Q, "False of the code: erase(3, 1) is undefined behaviour. The _partial and _not theorems cover every argument, for List and Str. Longer strings: C32_str_any_exact."),
    "C33": (P, "Longer lists and deques: C33_list_any_exact and C42_deque_history_exact; indices count by size(), and are undefined if size() is INT_MIN (C33_deque_huge_not). Longer strings: C33_str_any_exact."),
    "C34": (Q, "False of the code where size * n leaves the range of int (undefined behaviour) or is exactly INT_MAX (rejected by List only). List and Str. C34_list_any_exact gives the outcome for every list, of whatever size. The same for every string: C34_str_any_exact."),
    "C35": (P, "An argument is represented by the text operator<< prints for it. A group runs from the first { to the first } behind it."),
    "C36": (Q, "Proved for every history of fair operations; Fair excludes backwards erase, >>= INT_MIN, removal by a reference into the list that gets overwritten, and += whose sum is within 1 of INT_MAX. C36_list_history_not shows the exclusions are needed. C36_list_history_exact gives the outcome of every history of lists that fit int, the excluded operations included, in both memory modes; C36_list_any_exact that of every history of lists of any size."),
    "C37": (P, ""),
    "C38": (P, "std::stable_sort is modelled as Lean's merge sort with the comparator of the call. C38_list_sort_unique: the result is the only sorted and stable arrangement."),
    "C39": (Q, "False of the code for l /= l[0]; C39_list_remove_all_self gives the exact result. filter: proved for the usual copy_if; undefined by the letter of the standard."),
    "C40": (Q, "False of the code: index reads outside the list unless 0 <= start <= min(stop, size). The _partial and _not theorems cover every argument. Longer lists: C40_list_any_exact."),
    "C41": (Q, "False of the code for extend (unchecked) and operator* (see C34) for Deque extend_back/extend_front, for Str operator+, for Set extend and |=, and for Dict extend."),
    "C42": (Q, "False of the code: >>= INT_MIN is undefined behaviour, and extending beyond INT_MAX is unchecked. Proved for every history of fair operations, Fair excluding exactly these; C42_deque_history_not shows the exclusion is needed. C42_deque_history_exact gives the outcome of every history of a deque of any size, without exclusion."),
    "C43": (P, "For every strict weak order; the compound forms also with the set itself as operand."),
    "C44": (Q, "<=, >= and == for all sets; < and > for sets of at most INT_MAX elements. False of the code beyond: size() is cut to 32 bits (C44_proper_not). C44_proper_exact says what < and > mean for sets of any size."),
    "C45": (Q, "Proved for every history of fair operations; Fair excludes growth beyond INT_MAX through extend, |= and ^=, which do not check it (C41_set_extend_not). C45_set_history_exact gives the outcome of every history of a set of any size, without exclusion."),
    "C46": (Q, "Proved for every history of fair operations; Fair excludes growth beyond INT_MAX through extend, which does not check it (C41_dict_extend_not). C46_dict_history_exact gives the outcome of every history of a dictionary of any size, without exclusion."),
    "C47": (Q, "Proved for every dictionary of at most INT_MAX pairs. False of the code beyond: keys() throws (C47_keys_not). C47_keys_exact and C47_values_exact say what dictionaries of any size give."),
    "C48": (Q, "False of the code for the empty dictionary: undefined behaviour. Proved for all others."),
    "C49": (Q, "False of the code for INT_MIN: undefined behaviour (C49_construct_not covers every such call). Proved for all other arguments; results of arithmetic: C50."),
    "C50": (Q, "Each operator: exact if and only if the stated values fit, otherwise undefined behaviour. False of the code as stated: a result numerator of INT_MIN is in range but the constructor cannot take it (C50_arithmetic_not)."),
    "C51": (P, "With the exact condition under which no overflow occurs."),
    "C52": (Q, "False of the code: < and its relatives overflow on large operands, and == compares doubles (two different fractions compare equal). The _partial theorems say exactly when < is right and give a bound under which == is. C52_equal_exact says when == is true: if one double is nearest to both values."),
    "C53": (P, "Every pair of fractions; overflow is the only other outcome, and C53_gcd_fits/C53_lcm_fits exclude it under a bound; C53_gcd_exact and C53_lcm_exact say for which rational numbers it happens."),
    "C54": (Q, "Round trip proved for every fraction and continuation. False of the code for malformed texts: +z reads as 0, numbers out of range are clamped (C54_malformed_not); all other malformed words are proved to throw."),
    "C55": (Q, "Int terminates always. Fraction and Complex: false of the code on streams without a byte above 0x20 (infinite loop); terminate on all others."),
    "C56": (Q, "Exact reals: everything but the zero test of division, which also rejects divisors below 2^-52 in both components (C56_div_not). Doubles: C56_double, exact on integer components up to 2^25; C56_double_div_overflow."),
    "C57": (Q, "False of the code: not transitive, not reflexive for infinities, hash incompatible (C57_equal_not). Symmetric always; an equivalence compatible with every hash on multiples of 2^-52. C57_equal_exact says for which numbers == is true."),
    "C58": (Q, "Exact reals. False of the code for base or exponent below 2^-52 (C58_pow_not); proved for all others. For double arithmetic, whatever the functions of <cmath> are, C58_double_exact says when pow answers 1, throws or computes."),
    "C59": (P, "Element types are any collection of types with their own ==. Up to INT_MAX elements."),
    "C60": (P, "List, Deque, Set, Dict, Tuple, Str; an element is represented by the text its own operator<< gives."),
    "C61": (Q, "All mutating operations of all classes, including operator>>, but List::map with a throwing action: false of the code (C61_list_map_not)."),
    "C62": (Q, "Well-formed texts proved. False of the code for malformed texts (C62_malformed_not: accepted; C62_malformed_ub: use of an uninitialised variable), for numbers out of range (C62_large_partial, C62_large_imag_ub) and for the round trip (C62_round_trip_not: printed in parentheses, which are not read)."),
    "C63": (Q, "All classes but Str proved, self-assignment and self-move included (a moved-from object is zero or empty). False of the code for Str: its member is const, and every assignment and move writes to it through const_cast (C63_str_not); as compilers perform it, the values are right (C63_str_partial)."),
    "C64": (Q, "Proved for every element type with a strict weak (total) order, nested sequences included, and for Str. False for elements whose < is no such order: List<Set<int>> and List<double> with NaN (C64_set_elements_not, C64_double_not; proved without NaN in C64_double_partial)."),
    "C65": (Q, "Int, Str, List, Deque proved. False of the code for Fraction (comparison overflows; proved for parts up to 32767) and for Set (< is the proper subset relation; C65_set_of_sets_not shows what a Set<Set<int>> then does)."),
    "C66": (Q, "Str proved; Fraction: equal values have equal hashes, but fractions that only compare equal need not (C66_fraction_not). Int is in C10, Complex in C57."),
    "C67": (Q, "Int: every successful read. False of the code for Fraction and for real Complex numbers at the end of the input: read correctly, but the stream has failed (the _not theorems, for every such number); proved in all other positions."),
    "C68": (Q, "Reading by count proved for the three classes. The loop is false of the code for all three: for Int it always ends with an exception, for Fraction and Complex it loses the last number or never ends; each _not theorem covers all inputs of this form."),
    "C69": (Q, "Lines proved as compilers perform the write; by the standard it is undefined, the member being const (C69_line_not). The round trip through operator<< is false for every string (C69_round_trip_not)."),
    "C70": (P, "List, Deque, Set, Dict and Str: an iterator is a position; find of List is in C40."),
    "C71": (P, "Linearly ordered keys, lawful == of values."),
    "C72": (Q, "False by the standard (C72_own_range_not) and, as libstdc++ is implemented, false for lists of elements that moving changes (C72_list_list_not: a list of lists gets empty lists appended; Int and the other number classes have move constructors that are not noexcept and are copied); C72_list_partial says exactly when the list is doubled."),
    "C73": (Q, "Proved for mantissas below 2^53 with at most 22 fraction digits and no exponent (or an exact mantissa with an exponent up to 22). False in general: C73_not (last place), C73_zero_not (0e309 is NaN), C73_inf_not, C73_long_not; C73_close_partial bounds the relative error by (4n+10) 2^-53. std::pow(10, n) is assumed exact for n <= 22, or nearest."),
    "C74": (Q, "+, - (2^-53) and * (6*2^-53 of the product of the norms, plus 2^-1072) proved. / proved within 18*2^-53 for divisors with a component of at least 2^-52; smaller ones are refused, which is false of the property (C74_div_partial says exactly when). Component by component it is false (C74_component_not), as beyond 2^512 (C74_range_not)."),
    "C75": (Q, "Proved for up to INT_MAX elements; beyond, size() is wrong (C75_size_not). Str(s.data()) == s exactly when s has no NUL (C75_data_partial, C75_data_not); Int(s.data()) is right for every literal, but accepts others as well (C75_int_data_not). The constructors of Set and Dict are in C45_set_construct and C46_dict_construct."),
    "C76": (Q, "The text, its exactness and order proved for every finite double. Reading back gives the number exactly when it is the double nearest to a six-digit decimal (C76_reread_iff), otherwise it is lost (C76_not: 1 and the next double are printed alike). Default stream format (%g, precision 6) assumed."),
    "C77": (Q, "Every program either overflows an int or ends with the exact values in lowest terms; overflow happens (C77_not), also where the result fits. C77_small: none with parts up to 32767 in +, -, *, /, %, <, up to 215 in gcd and 35 in lcm. C77_exact: which programs overflow, decided by the rational numbers alone; all others end with the exact values. C77_gcd_not: gcd overflows where none of the operators does and the result fits."),
    "C78": (P, "Nearest, relative error 2^-53, order, exactness."),
    "C79": (Q, "C79_state gives output and state for every nesting of values and every width, fill and adjustment under the default flags. False of the code: the width is used up by the first character, an Int of two digits leaves the fill character '0', showpos and oct spoil an Int (C79_not; C79_int_iff says exactly which flags). format() is right for all arguments (C79_format)."),
    "C80": (Q, "Uniform if the draws are independent and uniform (C80_uniform_partial, by counting outcomes). They come from a generator with a 32-bit seed, therefore from ten digits on some numbers are never returned (C80_not); up to nine digits the seed would suffice."),
    "C81": (Q, "False of the code: all Ints together have at most 33 hashes; C81_int_iff says exactly when two coincide. 1/2 and 7 coincide; fractions sharing a part do not. std::hash<int> is the identity."),
    "C82": (P, "The bounds are on the fuel of the model, which bounds every loop of a call. C82_gcd is Lame's theorem, C82_gcd_tight shows its order is right; C82_next_prime uses Bertrand's postulate."),
    "C83": (Q, "dict[key], and get of a held key: proved for every sequence of operations; after removal the reference dangles. get of a missing key with a temporary default returns a dangling reference (C83_get_not); C83_get_later_partial says exactly when it may be read."),
    "C84": (Q, "True for List remove and uniquify, Set add, remove and the assigning set operations, Dict add and remove (C84_*_unchanged). False for filter and /= (C84_not) and extend (C84_set_extend_not); C84_filter, C84_remove_all, C84_set_extend and C84_dict_extend give the exact state left. Which pairs a tree compares is a parameter (C119 has the trees). For sort with a comparator that throws see C114 and C117."),
    "C85": (Q, "C85_exact_partial says when the reference may be read, for every capacity and growth rule; the other theorems work it out per operation. Appending at full capacity and functions that build a new vector leave it dangling (C85_not, C85_new_buffer). Room is kept by all members but uniquify and *= (C85_room, C85_room_not)."),
    "C86": (P, "C86_exact follows the position through every sequence of operations; the reference reads the element at that position, and dangles exactly when the element has been removed. Rotation and reversal move values, not places. References to front and back are the same as by index."),
    "C87": (Q, "C87_set, C87_dict and C87_list carry the histories of C45, C46 and C36 over to elements that represent values of a linear order; C87_int, C87_str, C87_seq and C87_fraction_partial say which types do. Fractions up to parts of 32767, since < multiplies them as int; C87_fraction_exact says exactly which collections of fractions work as keys. The histories are those with fair arguments, as in C36, C45, C46. Sets as elements are left out: their < is inclusion (C65_set_not)."),
    "C88": (Q, "C88_exact, C88_loop_partial: the loop visits the next greater element that is then in the set; it is undefined exactly if a body erases the element it is at, even if it adds it again. C88_remove_not: so a loop that removes what it visits is undefined on every nonempty set. C88_behind: bodies that change only what has been visited see the original elements. Loops whose body adds ahead without end are those without a Visits derivation."),
    "C89": (Q, "By index: proved (C89_index). With iterators: exactly if no body loses the place it is at (C89_iter_partial); range-based: exactly if moreover the list keeps its length and place (C89_range_partial), as bodies that assign or exchange elements do (C89_in_place). Appending in the body is undefined on every nonempty list (C89_append_not)."),
    "C90": (Q, "C90_exact, C90_loop_partial: the loop visits the next greater key that is then held, with its value then; it is undefined exactly if a body erases the pair it is at, even if it adds it again. C90_remove_not: so a loop that removes what it visits is undefined on every nonempty dictionary. C90_update: assigning to d[k] in the loop is fine. Loops whose body adds ahead without end are those without a VisitsPairs derivation."),
    "C91": (Q, "C91_set_partial, C91_dict_partial: each round visits the greatest element below the place of the iterator, which is the element visited before (the end at first). The next element is looked for from the same place, so an element added just below the place is visited. The loop is undefined exactly if a body erases the element visited before, or nothing is left below the place. C91_remove_not, C91_dict_remove_not: a loop that removes what it visits leaves half the elements, or is undefined if their number is odd. C91_reading: bodies that only read see all elements."),
    "C92": (Q, "By index: proved (C92_index), it visits the indices of the deque as it then is. With iterators: exactly if no body inserts or erases the element the loop is at (C92_iter_partial); range-based: moreover not the last element (C92_range_partial). Pushing or popping the front in the body is undefined on every nonempty deque (C92_push_not, C92_pop_front_not), popping the back for odd numbers of elements (C92_pop_back_not). Bodies that only assign or exchange are fine (C92_in_place). Loops that take elements from an end are defined whatever the bodies do (C92_drain). Queue and stack loops: proved (C92_queue, C92_queue_levels, C92_stack), up to INT_MAX elements in all."),
    "C93": (Q, "Proved for loops by index over a list or deque (C93_list_index, C93_deque_index). With iterators and range-based they end unless they are undefined (C93_list_iter_partial, C93_deque_iter_partial; C89 and C92 say exactly when). Sets and dictionaries: the same for element types without endless ascending chains, descending for reverse loops (C93_set_partial, C93_set_reverse_partial, C93_dict_partial, C93_dict_reverse_partial), in particular for every finite type. False without that (C93_set_forever, C93_set_not), and for loops that pop and push (C93_queue_not)."),
    "C94": (Q, "Exact: each round reads the position before the one held. For lists that is the next lower index as long as the place behind it is not lost (C94_list_partial), for deques as long as nothing is inserted and the element behind it is not erased (C94_deque_partial). Bodies that only assign or exchange visit every index (C94_list_in_place, C94_deque_in_place). Undefined otherwise: appending to a list, inserting in a deque or popping its last element (C94_list_last_not, C94_list_append_not, C94_deque_not), and popping the first element if the length is odd (C94_deque_pop_front_not). Defined loops end after at most as many rounds as there were elements (C94_list_ends_partial, C94_deque_ends_partial)."),
    "C95": (Q, "True for + - * /, unary -, conjugate and == (C95_arith), hashes (C95_hash), reading (C95_read), to_decimal (C95_to_decimal) and Fraction (C95_fraction). Programs see the same comparisons and exceptions and end with the same values (C95_programs). False of the text and of arg: -Complex(0) is printed as (-0+0j) (C95_print_not), and arg of -1+0j and -1-0j differ (C95_arg_not). C95_print_partial and C95_programs_partial say exactly where the text differs."),
    "C96": (P, "For any function ==: C96_index, C96_contains, C96_find_count, C96_remove_first, C96_remove_all, C96_uniquify (the exact choice), C96_uniquify_result, C96_equal and C96_equal_tree (sets, dictionaries). l /= l[p] in full, also where it removes the wrong elements: C96_remove_all_self. NaN is never found, counted or removed and uniquify keeps all of them (C96_nan_found, C96_nan_uniquify, C96_nan_equal). C96_nan_order says for which doubles < is a strict weak order. With the tolerance of Complex, uniquify depends on the order (C96_complex_uniquify_not)."),
    "C97": (P, "C97_set_history and C97_dict_history: for every strict weak order and every sequence of operations, results, exceptions and the elements held, including which of equivalent ones, also where size() is cut to 32 bits. C97_set_ranks: seen through the rank, it is the mathematical set of C45. C97_equal: == of sets if == of the elements is equivalence. C97_double: doubles without NaN are such a type, only the two zeros are equivalent and different; C97_double_zero: the zero that came first stays."),
    "C98": (Q, "False as it stands. It holds for -= (C98_sub), for += ++ -- of an Int that is not zero, for Set::add, Dict::add and the members that ask for all memory first (C98_set_add, C98_dict_add, C98_commit). For =, *=, /=, %=, for += ++ -- of zero, filter, extend and pop the _partial theorems say exactly what is left for every number of requests granted, and the _not theorems give runs that break the statement: ++ of zero leaves an Int with sign 1 and no digits, which is undefined to print. C98_int_partial bounds what is left and shows that it is in order otherwise."),
    "C99": (Q, "False as it stands. Up to 2^30 - 1 digits everything holds (C99_partial and the others). C99_add, C99_mul, C99_inc, C99_div, C99_digits, C99_gcd, C99_lcm, C99_factorial, C99_isPrime, C99_nextPrime, C99_sqrt, C99_log and C99_pow say for all operands exactly when the int counters suffice; otherwise the behaviour is undefined. The _not theorems give operands: dividing 2^31 digits by 1, squaring 2^30 + 1 digits, 10 to the power of 2^30. From 2^31 + 1 digits on <=> and to_integer go by the low digits only, so two different numbers can be neither less nor greater (C99_cmp_not); a text of 2^32 + 2 ones reads as 11 (C99_text_not). With a modulus the exact condition for pow goes through the remainders (C99_powmod_exact)."),
    "C100": (Q, "C100_cmp, C100_add, C100_sub (linear), C100_mul (exact), C100_div_partial and C100_mod_partial: the subtractions are exactly the digit sum of the quotient, at most 9 per digit (C100_nine). C100_inc and C100_dec are exact. Counting up from zero and down to zero is constant on the average, with the exact totals (C100_count_up_partial, C100_count_down_partial). False: the shift of the divisor moves all its digits, which is not constant even on the average (C100_shift_not), and alternating ++ and -- at a power of ten is not constant on the average (C100_crement_not). C100_same: the counted functions are those of the model."),
    "C101": (Q, "Exact conditions, against definitions of Python in Spec/Python.lean. / is // exactly without remainder or with operands of the same sign (C101_floor_div). % and pow with a modulus: C101_mod, C101_pow_mod. sqrt is math.isqrt unless it runs for ever (C101_isqrt). Int(s) accepts what int(s) accepts without underscores and white space (C101_literal). Fractions: C101_fraction_mod. Witnesses: C101_floor_div_not, C101_mod_not, C101_literal_not. gcd, lcm, factorial and pow without modulus agree by C20, C15, C17."),
    "C102": (Q, "count always agrees (C102_count). Slices agree whenever the code returns; it throws where Python moves a bound (C102_slice, C102_slice_not). find agrees or is undefined, exactly when (C102_find, C102_find_not). Exact conditions: C102_replace, C102_split (the default drops empty pieces), C102_strip, C102_repeat, C102_to_integer; letters are C30. Format strings with {} fields: C102_format_partial without doubled braces, C102_format_not; other fields of Python are not compared."),
    "C103": (Q, "C103_slice, C103_insert, C103_index, C103_repeat: agreement within the bounds, outside they throw or are undefined, exactly when. Dictionaries keep the first value of a key, Python the last: C103_dict_construct, C103_dict_update, C103_dict_not. The order of iteration is that of Python exactly if the keys come in increasing order (C103_dict_order). pop takes the least key, popitem the last inserted (C103_popitem). A set is printed as in Python unless it is empty (C103_print_set). Operators of sets are C43, C44."),
    "C104": (Q, "False of the code: everything is converted to int first. Int(v) is v exactly if INT_MIN < v <= INT_MAX, otherwise it is v modulo 2^32 or undefined (C104_int, C104_int_not: Int(3000000000) = -1294967296, Int(2.5) = 2); doubles lose their fraction and are undefined if too large (C104_int_float, C104_int_special). Int(x.to_integer<T>()) is x exactly up to INT_MAX (C104_trip). A fraction as an Int is its integer part, always (C104_int_of_fraction). Fractions: C104_fraction_exact, C104_fraction_partial, C104_fraction_not. Complex: exact precisely up to 53 significant bits (C104_complex, C104_complex_not). An index of type size_t beyond the end may read another element, exactly when (C104_index, C104_index_not, C104_str_index_not); counts and shifts are C104_repeat_not, C104_rotate_partial, C104_rotate_pow, C104_rotate_not."),
    "C105": (Q, "Proved for Int, Fraction and Str (C105_int, C105_fraction, C105_str) and, if it holds of the elements, for List, Deque, Set, Dict and Tuple, to any depth (C105_sequence, C105_dict, C105_tuple, with C105_different). Strings within containers: proved without quotes (C105_str_partial), false otherwise (C105_str_not), exactly when for lists (C105_str_exact). False for Complex (C105_complex_not)."),
    "C106": (Q, "Proved for Int, List, Deque and Set of Int, Dict of Ints and Fraction (C106_int, C106_sequence, C106_dict, C106_fraction), and for lists of strings that have no quotes and are not empty (C106_strings_partial). False otherwise: C106_strings_not, and lists of lists cannot be split like that (C106_nested_not)."),
    "C107": (Q, "Exact in general: keys act as those of a finite map in every implementation if and only if == tells any two of them apart (C107_exact). Proved for Int and Str (C107_int, C107_str). Fraction: exactly if the keys have different nearest doubles (C107_fraction_exact), in particular below 2^26 (C107_fraction_partial); otherwise implementations differ in what they find (C107_fraction_not). Complex: exactly for finite keys that are not too close (C107_complex_exact, C107_complex_partial, C107_complex_not). Few comparisons is false for Int: inserting n different ones takes at least n(n-33)/66 calls of == in every implementation (C107_search_not)."),
    "C108": (Q, "The relative error can be total: 2^53 + 1 - 2^53 gives 0 (C108_relative_not). Proved instead: an error bound computed along with the expression, from the exact absolute values (C108_running_partial, all four operations, any depth); for sums ((1+2^-53)^n - 1) times the sum of the absolute values (C108_sum_partial); for products ((1+6*2^-53)^n - 1) times the absolute value and a term for underflow (C108_product_partial)."),
    "C109": (Q, "True of Int, whose digits are written one by one (C109_int), and of containers of Int (C109_containers). False of Fraction: 1234/5 is printed as 1,234/5, which cannot be read back (C109_fraction_not), and of Complex (C109_complex_not); exactly which numbers are affected in which locales is C109_fraction_exact and C109_complex_exact. What grouping inserts: C109_groups, C109_digits. Reading fractions on such streams: C110."),
    "C110": (Q, "Proved for locales whose separator and point are no digit, minus or slash, in front of the end or a blank that is not the separator (C110_round_trip_partial). False if the separator is a blank, as in French: 1 and 234 are read as 1234 (C110_blank_not), and for separators in wrong places: 12,34 is read as 1234 and only the stream shows it (C110_wrong_groups_not). A text of another locale is refused in the classic one exactly if it is grouped (C110_classic_refuses), and without groups reading is the same as in the classic locale (C110_ungrouped). C110_int_exact: what is read of groups of any sizes and any length; C110_failed_numerator: what the fraction is then."),
    "C111": (Q, "Within the expression and for copies it always holds (C111_use, C111_copy), also of exceptions. A reference to the result, or a loop over it, is undefined exactly if the object is a temporary and the last member returns a reference (C111_reference_exact, C111_list_exact for all members of List); a reference to an element exactly if the object is a temporary (C111_part_exact). Witnesses: C111_loop_not, C111_part_not. On variables references are aliases (C111_alias). C111_no_leak: no temporary is left over. C111_list_value_partial: what a chain of members of List gives. The same for Int (C111_int_value_exact, C111_int_copy, C111_int_exact), Set (C111_set_value, C111_set_exact) and Deque (C111_deque_value_partial, C111_deque_not: its members return references only). C111_str: members of Str return by value only, so that references to their results are always in order."),
    "C112": (Q, "True of index, count, -= and /=, with the exact numbers for every == (C112_find, C112_count, C112_remove_first, C112_remove_all), and of appending (C112_append_partial: three elements at most). False of uniquify, which takes between d(d-1)/2 + (n-d) and d(d-1)/2 + (n-d)d calls for n elements of which d are different (C112_uniquify_partial, C112_uniquify_different, C112_uniquify_not), and of inserting in front, which writes n(n+1)/2 elements for n insertions (C112_prepend_exact, C112_prepend_not). C112_same: the counted functions are those of the model."),
    "C113": (P, "For every function that says what moving leaves, std::reverse, std::rotate, std::remove and the insert and erase of std::vector, written out as the moves and swaps of libstdc++, give what Model/List.lean gives (C113_reverse, C113_rotate, C113_erase, C113_remove, C113_insert). For /= with an element of the list itself this holds if that element equals itself or no element equals it (C113_remove_all); without this it does not (C113_remove_all_needs), but no type of the library has such an equality. The moves of std::stable_sort are in C114. Not modelled: insert when the vector has to grow, which copies."),
    "C114": (Q, "std::stable_sort of libstdc++ 13 written out in moves, with insertion sort of chunks of 7, merging through the buffer and merging backward. C114_any: with every comparator that returns, sort returns, stays in its memory, and the list has the same elements as before. C114_order: with a strict weak order the result is that of Model/List.lean, the stable sort of C38, whatever moving leaves. A comparator that throws can lose elements (C114_two, C114_throw_not), because they are in the buffer or in a local variable; C114_safe_partial: still, sort stays in its memory, ends, lets nothing out but what the comparator throws, and the list keeps its length and has only elements of before and what moving leaves of them. The full statement asks that elements are kept when the comparator throws, which is false. Less memory for the buffer: C117."),
    "C115": (Q, "The functions with counts of what they look at are those of Model/Str.lean (C115_same, C115_same_integer). C115_find_partial: find passes one character for every place up to the occurrence, and compares at most the length of the pattern at each place that has its first character. C115_scan_partial, C115_ends: all searches of count, replace or split together pass an exact number of characters, not more than the string has (C115_passed), with the same bound for comparisons. C115_to_integer_partial: to_integer takes at most 7n*n + 4n rounds and writes at most 8n*n + 9n digits. The full statement says linear, and is false: a...ab in a...a (C115_linear_not), and every decimal numeral without leading zeros takes between n*n and 11n*n rounds (C115_to_integer_square, C115_to_integer_not). Comparisons are counted as std::string_view::find of libstdc++ 13 makes them: it looks for the first character, then compares the pattern up to the first difference."),
    "C116": (P, "C116_state: the outcome and the list are those of C114 for every comparator whose answer does not depend on its state. C116_calls, C116_log: the number of calls, for every comparator, also one that throws. C116_order: with a strict weak order both together, for the stable sort of C38. The condition is needed: with a comparator that says no first and yes after, sort goes over the beginning of every list of three or more elements (C116_state_not)."),
    "C117": (P, "__inplace_stable_sort, __merge_without_buffer, __stable_sort_adaptive_resize, __merge_adaptive_resize and __rotate_adaptive of libstdc++ 13 written out; std::rotate is that of C113. C117_order: with a strict weak order the result is that of C38 for every size of the buffer. C117_any: with every comparator that returns, the elements are kept. C117_safe: for every comparator, also one that throws. C117_enough: with memory for half the elements the steps are those of C114. With a comparator that is no order the result does depend on the memory (C117_memory_not)."),
    "C118": (Q, "The functions of stl_tree.h that search, link and unlink nodes written out; the rebalancing of tree.cc is any that keeps the order and gives red-black trees (C118_exists: there is one). C118_set and C118_dict: every history, with the number of comparisons; C118_find, C118_add, C118_hint, C118_remove, C118_extend, C118_operators, C118_le: each function. Adding loses nothing with any comparator (C118_add_any), extending with one that does not say yes both ways (C118_extend_any_partial); with <= for < extending overwrites a child of a node (C118_extend_any_not)."),
    "C119": (P, "On the trees of C118. C119_set_step and C119_dict_step: what each call does; C119_set_strong and C119_dict_strong: a call other than extend leaves the tree itself as it was; C119_set and C119_dict: every history. C119_no_compare: the calls that never compare. a range that is half added (C119_extend_leaves)."),
    "C120": (P, "The functions of stl_deque.h and deque.tcc written out: iterators (C120_iterator_add, C120_iterator_sub), moving the pointers to the blocks, new and freed blocks. C120_push_back, C120_push_front, C120_pop_back, C120_pop_front: each function, with the places of the elements; C120_history: every history with memory; C120_memory: every history with any memory."),
    "C121": (P, "The functions of stl_deque.h and deque.tcc written out for a range at the end and at the begin. C121_extend_back, C121_extend_front: the elements, or bad_alloc and nothing changed, with the places of the elements; C121_requests_back, C121_requests_front: how much memory is enough; C121_no_leak_back, C121_no_leak_front: a failing call keeps no block."),
})
