{"id": "C01", "title": "Int literal parsing and printing", "statement": "Int(chars) accepts exactly the texts [+-]?[0-9]+ and throws runtime_error(\"Error: Wrong integer literal.\") on every other text; on an accepted text the value is the integer the decimal numeral denotes, and streaming it out prints the canonical numeral (no leading zeros, no '+', never \"-0\").", "quantifier": "every null-terminated byte string, of any length", "why_tests_cant": "infinitely many texts, including arbitrarily long ones with leading zeros", "anchors": ["sources/int.hpp: Int(const char*)", "sources/int.hpp: is_integer", "sources/int.hpp: operator<<"]}
{"id": "C02", "title": "Int print/parse round trip", "statement": "For every Int value z, Int(text printed for z) == z, and reading it back with operator>> from a stream holding that text gives z.", "quantifier": "every integer", "why_tests_cant": "values are unbounded", "anchors": ["sources/int.hpp: operator<<", "sources/int.hpp: operator>>", "sources/int.hpp: Int(const char*)"]}
{"id": "C03", "title": "Int addition and subtraction are exact", "statement": "For all Ints a and b with mathematical values x and y, a + b has value x + y and a - b has value x - y, for every combination of signs and lengths.", "quantifier": "every pair of integers", "why_tests_cant": "carry and borrow chains can be arbitrarily long", "anchors": ["sources/int.hpp: operator+=", "sources/int.hpp: operator-=", "sources/int.hpp: operator+", "sources/int.hpp: operator-"]}
{"id": "C04", "title": "Int arithmetic stays inside its buffers", "statement": "No Int operation reads or writes an element outside the vector of digits it works on.", "quantifier": "every pair of operands", "why_tests_cant": "an out-of-bounds access one past the end usually goes unnoticed at run time and depends on operand lengths", "anchors": ["sources/int.hpp: operator-=", "sources/int.hpp: operator+=", "sources/int.hpp: operator*=", "sources/int.hpp: abs_inc", "sources/int.hpp: abs_dec"]}
{"id": "C05", "title": "Int compound assignment with itself as right operand", "statement": "x += x, x -= x, x *= x, x /= x and x %= x leave in x the value x+x, x-x, x*x, x/x and x%x, as the non-assigning operators would compute from copies.", "quantifier": "every integer x", "why_tests_cant": "aliasing changes the algorithm only for particular digit patterns", "anchors": ["sources/int.hpp: operator+=", "sources/int.hpp: operator-=", "sources/int.hpp: operator*=", "sources/int.hpp: operator/=", "sources/int.hpp: operator%="]}
{"id": "C06", "title": "Int multiplication is exact", "statement": "a * b has exactly the product of the two values, for all signs and lengths, and no intermediate digit accumulator overflows int.", "quantifier": "every pair of integers", "why_tests_cant": "unbounded operand lengths", "anchors": ["sources/int.hpp: operator*=", "sources/int.hpp: operator*"]}
{"id": "C07", "title": "Int division truncates toward zero", "statement": "a / b is the quotient of the values rounded toward zero; dividing by zero throws runtime_error(\"Error: Divide by zero.\") and never returns.", "quantifier": "every pair of integers", "why_tests_cant": "long division on unbounded operands; the digit loop must never miss or repeat a subtraction", "anchors": ["sources/int.hpp: operator/=", "sources/int.hpp: operator/", "sources/utility.hpp: check_zero"]}
{"id": "C08", "title": "Int division and remainder agree", "statement": "For every b != 0, a == (a / b) * b + a % b, with |a % b| < |b|; a % 0 throws.", "quantifier": "every pair of integers, all sign combinations", "why_tests_cant": "four sign combinations times unbounded lengths", "anchors": ["sources/int.hpp: operator%=", "sources/int.hpp: operator%", "sources/int.hpp: operator/="]}
{"id": "C09", "title": "Int comparison is the order of the integers", "statement": "a == b holds exactly when the values are equal and a <=> b is negative, zero or positive exactly as x < y, x = y, x > y; hence the six comparison operators form a total order.", "quantifier": "every pair of integers", "why_tests_cant": "infinitely many pairs", "anchors": ["sources/int.hpp: operator==", "sources/int.hpp: operator<=>", "sources/int.hpp: abs_cmp"]}
{"id": "C10", "title": "Int values are canonical after any history", "statement": "After any sequence of constructions, assignments, arithmetic operations, increments and decrements, every Int variable holds the value that the same sequence gives on mathematical integers, in a representation that is unique for the value, so equal values compare equal, print equally and hash equally.", "quantifier": "every finite program over Int variables", "why_tests_cant": "unbounded histories", "anchors": ["sources/int.hpp: trim", "sources/int.hpp: operator==", "sources/int.hpp: std::hash<pyincpp::Int>"]}
{"id": "C11", "title": "Int increment and decrement", "statement": "++x adds exactly 1 and --x subtracts exactly 1, for every x, including across zero and across runs of 9s and 0s.", "quantifier": "every integer", "why_tests_cant": "carry chains of any length", "anchors": ["sources/int.hpp: operator++", "sources/int.hpp: operator--", "sources/int.hpp: abs_inc", "sources/int.hpp: abs_dec"]}
{"id": "C12", "title": "Int inspectors", "statement": "digits() is the number of decimal digits of |x| (0 for zero); is_zero, is_positive, is_negative, is_even, is_odd say exactly that of the value; abs() and unary minus return |x| and -x.", "quantifier": "every integer", "why_tests_cant": "unbounded values", "anchors": ["sources/int.hpp: digits", "sources/int.hpp: is_even", "sources/int.hpp: is_odd", "sources/int.hpp: is_zero", "sources/int.hpp: abs", "sources/int.hpp: operator-()"]}
{"id": "C13", "title": "Int::is_prime decides primality", "statement": "is_prime() returns, for every x, true exactly when x is a prime number (false for negatives, 0 and 1), and always terminates.", "quantifier": "every integer", "why_tests_cant": "tests try a dozen numbers", "anchors": ["sources/int.hpp: is_prime"]}
{"id": "C14", "title": "Int::next_prime is the least larger prime", "statement": "next_prime() terminates for every x and returns the smallest prime strictly greater than x.", "quantifier": "every integer", "why_tests_cant": "no prime may be skipped anywhere; termination rests on the infinitude of primes", "anchors": ["sources/int.hpp: next_prime"]}
{"id": "C15", "title": "Int::factorial", "statement": "factorial() of x >= 0 is x!; of a negative x it throws runtime_error(\"Error: Negative integer have no factorial.\").", "quantifier": "every integer", "why_tests_cant": "unbounded", "anchors": ["sources/int.hpp: factorial"]}
{"id": "C16", "title": "Int::sqrt returns the integer square root", "statement": "sqrt(x) terminates for every x >= 0 and returns the r with r*r <= x < (r+1)*(r+1); for negative x it throws.", "quantifier": "every integer", "why_tests_cant": "a Newton iteration may fail to settle on particular values only", "anchors": ["sources/int.hpp: sqrt"]}
{"id": "C17", "title": "Int::pow without modulus", "statement": "pow(b, e) equals b**e for every e >= 0; for e < 0 it is 1 or -1 when |b| = 1, 0 when |b| > 1 and an exception when b = 0.", "quantifier": "every pair of integers", "why_tests_cant": "unbounded exponents and bases", "anchors": ["sources/int.hpp: pow"]}
{"id": "C18", "title": "Int::pow with modulus", "statement": "pow(b, e, m) for m != 0 and e >= 0 equals (b**e) % m as the two operators would compute it.", "quantifier": "every triple of integers", "why_tests_cant": "the reduction happens at every step, so sign and range errors depend on the whole square-and-multiply trace", "anchors": ["sources/int.hpp: pow"]}
{"id": "C19", "title": "Int::log is the floor logarithm", "statement": "log(x, b) for x > 0 and b >= 2 is the largest k with b**k <= x; it throws for x <= 0 or b < 2.", "quantifier": "every pair of integers", "why_tests_cant": "off-by-one can appear only near powers of the base", "anchors": ["sources/int.hpp: log"]}
{"id": "C20", "title": "Int::gcd and Int::lcm", "statement": "gcd(a, b) is the non-negative greatest common divisor (gcd(0,0) = 0) and lcm(a, b) the non-negative least common multiple (0 if either is 0), for all signs; both always terminate.", "quantifier": "every pair of integers", "why_tests_cant": "unbounded values; termination of Euclid's loop", "anchors": ["sources/int.hpp: gcd", "sources/int.hpp: lcm", "sources/utility.hpp: gcd"]}
{"id": "C21", "title": "Conversions between Int and machine integers", "statement": "Int(n) has the value n for every int n, and to_integer<T>() of any Int whose value fits T gives that value back.", "quantifier": "every int value and every integer type", "why_tests_cant": "boundary values such as INT_MIN", "anchors": ["sources/int.hpp: Int(int)", "sources/int.hpp: to_integer"]}
{"id": "C22", "title": "Int::random has exactly the requested length", "statement": "random(d) with d >= 0 returns a non-negative Int with exactly d decimal digits whatever the random source yields; random(d) with d < -1 throws; random() has at most 4300 digits.", "quantifier": "every d and every sequence of random draws", "why_tests_cant": "the outcome depends on random draws", "anchors": ["sources/int.hpp: random"]}
{"id": "C23", "title": "Str::to_integer grammar and value", "statement": "to_integer(base) throws for base outside 2..36; otherwise it accepts exactly blank* [+-]? digit+ blank* with digits of that base in either case, returning the number denoted, and throws on every other text.", "quantifier": "every byte string and every base", "why_tests_cant": "infinitely many texts; 35 bases", "anchors": ["sources/str.hpp: to_integer", "sources/str.hpp: get_event", "sources/str.hpp: char_to_integer"]}
{"id": "C24", "title": "Str::to_decimal grammar and value", "statement": "to_decimal() accepts exactly the listed inf/nan spellings and blank* [+-]? (d+ [.d*]? | .d+) ([eE][+-]?d+)? blank*, and evaluates the sign, mantissa digits, fraction length and exponent that the text denotes; every other text throws.", "quantifier": "every byte string", "why_tests_cant": "the accepted language is infinite and defined by a state machine", "anchors": ["sources/str.hpp: to_decimal", "sources/str.hpp: get_event"]}
{"id": "C25", "title": "Str::find and contains", "statement": "find(p, start, stop) with 0 <= start returns the least index i >= start at which p occurs entirely before stop, or -1 if there is none; contains says whether find succeeds; no memory outside the string is touched.", "quantifier": "every string, pattern, start and stop", "why_tests_cant": "boundary combinations are unbounded", "anchors": ["sources/str.hpp: find", "sources/str.hpp: contains"]}
{"id": "C26", "title": "Str::count and replace use the left-to-right non-overlapping occurrences", "statement": "For a non-empty pattern, count(p) is the number of occurrences met by the greedy left-to-right scan, replace(p, q) rewrites exactly those, |replace| = |s| + count*(|q|-|p|), and replace(p, p) is the identity; for the empty pattern count is size()+1 and replace inserts q around every character.", "quantifier": "all strings", "why_tests_cant": "unbounded inputs; overlapping patterns", "anchors": ["sources/str.hpp: count", "sources/str.hpp: replace"]}
{"id": "C27", "title": "Str::split and join are inverse", "statement": "For non-empty sep, sep.join(s.split(sep, true)) == s, no piece contains sep, the number of pieces is s.count(sep)+1, and s.split(sep) is the same list without the empty pieces; an empty sep throws.", "quantifier": "all strings and separators", "why_tests_cant": "unbounded inputs", "anchors": ["sources/str.hpp: split", "sources/str.hpp: join"]}
{"id": "C28", "title": "Slicing follows Python's rule", "statement": "slice(start, stop, step) of a List or Str with step != 0 and indices in range returns exactly the elements at start, start+step, ... before stop (negative indices counted from the end), never touches an element out of range, and throws for step 0 or indices out of range.", "quantifier": "every sequence, start, stop, step", "why_tests_cant": "three unbounded parameters with sign cases", "anchors": ["sources/list.hpp: slice", "sources/str.hpp: slice"]}
{"id": "C29", "title": "Rotation", "statement": "Rotating a List, Deque or Str left by n moves the element at position (i+n) mod size to position i for every int n; right rotation by n is left rotation by -n; rotating left by m and then by n is rotating by m+n, and left then right by n restores the sequence.", "quantifier": "every sequence and every int n", "why_tests_cant": "n may be negative, larger than the size or extreme", "anchors": ["sources/list.hpp: operator<<=", "sources/list.hpp: operator>>=", "sources/deque.hpp: operator<<=", "sources/deque.hpp: operator>>=", "sources/str.hpp: operator<<", "sources/str.hpp: operator>>"]}
{"id": "C30", "title": "Str::lower and upper change only letter case", "statement": "lower() maps A-Z to a-z and upper() maps a-z to A-Z and both leave every other character unchanged; both keep the length.", "quantifier": "every string", "why_tests_cant": "256 characters in any combination", "anchors": ["sources/str.hpp: lower", "sources/str.hpp: upper"]}
{"id": "C31", "title": "Str::strip removes exactly the blank (or given) ends", "statement": "strip() removes the longest prefix and suffix of blank characters (code <= 0x20) and nothing else; strip(c) removes the longest prefix and suffix of c; the result neither starts nor ends with such a character.", "quantifier": "every string and character", "why_tests_cant": "all byte values at the ends", "anchors": ["sources/str.hpp: strip"]}
{"id": "C32", "title": "erase of a range", "statement": "erase(start, stop) on List or Str removes exactly the elements at start..stop-1, throws when an index is out of [0, size], and has no other effect whatever the arguments.", "quantifier": "every sequence, start, stop", "why_tests_cant": "argument combinations such as start > stop", "anchors": ["sources/list.hpp: erase", "sources/str.hpp: erase"]}
{"id": "C33", "title": "Element access by index", "statement": "seq[i] on List, Deque and Str returns the element at i for 0 <= i < size and at size+i for -size <= i < 0 and throws runtime_error(\"Error: Index out of range.\") for every other int.", "quantifier": "every sequence whose number of elements fits int, every int", "why_tests_cant": "all ints", "anchors": ["sources/list.hpp: operator[]", "sources/deque.hpp: operator[]", "sources/str.hpp: operator[]", "sources/utility.hpp: check_bounds"]}
{"id": "C34", "title": "Repetition", "statement": "seq * n for List and Str is the concatenation of n copies for every n >= 0 and throws for n < 0.", "quantifier": "every sequence and int n", "why_tests_cant": "size * n may exceed int", "anchors": ["sources/list.hpp: operator*", "sources/list.hpp: operator*=", "sources/str.hpp: operator*"]}
{"id": "C35", "title": "Str::format", "statement": "format(args...) replaces the i-th {...} group, scanned left to right, by the text of the i-th argument, copies everything else verbatim, and ignores surplus arguments.", "quantifier": "every format string and argument list", "why_tests_cant": "unbounded", "anchors": ["sources/str.hpp: format", "sources/str.hpp: format_helper"]}
{"id": "C36", "title": "List behaves as a sequence under any history", "statement": "After any sequence of insert, remove, append, extend, remove-first, remove-all, rotate, reverse, erase, clear and element assignment, a List holds the sequence the same operations give on an abstract sequence, every return value and exception agree, and an operation that throws leaves the list unchanged.", "quantifier": "every finite history of operations", "why_tests_cant": "unbounded histories", "anchors": ["sources/list.hpp: insert", "sources/list.hpp: remove", "sources/list.hpp: operator+=", "sources/list.hpp: operator-=", "sources/list.hpp: operator/=", "sources/list.hpp: erase", "sources/list.hpp: clear"]}
{"id": "C37", "title": "List::uniquify keeps first occurrences in order", "statement": "uniquify() leaves each distinct value exactly once, in the order of first occurrence, and loses none.", "quantifier": "every list", "why_tests_cant": "unbounded", "anchors": ["sources/list.hpp: uniquify"]}
{"id": "C38", "title": "List::sort is a stable sort", "statement": "sort(cmp) with a strict weak order yields a permutation of the list, ordered by cmp, in which equivalent elements keep their relative order.", "quantifier": "every list and strict weak order", "why_tests_cant": "unbounded", "anchors": ["sources/list.hpp: sort"]}
{"id": "C39", "title": "List remove-all, filter and map", "statement": "l /= e leaves exactly the elements different from e in order, whatever e refers to; filter(p) leaves exactly those satisfying p in order; map(f) applies f to each element once.", "quantifier": "every list, element and predicate", "why_tests_cant": "in-place algorithms may overwrite what they still have to read", "anchors": ["sources/list.hpp: operator/=", "sources/list.hpp: filter", "sources/list.hpp: map"]}
{"id": "C40", "title": "List searching", "statement": "index(e, start, stop) is the least i in [start, min(stop, size)) with l[i] == e or -1; count(e) is the number of i with l[i] == e; find, contains and index agree; no element outside the list is read.", "quantifier": "every list, element, start, stop", "why_tests_cant": "all argument combinations", "anchors": ["sources/list.hpp: index", "sources/list.hpp: contains", "sources/list.hpp: count", "sources/list.hpp: find"]}
{"id": "C41", "title": "Container sizes never exceed INT_MAX through checked operations", "statement": "push, insert, += and add on any container throw instead of letting size() exceed INT_MAX, so size() is never negative, and no size computation overflows int.", "quantifier": "every container size", "why_tests_cant": "sizes near 2^31 cannot be tested", "anchors": ["sources/utility.hpp: check_full", "sources/list.hpp: operator+=", "sources/list.hpp: insert", "sources/deque.hpp: push_back", "sources/set.hpp: add", "sources/dict.hpp: add", "sources/list.hpp: operator*"]}
{"id": "C42", "title": "Deque behaves as a double-ended queue under any history", "statement": "After any sequence of push/pop/extend at either end, rotate, reverse and clear, the deque holds what the same operations give on an abstract sequence; pops and peeks return the right end and throw on an empty deque without changing it.", "quantifier": "every finite history", "why_tests_cant": "unbounded histories", "anchors": ["sources/deque.hpp: push_back", "sources/deque.hpp: pop_front", "sources/deque.hpp: extend_front", "sources/deque.hpp: operator>>="]}
{"id": "C43", "title": "Set algebra", "statement": "For all Sets, x is in a&b, a|b, a-b, a^b exactly when it is in both, in either, in a only, in exactly one; the compound forms update the left operand to the same set.", "quantifier": "every pair of sets and element", "why_tests_cant": "unbounded", "anchors": ["sources/set.hpp: operator&", "sources/set.hpp: operator|", "sources/set.hpp: operator-", "sources/set.hpp: operator^"]}
{"id": "C44", "title": "Set relations", "statement": "a <= b exactly when every element of a is in b; a < b exactly when moreover a != b; == exactly when they have the same elements; > and >= are the converses.", "quantifier": "every pair of sets", "why_tests_cant": "unbounded", "anchors": ["sources/set.hpp: operator<=", "sources/set.hpp: operator<", "sources/set.hpp: operator=="]}
{"id": "C45", "title": "Set behaves as a mathematical set under any history", "statement": "After any history of add, remove, pop, extend, clear and set operations a Set holds the elements the history implies, iterates them strictly increasing without duplicates, add/remove report whether the set changed, min/max/pop return the least/greatest/least element and throw on an empty set.", "quantifier": "every finite history", "why_tests_cant": "unbounded histories", "anchors": ["sources/set.hpp: add", "sources/set.hpp: remove", "sources/set.hpp: pop", "sources/set.hpp: min", "sources/set.hpp: max", "sources/set.hpp: extend"]}
{"id": "C46", "title": "Dict behaves as a finite map under any history", "statement": "After any history of add, remove, d[k]=v, pop, extend and clear, lookup of every key gives the value the history implies: add and extend never overwrite, [] throws on a missing key, get falls back to the default, size counts the keys, iteration is in increasing key order.", "quantifier": "every finite history and key", "why_tests_cant": "unbounded histories", "anchors": ["sources/dict.hpp: add", "sources/dict.hpp: remove", "sources/dict.hpp: operator[]", "sources/dict.hpp: get", "sources/dict.hpp: pop", "sources/dict.hpp: extend"]}
{"id": "C47", "title": "Dict views", "statement": "keys(), values() and items() contain exactly the keys, the values and the pairs of the dictionary.", "quantifier": "every dictionary", "why_tests_cant": "unbounded", "anchors": ["sources/dict.hpp: keys", "sources/dict.hpp: values", "sources/dict.hpp: items"]}
{"id": "C48", "title": "Dict min and max", "statement": "min() and max() return the least and greatest key, and report an error on an empty dictionary.", "quantifier": "every dictionary", "why_tests_cant": "the empty case and all others", "anchors": ["sources/dict.hpp: min", "sources/dict.hpp: max"]}
{"id": "C49", "title": "Fraction is always in lowest terms", "statement": "Every Fraction obtained by construction or arithmetic has a positive denominator coprime to the numerator and represents numerator/denominator of its arguments; a zero denominator throws.", "quantifier": "every pair of ints", "why_tests_cant": "2^64 argument pairs, including INT_MIN", "anchors": ["sources/fraction.hpp: Fraction(int, int)"]}
{"id": "C50", "title": "Fraction arithmetic is exact", "statement": "Whenever no intermediate product leaves the range of int, +, -, *, /, unary minus, abs, ++ and -- give exactly the rational result in lowest terms; dividing by zero throws.", "quantifier": "every pair of fractions", "why_tests_cant": "2^128 operand pairs", "anchors": ["sources/fraction.hpp: operator+", "sources/fraction.hpp: operator-", "sources/fraction.hpp: operator*", "sources/fraction.hpp: operator/", "sources/fraction.hpp: abs"]}
{"id": "C51", "title": "Fraction remainder", "statement": "a % b for b != 0 is a - b*trunc(a/b) exactly (when no int overflow occurs), so |a % b| < |b|; a % 0 throws.", "quantifier": "every pair of fractions", "why_tests_cant": "all sign combinations", "anchors": ["sources/fraction.hpp: operator%"]}
{"id": "C52", "title": "Fraction comparison is the order of the rationals", "statement": "a == b exactly when the rationals are equal, and a < b, a > b, <=, >= exactly as the rationals compare.", "quantifier": "every pair of fractions", "why_tests_cant": "near-equal fractions and overflow only for particular operands", "anchors": ["sources/fraction.hpp: operator<=>", "sources/fraction.hpp: operator double"]}
{"id": "C53", "title": "Fraction gcd and lcm", "statement": "gcd(a, b) is the greatest rational g >= 0 such that a and b are integer multiples of g (0 when both are 0), lcm(a, b) the least positive common integer multiple (0 when one is 0), when no int overflow occurs; the computation terminates.", "quantifier": "every pair of fractions", "why_tests_cant": "Euclid on rationals: termination and correctness are not obvious", "anchors": ["sources/fraction.hpp: gcd", "sources/fraction.hpp: lcm", "sources/utility.hpp: gcd"]}
{"id": "C54", "title": "Fraction print/parse round trip", "statement": "Reading with operator>> the text that operator<< printed for f, followed by white space or end of input, yields f; malformed literals throw.", "quantifier": "every fraction and every stream continuation", "why_tests_cant": "unbounded contexts", "anchors": ["sources/fraction.hpp: operator<<", "sources/fraction.hpp: operator>>"]}
{"id": "C55", "title": "Reading a number from a stream always terminates", "statement": "operator>> on Fraction, Complex and Int terminates on every finite stream, including an empty or exhausted one.", "quantifier": "every stream content", "why_tests_cant": "tests read only streams that hold enough numbers", "anchors": ["sources/fraction.hpp: operator>>", "sources/complex.hpp: operator>>", "sources/int.hpp: operator>>"]}
{"id": "C56", "title": "Complex arithmetic", "statement": "+, -, *, /, unary minus and conjugate implement complex arithmetic: with exact real arithmetic the results are those of the complex field; dividing by zero throws.", "quantifier": "every pair of complex numbers", "why_tests_cant": "uncountably many operands", "anchors": ["sources/complex.hpp: operator*", "sources/complex.hpp: operator/", "sources/complex.hpp: conjugate"]}
{"id": "C57", "title": "Complex equality is an equivalence compatible with hashing", "statement": "== on Complex is reflexive, symmetric and transitive, and equal numbers have equal hashes.", "quantifier": "every triple of complex numbers", "why_tests_cant": "depends on values closer than epsilon", "anchors": ["sources/complex.hpp: operator==", "sources/complex.hpp: std::hash<pyincpp::Complex>"]}
{"id": "C58", "title": "Complex::pow", "statement": "pow(b, e) is the principal value exp(e*log b) for b != 0, 1 for e = 0, and throws for b = 0 and e != 0 (exact real arithmetic).", "quantifier": "every pair of complex numbers", "why_tests_cant": "uncountably many operands", "anchors": ["sources/complex.hpp: pow"]}
{"id": "C59", "title": "Tuple equality, access and rest", "statement": "Two tuples are equal exactly when they have the same length, the same element types in order and pairwise equal elements; get<i> returns the i-th constructor argument; rest drops the first; size is the number of elements.", "quantifier": "every tuple shape", "why_tests_cant": "unbounded shapes", "anchors": ["sources/tuple.hpp: operator==", "sources/tuple.hpp: get", "sources/tuple.hpp: rest", "sources/tuple.hpp: size"]}
{"id": "C60", "title": "Printing of containers", "statement": "Every container prints open bracket, the elements' own texts separated by \", \", close bracket, with nothing before the first and after the last; a one-element tuple prints a trailing comma.", "quantifier": "every container of any size", "why_tests_cant": "unbounded", "anchors": ["sources/utility.hpp: print", "sources/list.hpp: operator<<", "sources/deque.hpp: operator<<", "sources/set.hpp: operator<<", "sources/dict.hpp: operator<<", "sources/tuple.hpp: operator<<"]}
{"id": "C61", "title": "An operation that throws changes nothing", "statement": "When a mutating operation of List, Deque, Set, Dict, Int or Fraction throws, the object still has the value it had before.", "quantifier": "every object and argument for which the call throws", "why_tests_cant": "every error path of every operation", "anchors": ["sources/list.hpp: insert", "sources/list.hpp: remove", "sources/deque.hpp: pop_back", "sources/set.hpp: pop", "sources/dict.hpp: pop", "sources/int.hpp: operator/=", "sources/fraction.hpp: operator/="]}
{"id": "C62", "title": "Complex print/parse", "statement": "Reading a floating point literal, the same followed by j, or two literals (the second signed and followed by j) yields the complex number with the nearest doubles; a malformed literal throws and changes nothing; reading what operator<< printed yields the number.", "quantifier": "every text and every stream continuation", "why_tests_cant": "unbounded contexts", "anchors": ["sources/complex.hpp: operator<<", "sources/complex.hpp: operator>>"]}
{"id": "C63", "title": "Copying and moving", "statement": "a = b and copy construction give a the value of b and change nothing else, self-assignment changes nothing; moving gives a the value of b and leaves b a valid object (zero or empty), and is defined behaviour for every class.", "quantifier": "every pair of objects and every store of other objects", "why_tests_cant": "every combination of aliasing and previous value", "anchors": ["sources/int.hpp: operator=", "sources/fraction.hpp: operator=", "sources/complex.hpp: operator=", "sources/str.hpp: operator=", "sources/list.hpp: operator=", "sources/deque.hpp: operator=", "sources/set.hpp: operator=", "sources/dict.hpp: operator="]}
{"id": "C64", "title": "Sequences compare like words in a dictionary", "statement": "<, >, <=, >= on List, Deque and Str are the lexicographic order of the element order, == is elementwise equality, and exactly one of <, ==, > holds.", "quantifier": "every pair of sequences, every element order", "why_tests_cant": "unbounded lengths and element types", "anchors": ["sources/list.hpp: operator<=>", "sources/deque.hpp: operator<=>", "sources/str.hpp: operator<=>"]}
{"id": "C65", "title": "The library's own types can be used as set elements and keys", "statement": "operator< of Int, Str, Fraction, List, Deque and Set is a strict weak order and never undefined, so that Set<T> and Dict<T, V> work for these T.", "quantifier": "every triple of values", "why_tests_cant": "transitivity of incomparability fails only for particular triples", "anchors": ["sources/int.hpp: operator<=>", "sources/str.hpp: operator<=>", "sources/fraction.hpp: operator<=>", "sources/list.hpp: operator<=>", "sources/set.hpp: operator<"]}
{"id": "C66", "title": "Equal objects have equal hashes", "statement": "If a == b then std::hash gives the same value for a and b (Fraction, Str).", "quantifier": "every pair of objects, every hash of the underlying library", "why_tests_cant": "== of Fraction compares doubles; it needs fractions closer than 2^-53", "anchors": ["sources/fraction.hpp: std::hash<pyincpp::Fraction>", "sources/str.hpp: std::hash<pyincpp::Str>"]}
{"id": "C67", "title": "A successful read leaves the stream good", "statement": "After is >> x has read a well-formed number without throwing, the stream has not failed, so that if (is >> x) is true exactly when x was read.", "quantifier": "every text, with everything that may precede and follow it", "why_tests_cant": "depends on what follows the number, the end of input in particular", "anchors": ["sources/int.hpp: operator>>", "sources/fraction.hpp: operator>>", "sources/complex.hpp: operator>>"]}
{"id": "C68", "title": "Reading many numbers", "statement": "Reading n numbers from a stream holding n texts separated by blanks gives them in order, and the loop while (is >> x) collects exactly these and ends.", "quantifier": "every number of texts, every choice of blanks", "why_tests_cant": "unbounded sequences; tests read a fixed number of values", "anchors": ["sources/int.hpp: operator>>", "sources/fraction.hpp: operator>>", "sources/complex.hpp: operator>>"]}
{"id": "C69", "title": "Str reads lines", "statement": "is >> str stores the next line without its newline; while (is >> str) collects all lines in order, the last one also without a final newline; reading what operator<< printed gives the string back.", "quantifier": "every text", "why_tests_cant": "unbounded texts", "anchors": ["sources/str.hpp: operator>>", "sources/str.hpp: operator<<"]}
{"id": "C70", "title": "Iteration", "statement": "begin()..end() visits every element once in order, rbegin()..rend() in the opposite order, without touching anything outside; the iterator returned by find refers to the element or key searched for, or is end().", "quantifier": "every container", "why_tests_cant": "unbounded sizes", "anchors": ["sources/list.hpp: begin", "sources/deque.hpp: begin", "sources/set.hpp: find", "sources/dict.hpp: find", "sources/str.hpp: begin"]}
{"id": "C71", "title": "Dict equality", "statement": "Two dictionaries compare equal exactly when they hold the same keys with equal values.", "quantifier": "every pair of dictionaries", "why_tests_cant": "unbounded sizes and all insertion orders", "anchors": ["sources/dict.hpp: operator=="]}
{"id": "C72", "title": "A container's own range as argument", "statement": "Extending a container by its own range [begin(), end()) behaves as extending it by a copy of itself: a List is doubled, a Set or Dict unchanged.", "quantifier": "every container", "why_tests_cant": "depends on capacity and element type", "anchors": ["sources/list.hpp: operator+=", "sources/list.hpp: extend", "sources/deque.hpp: extend_back", "sources/set.hpp: extend", "sources/dict.hpp: extend"]}
{"id": "C73", "title": "to_decimal is correctly rounded", "statement": "Str::to_decimal returns the double nearest to the decimal number written.", "quantifier": "every text of the grammar, every power function that keeps its contract", "why_tests_cant": "one bit in the last place; overflow of intermediate results needs long digit strings or large exponents", "anchors": ["sources/str.hpp: to_decimal"]}
{"id": "C74", "title": "Accuracy of complex arithmetic", "statement": "With doubles, each of +, -, *, / gives the exact complex result up to a small multiple of 2^-53 relative to its norm, for every pair of numbers within range.", "quantifier": "every pair of complex numbers with components up to 2^500", "why_tests_cant": "rounding, cancellation and intermediate overflow depend on the operands", "anchors": ["sources/complex.hpp: operator+", "sources/complex.hpp: operator-", "sources/complex.hpp: operator*", "sources/complex.hpp: operator/"]}
{"id": "C75", "title": "Construction", "statement": "A List or Deque built from elements has as many of them as given, each index reading the element at its place; Str(chars) holds the characters before the NUL; Str(s.data()) == s, and Int(s.data()) is accepted exactly when s is a literal.", "quantifier": "every sequence of elements, every memory behind the pointer", "why_tests_cant": "a NUL inside a string and sizes beyond INT_MAX are not sampled", "anchors": ["sources/str.hpp: Str(const char*)", "sources/str.hpp: data", "sources/list.hpp: List(", "sources/deque.hpp: Deque(", "sources/int.hpp: Int(const char*)"]}
{"id": "C76", "title": "Printed complex numbers", "statement": "os << complex shows each component as a nearest decimal number with six significant digits, in order; a component that has at most six is shown exactly, and reading the text of a component gives it back.", "quantifier": "every pair of finite doubles", "why_tests_cant": "boundaries between fixed and scientific form, rounding up to the next power of ten, subnormal and largest numbers", "anchors": ["sources/complex.hpp: operator<<", "sources/complex.hpp: operator>>"]}
{"id": "C77", "title": "Fractions after any history", "statement": "Whatever sequence of constructions, assignments, moves, operators, gcd, lcm and comparisons is performed on Fraction variables, each variable holds exactly the rational number the sequence defines, in lowest terms.", "quantifier": "every program over any number of variables, aliased operands included", "why_tests_cant": "overflow depends on the values reached; tests perform one operation at a time", "anchors": ["sources/fraction.hpp: class Fraction"]}
{"id": "C78", "title": "Fraction to double", "statement": "double(x) is the double nearest to the fraction, exact precisely when the denominator is a power of two, and keeps the order.", "quantifier": "every fraction", "why_tests_cant": "rounding of the quotient is visible only in the last place", "anchors": ["sources/fraction.hpp: operator double"]}
{"id": "C79", "title": "Printing and the state of the stream", "statement": "Printing a value of the library, or any nesting of containers of them, appends its text and leaves the formatting state of the stream as it was; a field width applies to the whole text. format() inserts the texts of its arguments.", "quantifier": "every value, every width, fill character, adjustment and set of flags", "why_tests_cant": "tests print to a new stream with default flags", "anchors": ["sources/int.hpp: operator<<", "sources/utility.hpp: print", "sources/str.hpp: format_helper", "sources/str.hpp: format", "sources/tuple.hpp: operator<<"]}
{"id": "C80", "title": "random is uniform", "statement": "random(n) returns every integer of n digits with the same probability.", "quantifier": "every number of digits, every number", "why_tests_cant": "a distribution cannot be seen in samples; the seed has 32 bits", "anchors": ["sources/int.hpp: random"]}
{"id": "C81", "title": "Hashes tell values apart", "statement": "Different Ints, and different Fractions, have different hashes (except for the unavoidable coincidences).", "quantifier": "every pair of values", "why_tests_cant": "collisions among structured values (permuted digits, integers against fractions) are not sampled", "anchors": ["sources/int.hpp: hash", "sources/fraction.hpp: hash"]}
{"id": "C82", "title": "Loops make few rounds", "statement": "No loop of a call of +, -, *, /, % tests its condition more than 11 times per digit position; gcd and lcm make at most 5 rounds per decimal digit of the second argument, pow one per binary digit of the exponent, log floor(log_b n), sqrt of an l-digit number (n+1 not a square) at most log2(l)+5, is_prime at most sqrt(n), factorial n, next_prime at most n/2+1.", "quantifier": "every argument", "why_tests_cant": "running time is only sampled by benchmarks on a few sizes", "anchors": ["sources/int.hpp: gcd", "sources/int.hpp: pow", "sources/int.hpp: sqrt", "sources/int.hpp: log", "sources/int.hpp: is_prime", "sources/int.hpp: next_prime", "sources/int.hpp: factorial"]}
{"id": "C83", "title": "References into a dictionary", "statement": "A reference returned by dict[key] or dict.get(key, defaults) can be used for as long as the pair is not removed and always reads the current value; if the key is missing, get returns the default, which can be used as well.", "quantifier": "every dictionary, every sequence of operations after the call", "why_tests_cant": "lifetimes are not visible to tests without sanitizers", "anchors": ["sources/dict.hpp: operator[]", "sources/dict.hpp: get"]}
{"id": "C84", "title": "Exceptions thrown by element types", "statement": "If a comparison or predicate supplied by the user throws in the middle of an operation on a List, Set or Dict, the exception is passed on and the container is unchanged.", "quantifier": "every container, every comparison, every point at which it throws", "why_tests_cant": "the exception has to come after the operation has done a part of its work", "anchors": ["sources/list.hpp: filter", "sources/list.hpp: operator/=", "sources/list.hpp: remove", "sources/list.hpp: uniquify", "sources/set.hpp: add", "sources/set.hpp: extend", "sources/dict.hpp: add", "sources/dict.hpp: extend"]}
{"id": "C85", "title": "References into a list", "statement": "A reference returned by list[i] can be used after further operations that keep position i, and reads what is at that position then.", "quantifier": "every list, every capacity and growth rule, every sequence of operations after the call", "why_tests_cant": "lifetimes are not visible to tests without sanitizers and depend on the capacity", "anchors": ["sources/list.hpp: operator[]", "sources/list.hpp: operator+=", "sources/list.hpp: insert", "sources/list.hpp: uniquify"]}
{"id": "C86", "title": "References into a deque", "statement": "A reference returned by deque[i], front() or back() can be used for as long as the element is not removed, whatever is pushed or popped at the ends.", "quantifier": "every deque, every sequence of operations after the call", "why_tests_cant": "lifetimes are not visible to tests without sanitizers", "anchors": ["sources/deque.hpp: operator[]", "sources/deque.hpp: front", "sources/deque.hpp: back", "sources/deque.hpp: operator<<=", "sources/deque.hpp: reverse"]}
{"id": "C87", "title": "Containers of the library's own types", "statement": "A Set, Dict or List whose elements or keys are Ints, Strs, Fractions, or Lists of these at any depth, behaves like a mathematical set, map or sequence of the represented values.", "quantifier": "every sequence of operations on every container, every nesting depth", "why_tests_cant": "the operators of the element type are called by the container, tests use containers of int", "anchors": ["sources/set.hpp: add", "sources/set.hpp: contains", "sources/dict.hpp: add", "sources/list.hpp: index", "sources/int.hpp: operator<", "sources/str.hpp: operator<=>", "sources/fraction.hpp: operator<", "sources/list.hpp: operator<=>"]}
{"id": "C88", "title": "Loops over a set that is changed", "statement": "A loop over a Set may add and remove elements: it visits, in increasing order, the elements that are in the set when their turn comes, and ends.", "quantifier": "every set, every loop body that is a sequence of operations on the set depending on the element visited", "why_tests_cant": "iterators that are lost are not visible to tests without sanitizers", "anchors": ["sources/set.hpp: begin", "sources/set.hpp: end", "sources/set.hpp: find", "sources/set.hpp: remove", "sources/set.hpp: add"]}
{"id": "C89", "title": "Loops over a list that is changed", "statement": "A loop over a List may change the list: by index, with iterators or range-based, it visits one position after the other up to the end the list then has, reading what is there when its turn comes.", "quantifier": "every list, every capacity and growth rule, every loop body that is a sequence of operations depending on the element visited", "why_tests_cant": "iterators that are lost are not visible to tests without sanitizers and depend on the capacity", "anchors": ["sources/list.hpp: begin", "sources/list.hpp: end", "sources/list.hpp: operator[]", "sources/list.hpp: operator+=", "sources/list.hpp: remove", "sources/list.hpp: sort"]}
{"id": "C90", "title": "Loops over a dictionary that is changed", "statement": "A loop over a Dict may add, assign and remove: it visits, in increasing order of the keys, the pairs that are in the dictionary when their turn comes, with the values they then have, and ends.", "quantifier": "every dictionary, every loop body that is a sequence of operations on the dictionary depending on the pair visited", "why_tests_cant": "iterators that are lost are not visible to tests without sanitizers", "anchors": ["sources/dict.hpp: begin", "sources/dict.hpp: end", "sources/dict.hpp: find", "sources/dict.hpp: remove", "sources/dict.hpp: add", "sources/dict.hpp: operator[]"]}
{"id": "C91", "title": "Reverse loops over a set or dictionary that is changed", "statement": "A reverse loop (rbegin to rend) over a Set or Dict may add and remove: it visits, in decreasing order, the elements that are held when their turn comes, and ends.", "quantifier": "every set or dictionary, every loop body that is a sequence of operations on the container depending on the element visited", "why_tests_cant": "a reverse iterator refers to the element it has just left, so removing the visited element skips one or runs past the front", "anchors": ["sources/set.hpp: rbegin", "sources/set.hpp: rend", "sources/set.hpp: remove", "sources/set.hpp: add", "sources/dict.hpp: rbegin", "sources/dict.hpp: rend", "sources/dict.hpp: remove", "sources/dict.hpp: add"]}
{"id": "C92", "title": "Loops over a deque that is changed", "statement": "A loop over a Deque may change the deque: by index, with iterators or range-based, it goes on behind the element it was at; a loop that pops an element and pushes others visits them in the order of a queue (pop_front) or stack (pop_back).", "quantifier": "every deque, every loop body that is a sequence of operations depending on the element visited; for queues and stacks every successor function without cycles", "why_tests_cant": "inserting at either end loses all iterators although references stay valid; tests without sanitizers do not see it", "anchors": ["sources/deque.hpp: begin", "sources/deque.hpp: end", "sources/deque.hpp: operator[]", "sources/deque.hpp: push_back", "sources/deque.hpp: pop_front", "sources/deque.hpp: pop_back", "sources/deque.hpp: is_empty"]}
{"id": "C93", "title": "Loops over a container that is changed come to an end", "statement": "A loop over a List, Deque, Set or Dict whose body changes the container comes to an end.", "quantifier": "every container, every loop body that is a sequence of operations, within the limits of the operations, depending on the element visited", "why_tests_cant": "a loop that adds ahead of itself may run for ever", "anchors": ["sources/list.hpp: begin", "sources/list.hpp: end", "sources/list.hpp: operator[]", "sources/deque.hpp: begin", "sources/deque.hpp: end", "sources/deque.hpp: operator[]", "sources/deque.hpp: pop_front", "sources/deque.hpp: pop_back", "sources/set.hpp: begin", "sources/set.hpp: end", "sources/set.hpp: rbegin", "sources/set.hpp: rend", "sources/dict.hpp: begin", "sources/dict.hpp: end", "sources/dict.hpp: rbegin", "sources/dict.hpp: rend"]}
{"id": "C94", "title": "Reverse loops over a list or deque that is changed", "statement": "A reverse loop (rbegin to rend) over a List or Deque may change the container: it visits, from the last to the first, the elements that are there when their turn comes, and ends.", "quantifier": "every list and deque, every capacity and growth rule, every loop body that is a sequence of operations depending on the element visited", "why_tests_cant": "a reverse iterator holds the position behind the element, so a change behind the element visited may lose it", "anchors": ["sources/list.hpp: rbegin", "sources/list.hpp: rend", "sources/list.hpp: operator+=", "sources/list.hpp: remove", "sources/deque.hpp: rbegin", "sources/deque.hpp: rend", "sources/deque.hpp: push_back", "sources/deque.hpp: pop_front", "sources/deque.hpp: pop_back"]}
{"id": "C95", "title": "The sign of a zero", "statement": "The sign of a floating point zero makes no difference: Complex numbers that differ only in it are equal, have the same hash and text, and every program gives the same results with them.", "quantifier": "every complex number including infinities and NaN, every program with complex variables, every input text", "why_tests_cant": "IEEE 754 has two zeros that compare equal, tests compare with ==", "anchors": ["sources/complex.hpp: operator==", "sources/complex.hpp: operator-", "sources/complex.hpp: operator/", "sources/complex.hpp: arg", "sources/complex.hpp: operator<<", "sources/complex.hpp: operator>>", "sources/str.hpp: to_decimal", "sources/fraction.hpp: operator double"]}
{"id": "C96", "title": "Lists of elements with any ==", "statement": "Whatever == of the elements is, also if it is not an equivalence: index, find, contains, count, -= and /= go by the elements x with x == e, uniquify keeps an element exactly if no kept one before it is == to it, and two containers are equal if they are elementwise.", "quantifier": "every list, every function ==, every range; NaN among doubles and the tolerance of Complex as instances", "why_tests_cant": "NaN differs from itself and == of Complex is not transitive, tests use int", "anchors": ["sources/list.hpp: index", "sources/list.hpp: find", "sources/list.hpp: contains", "sources/list.hpp: count", "sources/list.hpp: operator-=", "sources/list.hpp: operator/=", "sources/list.hpp: uniquify", "sources/list.hpp: operator<=>", "sources/deque.hpp: operator<=>", "sources/complex.hpp: operator=="]}
{"id": "C97", "title": "Elements that are equivalent without being the same", "statement": "A Set or Dict whose elements or keys may be equivalent without being the same holds, of equivalent ones, the one that came first: add and extend change nothing if an equivalent one is held, d[k] = v leaves the key, &= and |= keep the elements of the left operand. Everything else goes by equivalence.", "quantifier": "every strict weak order, every sequence of operations with any operands, sets and dictionaries of any size; doubles with their two zeros as instance", "why_tests_cant": "the tests use elements where equivalent means equal", "anchors": ["sources/set.hpp: add", "sources/set.hpp: remove", "sources/set.hpp: operator&=", "sources/set.hpp: operator|=", "sources/set.hpp: operator-=", "sources/set.hpp: operator^=", "sources/set.hpp: extend", "sources/set.hpp: operator==", "sources/dict.hpp: operator[]", "sources/dict.hpp: add", "sources/dict.hpp: remove", "sources/dict.hpp: extend"]}
{"id": "C98", "title": "When memory runs out", "statement": "If memory runs out in the middle of a member that changes an Int, List, Set or Dict, std::bad_alloc is passed on and the object has the value it had before.", "quantifier": "every Int, every operand, every capacity of the digit vector, every number of requests granted; every list, set and dictionary, whatever the number of requests per element", "why_tests_cant": "no test lets an allocation fail; sign_ is written before the digits, and pop takes the element out before it copies it", "anchors": ["sources/int.hpp: operator=", "sources/int.hpp: operator+=", "sources/int.hpp: operator-=", "sources/int.hpp: operator*=", "sources/int.hpp: operator/=", "sources/int.hpp: operator%=", "sources/int.hpp: operator++", "sources/int.hpp: operator--", "sources/list.hpp: filter", "sources/list.hpp: extend", "sources/list.hpp: append", "sources/set.hpp: add", "sources/set.hpp: pop", "sources/set.hpp: extend", "sources/dict.hpp: add", "sources/dict.hpp: pop"]}
{"id": "C99", "title": "Integers with any number of digits", "statement": "An Int may have any number of digits: the operators and functions of Int give the right result however many digits the operands have.", "quantifier": "every integer, also of 2^31 and more digits", "why_tests_cant": "positions are counted with int while the digits are in a vector whose size is 64-bit; no test has numbers of that length", "anchors": ["sources/int.hpp: operator<=>", "sources/int.hpp: digits", "sources/int.hpp: operator+=", "sources/int.hpp: operator-=", "sources/int.hpp: operator*=", "sources/int.hpp: operator/=", "sources/int.hpp: operator%=", "sources/int.hpp: abs_inc", "sources/int.hpp: abs_dec", "sources/int.hpp: sqrt", "sources/int.hpp: pow", "sources/int.hpp: log", "sources/int.hpp: gcd", "sources/int.hpp: lcm", "sources/int.hpp: factorial", "sources/int.hpp: is_prime", "sources/int.hpp: next_prime", "sources/int.hpp: to_integer"]}
{"id": "C100", "title": "What the operations of Int cost", "statement": "Comparison, + and - are linear in the number of digits, * takes one step for each pair of digits, / and % shift the divisor in constant time and subtract at most 9 times for each digit of the quotient, and ++ and -- take constant time on the average over any sequence of them.", "quantifier": "every integer, every pair of operands, every sequence of increments and decrements", "why_tests_cant": "the comments of operator/= and operator%= claim the costs; tests observe results, not costs", "anchors": ["sources/int.hpp: operator<=>", "sources/int.hpp: abs_inc", "sources/int.hpp: abs_dec", "sources/int.hpp: operator+=", "sources/int.hpp: operator-=", "sources/int.hpp: operator*=", "sources/int.hpp: operator/=", "sources/int.hpp: operator%="]}
{"id": "C101", "title": "Numbers as in Python", "statement": "Int and Fraction behave like the numbers of Python: / like //, % like %, pow with a modulus like pow, sqrt like math.isqrt, Int(s) like int(s), and % of fractions like that of fractions.Fraction.", "quantifier": "every pair of operands, every base, exponent and modulus, every ASCII text", "why_tests_cant": "the README promises types as easy to use as those of Python; the tests have few negative operands", "anchors": ["sources/int.hpp: operator/", "sources/int.hpp: operator%", "sources/int.hpp: pow", "sources/int.hpp: sqrt", "sources/int.hpp: Int", "sources/fraction.hpp: operator%"]}
{"id": "C102", "title": "Strings as in Python", "statement": "Str behaves like str of Python: slice like s[a:b:c], find, count, replace, split, strip, *, format and to_integer like the members and functions of the same purpose.", "quantifier": "every ASCII string, every bound, pattern, separator, format string and base", "why_tests_cant": "the README promises types as easy to use as those of Python; the tests stay within the string", "anchors": ["sources/str.hpp: slice", "sources/str.hpp: find", "sources/str.hpp: count", "sources/str.hpp: replace", "sources/str.hpp: split", "sources/str.hpp: strip", "sources/str.hpp: operator*", "sources/str.hpp: format", "sources/str.hpp: to_integer"]}
{"id": "C103", "title": "Containers as in Python", "statement": "List, Dict and Set behave like list, dict and set of Python: slices, insert, index, *, construction, update (extend), order of iteration, popitem (pop) and printing.", "quantifier": "every list, dictionary and set, every index and bound, every list of pairs with or without repeated keys", "why_tests_cant": "the README promises types as easy to use as those of Python; the tests have no repeated keys", "anchors": ["sources/list.hpp: slice", "sources/list.hpp: insert", "sources/list.hpp: index", "sources/list.hpp: operator*", "sources/dict.hpp: Dict", "sources/dict.hpp: extend", "sources/dict.hpp: begin", "sources/dict.hpp: pop", "sources/set.hpp: operator<<"]}
{"id": "C104", "title": "Numbers of other types as arguments", "statement": "A number of any arithmetic type that is given where an Int, a Fraction, a Complex, an index, a count or a shift is expected stands for its value.", "quantifier": "every integer, every double, every fraction; every list, deque and string", "why_tests_cant": "the tests use int literals; long, size_t, double and Fraction convert without a warning", "anchors": ["sources/int.hpp: Int", "sources/fraction.hpp: Fraction", "sources/fraction.hpp: operator double", "sources/complex.hpp: Complex", "sources/list.hpp: operator[]", "sources/list.hpp: operator*", "sources/list.hpp: operator<<=", "sources/deque.hpp: operator[]", "sources/str.hpp: operator[]", "sources/str.hpp: operator*"]}
{"id": "C105", "title": "Different values print differently", "statement": "Two objects of the same type that print the same text are equal, for every type of the library and containers of them to any depth.", "quantifier": "every pair of values; every nesting of List, Deque, Set, Dict and Tuple", "why_tests_cant": "tests compare printed texts with expected ones and would not see two values with one text", "anchors": ["sources/int.hpp: operator<<", "sources/fraction.hpp: operator<<", "sources/str.hpp: operator<<", "sources/complex.hpp: operator<<", "sources/list.hpp: operator<<", "sources/deque.hpp: operator<<", "sources/set.hpp: operator<<", "sources/dict.hpp: operator<<", "sources/tuple.hpp: operator<<"]}
{"id": "C106", "title": "Printed values taken apart with Str", "statement": "The printed text of an Int, a Fraction, or a container of Ints or Strs can be taken apart with slice, split and to_integer, which gives the value back.", "quantifier": "every Int, fraction, list, deque, set and dictionary of integers, every list of strings, whose text is shorter than INT_MAX", "why_tests_cant": "the members are tested one by one, on short texts", "anchors": ["sources/str.hpp: slice", "sources/str.hpp: split", "sources/str.hpp: to_integer", "sources/list.hpp: operator<<", "sources/deque.hpp: operator<<", "sources/set.hpp: operator<<", "sources/dict.hpp: operator<<", "sources/fraction.hpp: operator<<"]}
{"id": "C107", "title": "Keys of unordered maps and sets", "statement": "Int, Str, Fraction and Complex can be keys of std::unordered_map and std::unordered_set: every history of such a container is one of a finite map, whatever the implementation, and a search compares few keys.", "quantifier": "every history of insertions, assignments, removals and searches; every implementation allowed by the standard (buckets, order, what is looked at)", "why_tests_cant": "the README declares the types hashable; the tests only build three small sets", "anchors": ["sources/int.hpp: std::hash", "sources/str.hpp: std::hash", "sources/fraction.hpp: std::hash", "sources/complex.hpp: std::hash", "sources/int.hpp: operator==", "sources/fraction.hpp: operator==", "sources/complex.hpp: operator=="]}
{"id": "C108", "title": "Accuracy of complex expressions", "statement": "An expression of complex doubles, and a loop that adds up or multiplies complex doubles, gives the exact value with a small relative error that grows with the number of operations.", "quantifier": "every expression of +, -, *, / to any depth, every list of summands or factors, as long as nothing overflows and no divisor is near zero", "why_tests_cant": "tests compare single operations on small integers", "anchors": ["sources/complex.hpp: operator+", "sources/complex.hpp: operator-", "sources/complex.hpp: operator*", "sources/complex.hpp: operator/", "sources/complex.hpp: operator+=", "sources/complex.hpp: operator*="]}
{"id": "C109", "title": "Printing does not depend on the locale", "statement": "The text printed for a number, and for a container of numbers, is the same whatever locale the stream has been imbued with, so that it can be read back.", "quantifier": "every locale: decimal point, separator, list of group sizes; every Int, Fraction and Complex", "why_tests_cant": "the library prints through os << int and os << double, which ask the locale; tests only use the classic one", "anchors": ["sources/int.hpp: operator<<", "sources/fraction.hpp: operator<<", "sources/complex.hpp: operator<<"]}
{"id": "C110", "title": "Fractions printed and read in the same locale", "statement": "A fraction printed on a stream and read from a stream with the same locale is the same fraction; a text of another locale is refused.", "quantifier": "every locale: decimal point, separator, list of group sizes; every fraction; every text around it", "why_tests_cant": "is >> int accepts and checks separators, os << int writes them; tests only use the classic locale", "anchors": ["sources/fraction.hpp: operator<<", "sources/fraction.hpp: operator>>"]}
{"id": "C111", "title": "Results of chained calls", "statement": "The result of a chain of member calls on a temporary or a variable has the value that the calls make one after the other, and can be kept in a variable or a reference and used in a loop.", "quantifier": "every chain of members of List, Int, Set, Deque or Str that return such an object, on a variable or a temporary; declarations of values and of references, loops, element access at the end", "why_tests_cant": "sort, reverse, map and the rest return *this by reference even on a temporary, so a reference to the result may outlive it", "anchors": ["sources/list.hpp: sort", "sources/list.hpp: reverse", "sources/list.hpp: uniquify", "sources/list.hpp: filter", "sources/list.hpp: operator+=", "sources/list.hpp: slice", "sources/list.hpp: operator[]", "sources/int.hpp: operator+=", "sources/int.hpp: operator++", "sources/set.hpp: operator|=", "sources/deque.hpp: reverse"]}
{"id": "C112", "title": "What the operations of List cost", "statement": "Searching, counting and removing by value call == at most once per element; uniquify calls it a constant number of times per element; adding an element writes a constant number of elements on the average.", "quantifier": "every list, every element type and ==, every capacity and every growth rule that at least doubles", "why_tests_cant": "uniquify searches a growing buffer, insert moves what is behind; benches only time small lists", "anchors": ["sources/list.hpp: index", "sources/list.hpp: count", "sources/list.hpp: operator-=", "sources/list.hpp: operator/=", "sources/list.hpp: uniquify", "sources/list.hpp: operator+=", "sources/list.hpp: insert"]}
{"id": "C113", "title": "Rearranging elements that moving changes", "statement": "reverse, rotate, erase, remove, insert and /= give the same list for every element type, whatever moving an element leaves of it; no element that was moved away is in the result.", "quantifier": "every list, every element type, every function saying what moving leaves; for /= every argument that is a value or an element of the list", "why_tests_cant": "Int, Fraction and Complex reset the source of a move, and the standard algorithms move the elements about", "anchors": ["sources/list.hpp: reverse", "sources/list.hpp: operator>>=", "sources/list.hpp: erase", "sources/list.hpp: remove", "sources/list.hpp: insert", "sources/list.hpp: operator/=", "sources/deque.hpp: reverse", "sources/deque.hpp: operator>>="]}
{"id": "C114", "title": "Sorting with any comparator", "statement": "sort stays in its memory and ends for every comparator, order or not; it keeps the elements, also when the comparator throws; for an order it is the stable sort whatever moving an element leaves of it.", "quantifier": "every list, every element type, every function saying what moving leaves, every comparator, also one that throws or is undefined for some elements", "why_tests_cant": "sort hands a function of the user to std::stable_sort, whose insertion loop has no bound of its own", "anchors": ["sources/list.hpp: sort"]}
{"id": "C115", "title": "What the operations of Str cost", "statement": "Searching, counting, replacing and splitting look at a number of characters proportional to the lengths of the string and the pattern; reading an integer takes steps proportional to the length of the string.", "quantifier": "every string, every nonempty pattern, every base from 2 to 36", "why_tests_cant": "users expect find, split and to_integer to be fast on long strings", "anchors": ["sources/set.hpp: find", "sources/set.hpp: count", "sources/set.hpp: replace", "sources/set.hpp: split", "sources/set.hpp: to_integer"]}
{"id": "C116", "title": "Sorting with a comparator that keeps state", "statement": "With a comparator whose answers depend on the elements only, whatever else it does, sort gives the same list as with the comparator without state; it calls the comparator at most n(log2 n + 5) times for n elements.", "quantifier": "every list, every element type, every comparator with state, also one that throws or is no order", "why_tests_cant": "sort takes a pointer to a function, which may count or log its calls in a static variable", "anchors": ["sources/list.hpp: sort"]}
{"id": "C117", "title": "Sorting when there is less memory for the buffer", "statement": "Whatever memory there is for the buffer of sort, down to none, sort with a strict weak order gives the same stable arrangement; with every comparator it stays in its memory, ends, and keeps the number of elements, and keeps the elements if the comparator returns.", "quantifier": "every list, every element type, every size of the buffer, every comparator", "why_tests_cant": "std::stable_sort takes a smaller buffer, or sorts in place, when memory is short", "anchors": ["sources/list.hpp: sort"]}
{"id": "C118", "title": "The trees under Set and Dict", "statement": "On the trees of the standard library every history of a Set or Dict returns and leaves what it does on a sorted list; find, add and remove call the comparator at most logarithmically often, set operators and extending with sorted elements linearly often. Whatever a comparator answers, adding and extending lose no element.", "quantifier": "every history, every strict weak order, every rebalancing that keeps red-black trees; every comparator for the last part", "why_tests_cant": "std::set and std::map are trees; the other properties take them to be sorted lists", "anchors": ["sources/set.hpp: add", "sources/set.hpp: remove", "sources/set.hpp: extend", "sources/set.hpp: operator&", "sources/dict.hpp: add", "sources/dict.hpp: operator[]", "sources/dict.hpp: extend"]}
{"id": "C119", "title": "Set and Dict when the comparator throws", "statement": "When the comparator throws, the call throws the same, the Set or Dict is as before and can be used further; extend keeps the elements that it added before. No history is undefined.", "quantifier": "every history, every comparator that answers as a strict weak order or throws, every rebalancing that keeps red-black trees", "why_tests_cant": "operator< of the elements is user code", "anchors": ["sources/set.hpp: add", "sources/set.hpp: remove", "sources/set.hpp: extend", "sources/set.hpp: operator&", "sources/dict.hpp: add", "sources/dict.hpp: operator[]", "sources/dict.hpp: extend"]}
{"id": "C120", "title": "The blocks under Deque", "statement": "On the blocks of the standard library every history of push_back, push_front, pop_back, pop_front, front, back and operator[] returns and leaves what it does on a list. Pushing and popping at the ends leaves the references to the other elements valid. A push without memory throws and changes nothing.", "quantifier": "every history, every size of the blocks, every number of requests for memory that are granted", "why_tests_cant": "std::deque is blocks and a row of pointers; the other properties take it to be a list", "anchors": ["sources/deque.hpp: push_back", "sources/deque.hpp: push_front", "sources/deque.hpp: pop_back", "sources/deque.hpp: pop_front", "sources/deque.hpp: operator[]", "sources/deque.hpp: size"]}
{"id": "C121", "title": "Extending a Deque on its blocks", "statement": "On the blocks of the standard library, extend_back appends the range and extend_front puts it before the elements. Without memory they throw, the deque is as before and the new blocks are given back. The references to the elements stay valid.", "quantifier": "every state of the blocks that holds a list, every range of forward iterators outside the deque, every number of requests for memory that are granted", "why_tests_cant": "std::deque is blocks and a row of pointers; the other properties take it to be a list", "anchors": ["sources/deque.hpp: extend_back", "sources/deque.hpp: extend_front"]}
