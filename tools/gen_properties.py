#!/usr/bin/env python3
"""Writes /verif/properties.jsonl (one JSON object per line)."""
import json, os
P = []
def p(title, statement, quantifier, why, *anchors):
    P.append(dict(id="C%02d" % (len(P) + 1), title=title, statement=statement,
                  quantifier=quantifier, why_tests_cant=why, anchors=list(anchors)))
I, S, L, D, ST, DI, F, C, T, U = ("sources/%s.hpp" % n for n in
   "int str list deque set dict fraction complex tuple utility".split())

# ---- Int ---------------------------------------------------------------------------------
p("Int literal parsing and printing",
  "Int(chars) accepts exactly the texts [+-]?[0-9]+ and throws runtime_error(\"Error: Wrong integer literal.\") on every other text; on an accepted text the value is the integer the decimal numeral denotes, and streaming it out prints the canonical numeral (no leading zeros, no '+', never \"-0\").",
  "every null-terminated byte string, of any length", "infinitely many texts, including arbitrarily long ones with leading zeros",
  I+": Int(const char*)", I+": is_integer", I+": operator<<")
p("Int print/parse round trip",
  "For every Int value z, Int(text printed for z) == z, and reading it back with operator>> from a stream holding that text gives z.",
  "every integer", "values are unbounded", I+": operator<<", I+": operator>>", I+": Int(const char*)")
p("Int addition and subtraction are exact",
  "For all Ints a and b with mathematical values x and y, a + b has value x + y and a - b has value x - y, for every combination of signs and lengths.",
  "every pair of integers", "carry and borrow chains can be arbitrarily long",
  I+": operator+=", I+": operator-=", I+": operator+", I+": operator-")
p("Int arithmetic stays inside its buffers",
  "No Int operation reads or writes an element outside the vector of digits it works on.",
  "every pair of operands", "an out-of-bounds access one past the end usually goes unnoticed at run time and depends on operand lengths",
  I+": operator-=", I+": operator+=", I+": operator*=", I+": abs_inc", I+": abs_dec")
p("Int compound assignment with itself as right operand",
  "x += x, x -= x, x *= x, x /= x and x %= x leave in x the value x+x, x-x, x*x, x/x and x%x, as the non-assigning operators would compute from copies.",
  "every integer x", "aliasing changes the algorithm only for particular digit patterns",
  I+": operator+=", I+": operator-=", I+": operator*=", I+": operator/=", I+": operator%=")
p("Int multiplication is exact",
  "a * b has exactly the product of the two values, for all signs and lengths, and no intermediate digit accumulator overflows int.",
  "every pair of integers", "unbounded operand lengths", I+": operator*=", I+": operator*")
p("Int division truncates toward zero",
  "a / b is the quotient of the values rounded toward zero; dividing by zero throws runtime_error(\"Error: Divide by zero.\") and never returns.",
  "every pair of integers", "long division on unbounded operands; the digit loop must never miss or repeat a subtraction",
  I+": operator/=", I+": operator/", U+": check_zero")
p("Int division and remainder agree",
  "For every b != 0, a == (a / b) * b + a % b, with |a % b| < |b|; a % 0 throws.",
  "every pair of integers, all sign combinations", "four sign combinations times unbounded lengths",
  I+": operator%=", I+": operator%", I+": operator/=")
p("Int comparison is the order of the integers",
  "a == b holds exactly when the values are equal and a <=> b is negative, zero or positive exactly as x < y, x = y, x > y; hence the six comparison operators form a total order.",
  "every pair of integers", "infinitely many pairs", I+": operator==", I+": operator<=>", I+": abs_cmp")
p("Int values are canonical after any history",
  "After any sequence of constructions, assignments, arithmetic operations, increments and decrements, every Int variable holds the value that the same sequence gives on mathematical integers, in a representation that is unique for the value, so equal values compare equal, print equally and hash equally.",
  "every finite program over Int variables", "unbounded histories", I+": trim", I+": operator==", I+": std::hash<pyincpp::Int>")
p("Int increment and decrement",
  "++x adds exactly 1 and --x subtracts exactly 1, for every x, including across zero and across runs of 9s and 0s.",
  "every integer", "carry chains of any length", I+": operator++", I+": operator--", I+": abs_inc", I+": abs_dec")
p("Int inspectors",
  "digits() is the number of decimal digits of |x| (0 for zero); is_zero, is_positive, is_negative, is_even, is_odd say exactly that of the value; abs() and unary minus return |x| and -x.",
  "every integer", "unbounded values", I+": digits", I+": is_even", I+": is_odd", I+": is_zero", I+": abs", I+": operator-()")
p("Int::is_prime decides primality",
  "is_prime() returns, for every x, true exactly when x is a prime number (false for negatives, 0 and 1), and always terminates.",
  "every integer", "tests try a dozen numbers", I+": is_prime")
p("Int::next_prime is the least larger prime",
  "next_prime() terminates for every x and returns the smallest prime strictly greater than x.",
  "every integer", "no prime may be skipped anywhere; termination rests on the infinitude of primes", I+": next_prime")
p("Int::factorial",
  "factorial() of x >= 0 is x!; of a negative x it throws runtime_error(\"Error: Negative integer have no factorial.\").",
  "every integer", "unbounded", I+": factorial")
p("Int::sqrt returns the integer square root",
  "sqrt(x) terminates for every x >= 0 and returns the r with r*r <= x < (r+1)*(r+1); for negative x it throws.",
  "every integer", "a Newton iteration may fail to settle on particular values only", I+": sqrt")
p("Int::pow without modulus",
  "pow(b, e) equals b**e for every e >= 0; for e < 0 it is 1 or -1 when |b| = 1, 0 when |b| > 1 and an exception when b = 0.",
  "every pair of integers", "unbounded exponents and bases", I+": pow")
p("Int::pow with modulus",
  "pow(b, e, m) for m != 0 and e >= 0 equals (b**e) % m as the two operators would compute it.",
  "every triple of integers", "the reduction happens at every step, so sign and range errors depend on the whole square-and-multiply trace", I+": pow")
p("Int::log is the floor logarithm",
  "log(x, b) for x > 0 and b >= 2 is the largest k with b**k <= x; it throws for x <= 0 or b < 2.",
  "every pair of integers", "off-by-one can appear only near powers of the base", I+": log")
p("Int::gcd and Int::lcm",
  "gcd(a, b) is the non-negative greatest common divisor (gcd(0,0) = 0) and lcm(a, b) the non-negative least common multiple (0 if either is 0), for all signs; both always terminate.",
  "every pair of integers", "unbounded values; termination of Euclid's loop", I+": gcd", I+": lcm", U+": gcd")
p("Conversions between Int and machine integers",
  "Int(n) has the value n for every int n, and to_integer<T>() of any Int whose value fits T gives that value back.",
  "every int value and every integer type", "boundary values such as INT_MIN", I+": Int(int)", I+": to_integer")
p("Int::random has exactly the requested length",
  "random(d) with d >= 0 returns a non-negative Int with exactly d decimal digits whatever the random source yields; random(d) with d < -1 throws; random() has at most 4300 digits.",
  "every d and every sequence of random draws", "the outcome depends on random draws", I+": random")
# ---- Str ---------------------------------------------------------------------------------
p("Str::to_integer grammar and value",
  "to_integer(base) throws for base outside 2..36; otherwise it accepts exactly blank* [+-]? digit+ blank* with digits of that base in either case, returning the number denoted, and throws on every other text.",
  "every byte string and every base", "infinitely many texts; 35 bases", S+": to_integer", S+": get_event", S+": char_to_integer")
p("Str::to_decimal grammar and value",
  "to_decimal() accepts exactly the listed inf/nan spellings and blank* [+-]? (d+ [.d*]? | .d+) ([eE][+-]?d+)? blank*, and evaluates the sign, mantissa digits, fraction length and exponent that the text denotes; every other text throws.",
  "every byte string", "the accepted language is infinite and defined by a state machine", S+": to_decimal", S+": get_event")
p("Str::find and contains",
  "find(p, start, stop) with 0 <= start returns the least index i >= start at which p occurs entirely before stop, or -1 if there is none; contains says whether find succeeds; no memory outside the string is touched.",
  "every string, pattern, start and stop", "boundary combinations are unbounded", S+": find", S+": contains")
p("Str::count and replace use the left-to-right non-overlapping occurrences",
  "For a non-empty pattern, count(p) is the number of occurrences met by the greedy left-to-right scan, replace(p, q) rewrites exactly those, |replace| = |s| + count*(|q|-|p|), and replace(p, p) is the identity; for the empty pattern count is size()+1 and replace inserts q around every character.",
  "all strings", "unbounded inputs; overlapping patterns", S+": count", S+": replace")
p("Str::split and join are inverse",
  "For non-empty sep, sep.join(s.split(sep, true)) == s, no piece contains sep, the number of pieces is s.count(sep)+1, and s.split(sep) is the same list without the empty pieces; an empty sep throws.",
  "all strings and separators", "unbounded inputs", S+": split", S+": join")
p("Slicing follows Python's rule",
  "slice(start, stop, step) of a List or Str with step != 0 and indices in range returns exactly the elements at start, start+step, ... before stop (negative indices counted from the end), never touches an element out of range, and throws for step 0 or indices out of range.",
  "every sequence, start, stop, step", "three unbounded parameters with sign cases", L+": slice", S+": slice")
p("Rotation",
  "Rotating a List, Deque or Str left by n moves the element at position (i+n) mod size to position i for every int n; right rotation by n is left rotation by -n; rotating left by m and then by n is rotating by m+n, and left then right by n restores the sequence.",
  "every sequence and every int n", "n may be negative, larger than the size or extreme", L+": operator<<=", L+": operator>>=", D+": operator<<=", D+": operator>>=", S+": operator<<", S+": operator>>")
p("Str::lower and upper change only letter case",
  "lower() maps A-Z to a-z and upper() maps a-z to A-Z and both leave every other character unchanged; both keep the length.",
  "every string", "256 characters in any combination", S+": lower", S+": upper")
p("Str::strip removes exactly the blank (or given) ends",
  "strip() removes the longest prefix and suffix of blank characters (code <= 0x20) and nothing else; strip(c) removes the longest prefix and suffix of c; the result neither starts nor ends with such a character.",
  "every string and character", "all byte values at the ends", S+": strip")
p("erase of a range",
  "erase(start, stop) on List or Str removes exactly the elements at start..stop-1, throws when an index is out of [0, size], and has no other effect whatever the arguments.",
  "every sequence, start, stop", "argument combinations such as start > stop", L+": erase", S+": erase")
p("Element access by index",
  "seq[i] on List, Deque and Str returns the element at i for 0 <= i < size and at size+i for -size <= i < 0 and throws runtime_error(\"Error: Index out of range.\") for every other int.",
  "every sequence whose number of elements fits int, every int", "all ints", L+": operator[]", D+": operator[]", S+": operator[]", U+": check_bounds")
p("Repetition",
  "seq * n for List and Str is the concatenation of n copies for every n >= 0 and throws for n < 0.",
  "every sequence and int n", "size * n may exceed int", L+": operator*", L+": operator*=", S+": operator*")
p("Str::format",
  "format(args...) replaces the i-th {...} group, scanned left to right, by the text of the i-th argument, copies everything else verbatim, and ignores surplus arguments.",
  "every format string and argument list", "unbounded", S+": format", S+": format_helper")
# ---- List --------------------------------------------------------------------------------
p("List behaves as a sequence under any history",
  "After any sequence of insert, remove, append, extend, remove-first, remove-all, rotate, reverse, erase, clear and element assignment, a List holds the sequence the same operations give on an abstract sequence, every return value and exception agree, and an operation that throws leaves the list unchanged.",
  "every finite history of operations", "unbounded histories", L+": insert", L+": remove", L+": operator+=", L+": operator-=", L+": operator/=", L+": erase", L+": clear")
p("List::uniquify keeps first occurrences in order",
  "uniquify() leaves each distinct value exactly once, in the order of first occurrence, and loses none.",
  "every list", "unbounded", L+": uniquify")
p("List::sort is a stable sort",
  "sort(cmp) with a strict weak order yields a permutation of the list, ordered by cmp, in which equivalent elements keep their relative order.",
  "every list and strict weak order", "unbounded", L+": sort")
p("List remove-all, filter and map",
  "l /= e leaves exactly the elements different from e in order, whatever e refers to; filter(p) leaves exactly those satisfying p in order; map(f) applies f to each element once.",
  "every list, element and predicate", "in-place algorithms may overwrite what they still have to read", L+": operator/=", L+": filter", L+": map")
p("List searching",
  "index(e, start, stop) is the least i in [start, min(stop, size)) with l[i] == e or -1; count(e) is the number of i with l[i] == e; find, contains and index agree; no element outside the list is read.",
  "every list, element, start, stop", "all argument combinations", L+": index", L+": contains", L+": count", L+": find")
p("Container sizes never exceed INT_MAX through checked operations",
  "push, insert, += and add on any container throw instead of letting size() exceed INT_MAX, so size() is never negative, and no size computation overflows int.",
  "every container size", "sizes near 2^31 cannot be tested", U+": check_full", L+": operator+=", L+": insert", D+": push_back", ST+": add", DI+": add", L+": operator*")
# ---- Deque, Set, Dict ----------------------------------------------------------------------
p("Deque behaves as a double-ended queue under any history",
  "After any sequence of push/pop/extend at either end, rotate, reverse and clear, the deque holds what the same operations give on an abstract sequence; pops and peeks return the right end and throw on an empty deque without changing it.",
  "every finite history", "unbounded histories", D+": push_back", D+": pop_front", D+": extend_front", D+": operator>>=")
p("Set algebra",
  "For all Sets, x is in a&b, a|b, a-b, a^b exactly when it is in both, in either, in a only, in exactly one; the compound forms update the left operand to the same set.",
  "every pair of sets and element", "unbounded", ST+": operator&", ST+": operator|", ST+": operator-", ST+": operator^")
p("Set relations",
  "a <= b exactly when every element of a is in b; a < b exactly when moreover a != b; == exactly when they have the same elements; > and >= are the converses.",
  "every pair of sets", "unbounded", ST+": operator<=", ST+": operator<", ST+": operator==")
p("Set behaves as a mathematical set under any history",
  "After any history of add, remove, pop, extend, clear and set operations a Set holds the elements the history implies, iterates them strictly increasing without duplicates, add/remove report whether the set changed, min/max/pop return the least/greatest/least element and throw on an empty set.",
  "every finite history", "unbounded histories", ST+": add", ST+": remove", ST+": pop", ST+": min", ST+": max", ST+": extend")
p("Dict behaves as a finite map under any history",
  "After any history of add, remove, d[k]=v, pop, extend and clear, lookup of every key gives the value the history implies: add and extend never overwrite, [] throws on a missing key, get falls back to the default, size counts the keys, iteration is in increasing key order.",
  "every finite history and key", "unbounded histories", DI+": add", DI+": remove", DI+": operator[]", DI+": get", DI+": pop", DI+": extend")
p("Dict views",
  "keys(), values() and items() contain exactly the keys, the values and the pairs of the dictionary.",
  "every dictionary", "unbounded", DI+": keys", DI+": values", DI+": items")
p("Dict min and max",
  "min() and max() return the least and greatest key, and report an error on an empty dictionary.",
  "every dictionary", "the empty case and all others", DI+": min", DI+": max")
# ---- Fraction ----------------------------------------------------------------------------
p("Fraction is always in lowest terms",
  "Every Fraction obtained by construction or arithmetic has a positive denominator coprime to the numerator and represents numerator/denominator of its arguments; a zero denominator throws.",
  "every pair of ints", "2^64 argument pairs, including INT_MIN", F+": Fraction(int, int)")
p("Fraction arithmetic is exact",
  "Whenever no intermediate product leaves the range of int, +, -, *, /, unary minus, abs, ++ and -- give exactly the rational result in lowest terms; dividing by zero throws.",
  "every pair of fractions", "2^128 operand pairs", F+": operator+", F+": operator-", F+": operator*", F+": operator/", F+": abs")
p("Fraction remainder",
  "a % b for b != 0 is a - b*trunc(a/b) exactly (when no int overflow occurs), so |a % b| < |b|; a % 0 throws.",
  "every pair of fractions", "all sign combinations", F+": operator%")
p("Fraction comparison is the order of the rationals",
  "a == b exactly when the rationals are equal, and a < b, a > b, <=, >= exactly as the rationals compare.",
  "every pair of fractions", "near-equal fractions and overflow only for particular operands", F+": operator<=>", F+": operator double")
p("Fraction gcd and lcm",
  "gcd(a, b) is the greatest rational g >= 0 such that a and b are integer multiples of g (0 when both are 0), lcm(a, b) the least positive common integer multiple (0 when one is 0), when no int overflow occurs; the computation terminates.",
  "every pair of fractions", "Euclid on rationals: termination and correctness are not obvious", F+": gcd", F+": lcm", U+": gcd")
p("Fraction print/parse round trip",
  "Reading with operator>> the text that operator<< printed for f, followed by white space or end of input, yields f; malformed literals throw.",
  "every fraction and every stream continuation", "unbounded contexts", F+": operator<<", F+": operator>>")
p("Reading a number from a stream always terminates",
  "operator>> on Fraction, Complex and Int terminates on every finite stream, including an empty or exhausted one.",
  "every stream content", "tests read only streams that hold enough numbers", F+": operator>>", C+": operator>>", I+": operator>>")
# ---- Complex, Tuple, printing ----------------------------------------------------------------
p("Complex arithmetic",
  "+, -, *, /, unary minus and conjugate implement complex arithmetic: with exact real arithmetic the results are those of the complex field; dividing by zero throws.",
  "every pair of complex numbers", "uncountably many operands", C+": operator*", C+": operator/", C+": conjugate")
p("Complex equality is an equivalence compatible with hashing",
  "== on Complex is reflexive, symmetric and transitive, and equal numbers have equal hashes.",
  "every triple of complex numbers", "depends on values closer than epsilon", C+": operator==", C+": std::hash<pyincpp::Complex>")
p("Complex::pow",
  "pow(b, e) is the principal value exp(e*log b) for b != 0, 1 for e = 0, and throws for b = 0 and e != 0 (exact real arithmetic).",
  "every pair of complex numbers", "uncountably many operands", C+": pow")
p("Tuple equality, access and rest",
  "Two tuples are equal exactly when they have the same length, the same element types in order and pairwise equal elements; get<i> returns the i-th constructor argument; rest drops the first; size is the number of elements.",
  "every tuple shape", "unbounded shapes", T+": operator==", T+": get", T+": rest", T+": size")
p("Printing of containers",
  "Every container prints open bracket, the elements' own texts separated by \", \", close bracket, with nothing before the first and after the last; a one-element tuple prints a trailing comma.",
  "every container of any size", "unbounded", U+": print", L+": operator<<", D+": operator<<", ST+": operator<<", DI+": operator<<", T+": operator<<")
p("An operation that throws changes nothing",
  "When a mutating operation of List, Deque, Set, Dict, Int or Fraction throws, the object still has the value it had before.",
  "every object and argument for which the call throws", "every error path of every operation", L+": insert", L+": remove", D+": pop_back", ST+": pop", DI+": pop", I+": operator/=", F+": operator/=")
p("Complex print/parse",
  "Reading a floating point literal, the same followed by j, or two literals (the second signed and followed by j) yields the complex number with the nearest doubles; a malformed literal throws and changes nothing; reading what operator<< printed yields the number.",
  "every text and every stream continuation", "unbounded contexts", C+": operator<<", C+": operator>>")
# ---- Objects, comparison, streams, iteration -----------------------------------------------------
p("Copying and moving",
  "a = b and copy construction give a the value of b and change nothing else, self-assignment changes nothing; moving gives a the value of b and leaves b a valid object (zero or empty), and is defined behaviour for every class.",
  "every pair of objects and every store of other objects", "every combination of aliasing and previous value", I+": operator=", F+": operator=", C+": operator=", S+": operator=", L+": operator=", D+": operator=", ST+": operator=", DI+": operator=")
p("Sequences compare like words in a dictionary",
  "<, >, <=, >= on List, Deque and Str are the lexicographic order of the element order, == is elementwise equality, and exactly one of <, ==, > holds.",
  "every pair of sequences, every element order", "unbounded lengths and element types", L+": operator<=>", D+": operator<=>", S+": operator<=>")
p("The library's own types can be used as set elements and keys",
  "operator< of Int, Str, Fraction, List, Deque and Set is a strict weak order and never undefined, so that Set<T> and Dict<T, V> work for these T.",
  "every triple of values", "transitivity of incomparability fails only for particular triples", I+": operator<=>", S+": operator<=>", F+": operator<=>", L+": operator<=>", ST+": operator<")
p("Equal objects have equal hashes",
  "If a == b then std::hash gives the same value for a and b (Fraction, Str).",
  "every pair of objects, every hash of the underlying library", "== of Fraction compares doubles; it needs fractions closer than 2^-53", F+": std::hash<pyincpp::Fraction>", S+": std::hash<pyincpp::Str>")
p("A successful read leaves the stream good",
  "After is >> x has read a well-formed number without throwing, the stream has not failed, so that if (is >> x) is true exactly when x was read.",
  "every text, with everything that may precede and follow it", "depends on what follows the number, the end of input in particular", I+": operator>>", F+": operator>>", C+": operator>>")
p("Reading many numbers",
  "Reading n numbers from a stream holding n texts separated by blanks gives them in order, and the loop while (is >> x) collects exactly these and ends.",
  "every number of texts, every choice of blanks", "unbounded sequences; tests read a fixed number of values", I+": operator>>", F+": operator>>", C+": operator>>")
p("Str reads lines",
  "is >> str stores the next line without its newline; while (is >> str) collects all lines in order, the last one also without a final newline; reading what operator<< printed gives the string back.",
  "every text", "unbounded texts", S+": operator>>", S+": operator<<")
p("Iteration",
  "begin()..end() visits every element once in order, rbegin()..rend() in the opposite order, without touching anything outside; the iterator returned by find refers to the element or key searched for, or is end().",
  "every container", "unbounded sizes", L+": begin", D+": begin", ST+": find", DI+": find", S+": begin")
p("Dict equality",
  "Two dictionaries compare equal exactly when they hold the same keys with equal values.",
  "every pair of dictionaries", "unbounded sizes and all insertion orders", DI+": operator==")
p("A container's own range as argument",
  "Extending a container by its own range [begin(), end()) behaves as extending it by a copy of itself: a List is doubled, a Set or Dict unchanged.",
  "every container", "depends on capacity and element type", L+": operator+=", L+": extend", D+": extend_back", ST+": extend", DI+": extend")
p("to_decimal is correctly rounded",
  "Str::to_decimal returns the double nearest to the decimal number written.",
  "every text of the grammar, every power function that keeps its contract", "one bit in the last place; overflow of intermediate results needs long digit strings or large exponents", S+": to_decimal")
p("Accuracy of complex arithmetic",
  "With doubles, each of +, -, *, / gives the exact complex result up to a small multiple of 2^-53 relative to its norm, for every pair of numbers within range.",
  "every pair of complex numbers with components up to 2^500", "rounding, cancellation and intermediate overflow depend on the operands", C+": operator+", C+": operator-", C+": operator*", C+": operator/")
p("Construction",
  "A List or Deque built from elements has as many of them as given, each index reading the element at its place; Str(chars) holds the characters before the NUL; Str(s.data()) == s, and Int(s.data()) is accepted exactly when s is a literal.",
  "every sequence of elements, every memory behind the pointer", "a NUL inside a string and sizes beyond INT_MAX are not sampled", S+": Str(const char*)", S+": data", L+": List(", D+": Deque(", I+": Int(const char*)")
p("Printed complex numbers",
  "os << complex shows each component as a nearest decimal number with six significant digits, in order; a component that has at most six is shown exactly, and reading the text of a component gives it back.",
  "every pair of finite doubles", "boundaries between fixed and scientific form, rounding up to the next power of ten, subnormal and largest numbers", C+": operator<<", C+": operator>>")
p("Fractions after any history",
  "Whatever sequence of constructions, assignments, moves, operators, gcd, lcm and comparisons is performed on Fraction variables, each variable holds exactly the rational number the sequence defines, in lowest terms.",
  "every program over any number of variables, aliased operands included", "overflow depends on the values reached; tests perform one operation at a time", F+": class Fraction")
p("Fraction to double",
  "double(x) is the double nearest to the fraction, exact precisely when the denominator is a power of two, and keeps the order.",
  "every fraction", "rounding of the quotient is visible only in the last place", F+": operator double")
p("Printing and the state of the stream",
  "Printing a value of the library, or any nesting of containers of them, appends its text and leaves the formatting state of the stream as it was; a field width applies to the whole text. format() inserts the texts of its arguments.",
  "every value, every width, fill character, adjustment and set of flags", "tests print to a new stream with default flags", I+": operator<<", U+": print", S+": format_helper", S+": format", T+": operator<<")
p("random is uniform",
  "random(n) returns every integer of n digits with the same probability.",
  "every number of digits, every number", "a distribution cannot be seen in samples; the seed has 32 bits", I+": random")
p("Hashes tell values apart",
  "Different Ints, and different Fractions, have different hashes (except for the unavoidable coincidences).",
  "every pair of values", "collisions among structured values (permuted digits, integers against fractions) are not sampled", I+": hash", F+": hash")
p("Loops make few rounds",
  "No loop of a call of +, -, *, /, % tests its condition more than 11 times per digit position; gcd and lcm make at most 5 rounds per decimal digit of the second argument, pow one per binary digit of the exponent, log floor(log_b n), sqrt of an l-digit number (n+1 not a square) at most log2(l)+5, is_prime at most sqrt(n), factorial n, next_prime at most n/2+1.",
  "every argument", "running time is only sampled by benchmarks on a few sizes", I+": gcd", I+": pow", I+": sqrt", I+": log", I+": is_prime", I+": next_prime", I+": factorial")
p("References into a dictionary",
  "A reference returned by dict[key] or dict.get(key, defaults) can be used for as long as the pair is not removed and always reads the current value; if the key is missing, get returns the default, which can be used as well.",
  "every dictionary, every sequence of operations after the call", "lifetimes are not visible to tests without sanitizers", DI+": operator[]", DI+": get")
p("Exceptions thrown by element types",
  "If a comparison or predicate supplied by the user throws in the middle of an operation on a List, Set or Dict, the exception is passed on and the container is unchanged.",
  "every container, every comparison, every point at which it throws", "the exception has to come after the operation has done a part of its work", L+": filter", L+": operator/=", L+": remove", L+": uniquify", ST+": add", ST+": extend", DI+": add", DI+": extend")
p("References into a list",
  "A reference returned by list[i] can be used after further operations that keep position i, and reads what is at that position then.",
  "every list, every capacity and growth rule, every sequence of operations after the call", "lifetimes are not visible to tests without sanitizers and depend on the capacity", L+": operator[]", L+": operator+=", L+": insert", L+": uniquify")
p("References into a deque",
  "A reference returned by deque[i], front() or back() can be used for as long as the element is not removed, whatever is pushed or popped at the ends.",
  "every deque, every sequence of operations after the call", "lifetimes are not visible to tests without sanitizers", D+": operator[]", D+": front", D+": back", D+": operator<<=", D+": reverse")
p("Containers of the library's own types",
  "A Set, Dict or List whose elements or keys are Ints, Strs, Fractions, or Lists of these at any depth, behaves like a mathematical set, map or sequence of the represented values.",
  "every sequence of operations on every container, every nesting depth", "the operators of the element type are called by the container, tests use containers of int", ST+": add", ST+": contains", DI+": add", L+": index", I+": operator<", S+": operator<=>", F+": operator<", L+": operator<=>")
p("Loops over a set that is changed",
  "A loop over a Set may add and remove elements: it visits, in increasing order, the elements that are in the set when their turn comes, and ends.",
  "every set, every loop body that is a sequence of operations on the set depending on the element visited", "iterators that are lost are not visible to tests without sanitizers", ST+": begin", ST+": end", ST+": find", ST+": remove", ST+": add")
p("Loops over a list that is changed",
  "A loop over a List may change the list: by index, with iterators or range-based, it visits one position after the other up to the end the list then has, reading what is there when its turn comes.",
  "every list, every capacity and growth rule, every loop body that is a sequence of operations depending on the element visited", "iterators that are lost are not visible to tests without sanitizers and depend on the capacity", L+": begin", L+": end", L+": operator[]", L+": operator+=", L+": remove", L+": sort")
p("Loops over a dictionary that is changed",
  "A loop over a Dict may add, assign and remove: it visits, in increasing order of the keys, the pairs that are in the dictionary when their turn comes, with the values they then have, and ends.",
  "every dictionary, every loop body that is a sequence of operations on the dictionary depending on the pair visited", "iterators that are lost are not visible to tests without sanitizers", DI+": begin", DI+": end", DI+": find", DI+": remove", DI+": add", DI+": operator[]")
p("Reverse loops over a set or dictionary that is changed",
  "A reverse loop (rbegin to rend) over a Set or Dict may add and remove: it visits, in decreasing order, the elements that are held when their turn comes, and ends.",
  "every set or dictionary, every loop body that is a sequence of operations on the container depending on the element visited", "a reverse iterator refers to the element it has just left, so removing the visited element skips one or runs past the front", ST+": rbegin", ST+": rend", ST+": remove", ST+": add", DI+": rbegin", DI+": rend", DI+": remove", DI+": add")
p("Loops over a deque that is changed",
  "A loop over a Deque may change the deque: by index, with iterators or range-based, it goes on behind the element it was at; a loop that pops an element and pushes others visits them in the order of a queue (pop_front) or stack (pop_back).",
  "every deque, every loop body that is a sequence of operations depending on the element visited; for queues and stacks every successor function without cycles", "inserting at either end loses all iterators although references stay valid; tests without sanitizers do not see it", D+": begin", D+": end", D+": operator[]", D+": push_back", D+": pop_front", D+": pop_back", D+": is_empty")
p("Loops over a container that is changed come to an end",
  "A loop over a List, Deque, Set or Dict whose body changes the container comes to an end.",
  "every container, every loop body that is a sequence of operations, within the limits of the operations, depending on the element visited", "a loop that adds ahead of itself may run for ever", L+": begin", L+": end", L+": operator[]", D+": begin", D+": end", D+": operator[]", D+": pop_front", D+": pop_back", ST+": begin", ST+": end", ST+": rbegin", ST+": rend", DI+": begin", DI+": end", DI+": rbegin", DI+": rend")
p("Reverse loops over a list or deque that is changed",
  "A reverse loop (rbegin to rend) over a List or Deque may change the container: it visits, from the last to the first, the elements that are there when their turn comes, and ends.",
  "every list and deque, every capacity and growth rule, every loop body that is a sequence of operations depending on the element visited", "a reverse iterator holds the position behind the element, so a change behind the element visited may lose it", L+": rbegin", L+": rend", L+": operator+=", L+": remove", D+": rbegin", D+": rend", D+": push_back", D+": pop_front", D+": pop_back")
p("The sign of a zero",
  "The sign of a floating point zero makes no difference: Complex numbers that differ only in it are equal, have the same hash and text, and every program gives the same results with them.",
  "every complex number including infinities and NaN, every program with complex variables, every input text", "IEEE 754 has two zeros that compare equal, tests compare with ==", C+": operator==", C+": operator-", C+": operator/", C+": arg", C+": operator<<", C+": operator>>", S+": to_decimal", F+": operator double")
p("Lists of elements with any ==",
  "Whatever == of the elements is, also if it is not an equivalence: index, find, contains, count, -= and /= go by the elements x with x == e, uniquify keeps an element exactly if no kept one before it is == to it, and two containers are equal if they are elementwise.",
  "every list, every function ==, every range; NaN among doubles and the tolerance of Complex as instances", "NaN differs from itself and == of Complex is not transitive, tests use int", L+": index", L+": find", L+": contains", L+": count", L+": operator-=", L+": operator/=", L+": uniquify", L+": operator<=>", D+": operator<=>", C+": operator==")
p("Elements that are equivalent without being the same",
  "A Set or Dict whose elements or keys may be equivalent without being the same holds, of equivalent ones, the one that came first: add and extend change nothing if an equivalent one is held, d[k] = v leaves the key, &= and |= keep the elements of the left operand. Everything else goes by equivalence.",
  "every strict weak order, every sequence of operations with any operands, sets and dictionaries of any size; doubles with their two zeros as instance", "the tests use elements where equivalent means equal", ST+": add", ST+": remove", ST+": operator&=", ST+": operator|=", ST+": operator-=", ST+": operator^=", ST+": extend", ST+": operator==", DI+": operator[]", DI+": add", DI+": remove", DI+": extend")
p("When memory runs out",
  "If memory runs out in the middle of a member that changes an Int, List, Set or Dict, std::bad_alloc is passed on and the object has the value it had before.",
  "every Int, every operand, every capacity of the digit vector, every number of requests granted; every list, set and dictionary, whatever the number of requests per element", "no test lets an allocation fail; sign_ is written before the digits, and pop takes the element out before it copies it", I+": operator=", I+": operator+=", I+": operator-=", I+": operator*=", I+": operator/=", I+": operator%=", I+": operator++", I+": operator--", L+": filter", L+": extend", L+": append", ST+": add", ST+": pop", ST+": extend", DI+": add", DI+": pop")
p("Integers with any number of digits",
  "An Int may have any number of digits: the operators and functions of Int give the right result however many digits the operands have.",
  "every integer, also of 2^31 and more digits", "positions are counted with int while the digits are in a vector whose size is 64-bit; no test has numbers of that length", I+": operator<=>", I+": digits", I+": operator+=", I+": operator-=", I+": operator*=", I+": operator/=", I+": operator%=", I+": abs_inc", I+": abs_dec", I+": sqrt", I+": pow", I+": log", I+": gcd", I+": lcm", I+": factorial", I+": is_prime", I+": next_prime", I+": to_integer")
p("What the operations of Int cost",
  "Comparison, + and - are linear in the number of digits, * takes one step for each pair of digits, / and % shift the divisor in constant time and subtract at most 9 times for each digit of the quotient, and ++ and -- take constant time on the average over any sequence of them.",
  "every integer, every pair of operands, every sequence of increments and decrements", "the comments of operator/= and operator%= claim the costs; tests observe results, not costs", I+": operator<=>", I+": abs_inc", I+": abs_dec", I+": operator+=", I+": operator-=", I+": operator*=", I+": operator/=", I+": operator%=")
p("Numbers as in Python",
  "Int and Fraction behave like the numbers of Python: / like //, % like %, pow with a modulus like pow, sqrt like math.isqrt, Int(s) like int(s), and % of fractions like that of fractions.Fraction.",
  "every pair of operands, every base, exponent and modulus, every ASCII text", "the README promises types as easy to use as those of Python; the tests have few negative operands", I+": operator/", I+": operator%", I+": pow", I+": sqrt", I+": Int", F+": operator%")
p("Strings as in Python",
  "Str behaves like str of Python: slice like s[a:b:c], find, count, replace, split, strip, *, format and to_integer like the members and functions of the same purpose.",
  "every ASCII string, every bound, pattern, separator, format string and base", "the README promises types as easy to use as those of Python; the tests stay within the string", S+": slice", S+": find", S+": count", S+": replace", S+": split", S+": strip", S+": operator*", S+": format", S+": to_integer")
p("Containers as in Python",
  "List, Dict and Set behave like list, dict and set of Python: slices, insert, index, *, construction, update (extend), order of iteration, popitem (pop) and printing.",
  "every list, dictionary and set, every index and bound, every list of pairs with or without repeated keys", "the README promises types as easy to use as those of Python; the tests have no repeated keys", L+": slice", L+": insert", L+": index", L+": operator*", DI+": Dict", DI+": extend", DI+": begin", DI+": pop", ST+": operator<<")
p("Numbers of other types as arguments",
  "A number of any arithmetic type that is given where an Int, a Fraction, a Complex, an index, a count or a shift is expected stands for its value.",
  "every integer, every double, every fraction; every list, deque and string", "the tests use int literals; long, size_t, double and Fraction convert without a warning", I+": Int", F+": Fraction", F+": operator double", C+": Complex", L+": operator[]", L+": operator*", L+": operator<<=", D+": operator[]", S+": operator[]", S+": operator*")
p("Different values print differently",
  "Two objects of the same type that print the same text are equal, for every type of the library and containers of them to any depth.",
  "every pair of values; every nesting of List, Deque, Set, Dict and Tuple", "tests compare printed texts with expected ones and would not see two values with one text", I+": operator<<", F+": operator<<", S+": operator<<", C+": operator<<", L+": operator<<", D+": operator<<", ST+": operator<<", DI+": operator<<", "sources/tuple.hpp: operator<<")
p("Printed values taken apart with Str",
  "The printed text of an Int, a Fraction, or a container of Ints or Strs can be taken apart with slice, split and to_integer, which gives the value back.",
  "every Int, fraction, list, deque, set and dictionary of integers, every list of strings, whose text is shorter than INT_MAX", "the members are tested one by one, on short texts", S+": slice", S+": split", S+": to_integer", L+": operator<<", D+": operator<<", ST+": operator<<", DI+": operator<<", F+": operator<<")
p("Keys of unordered maps and sets",
  "Int, Str, Fraction and Complex can be keys of std::unordered_map and std::unordered_set: every history of such a container is one of a finite map, whatever the implementation, and a search compares few keys.",
  "every history of insertions, assignments, removals and searches; every implementation allowed by the standard (buckets, order, what is looked at)", "the README declares the types hashable; the tests only build three small sets", I+": std::hash", S+": std::hash", F+": std::hash", C+": std::hash", I+": operator==", F+": operator==", C+": operator==")
p("Accuracy of complex expressions",
  "An expression of complex doubles, and a loop that adds up or multiplies complex doubles, gives the exact value with a small relative error that grows with the number of operations.",
  "every expression of +, -, *, / to any depth, every list of summands or factors, as long as nothing overflows and no divisor is near zero", "tests compare single operations on small integers", C+": operator+", C+": operator-", C+": operator*", C+": operator/", C+": operator+=", C+": operator*=")
p("Printing does not depend on the locale",
  "The text printed for a number, and for a container of numbers, is the same whatever locale the stream has been imbued with, so that it can be read back.",
  "every locale: decimal point, separator, list of group sizes; every Int, Fraction and Complex", "the library prints through os << int and os << double, which ask the locale; tests only use the classic one", I+": operator<<", F+": operator<<", C+": operator<<")
p("Fractions printed and read in the same locale",
  "A fraction printed on a stream and read from a stream with the same locale is the same fraction; a text of another locale is refused.",
  "every locale: decimal point, separator, list of group sizes; every fraction; every text around it", "is >> int accepts and checks separators, os << int writes them; tests only use the classic locale", F+": operator<<", F+": operator>>")
p("Results of chained calls",
  "The result of a chain of member calls on a temporary or a variable has the value that the calls make one after the other, and can be kept in a variable or a reference and used in a loop.",
  "every chain of members of List, Int, Set, Deque or Str that return such an object, on a variable or a temporary; declarations of values and of references, loops, element access at the end", "sort, reverse, map and the rest return *this by reference even on a temporary, so a reference to the result may outlive it", L+": sort", L+": reverse", L+": uniquify", L+": filter", L+": operator+=", L+": slice", L+": operator[]", I+": operator+=", I+": operator++", ST+": operator|=", D+": reverse")
p("What the operations of List cost",
  "Searching, counting and removing by value call == at most once per element; uniquify calls it a constant number of times per element; adding an element writes a constant number of elements on the average.",
  "every list, every element type and ==, every capacity and every growth rule that at least doubles", "uniquify searches a growing buffer, insert moves what is behind; benches only time small lists", L+": index", L+": count", L+": operator-=", L+": operator/=", L+": uniquify", L+": operator+=", L+": insert")
p("Rearranging elements that moving changes",
  "reverse, rotate, erase, remove, insert and /= give the same list for every element type, whatever moving an element leaves of it; no element that was moved away is in the result.",
  "every list, every element type, every function saying what moving leaves; for /= every argument that is a value or an element of the list", "Int, Fraction and Complex reset the source of a move, and the standard algorithms move the elements about", L+": reverse", L+": operator>>=", L+": erase", L+": remove", L+": insert", L+": operator/=", D+": reverse", D+": operator>>=")
p("Sorting with any comparator",
  "sort stays in its memory and ends for every comparator, order or not; it keeps the elements, also when the comparator throws; for an order it is the stable sort whatever moving an element leaves of it.",
  "every list, every element type, every function saying what moving leaves, every comparator, also one that throws or is undefined for some elements", "sort hands a function of the user to std::stable_sort, whose insertion loop has no bound of its own", L+": sort")
p("What the operations of Str cost",
  "Searching, counting, replacing and splitting look at a number of characters proportional to the lengths of the string and the pattern; reading an integer takes steps proportional to the length of the string.",
  "every string, every nonempty pattern, every base from 2 to 36", "users expect find, split and to_integer to be fast on long strings", ST+": find", ST+": count", ST+": replace", ST+": split", ST+": to_integer")
p("Sorting with a comparator that keeps state",
  "With a comparator whose answers depend on the elements only, whatever else it does, sort gives the same list as with the comparator without state; it calls the comparator at most n(log2 n + 5) times for n elements.",
  "every list, every element type, every comparator with state, also one that throws or is no order", "sort takes a pointer to a function, which may count or log its calls in a static variable", L+": sort")
p("Sorting when there is less memory for the buffer",
  "Whatever memory there is for the buffer of sort, down to none, sort with a strict weak order gives the same stable arrangement; with every comparator it stays in its memory, ends, and keeps the number of elements, and keeps the elements if the comparator returns.",
  "every list, every element type, every size of the buffer, every comparator", "std::stable_sort takes a smaller buffer, or sorts in place, when memory is short", L+": sort")
p("The trees under Set and Dict",
  "On the trees of the standard library every history of a Set or Dict returns and leaves what it does on a sorted list; find, add and remove call the comparator at most logarithmically often, set operators and extending with sorted elements linearly often. Whatever a comparator answers, adding and extending lose no element.",
  "every history, every strict weak order, every rebalancing that keeps red-black trees; every comparator for the last part", "std::set and std::map are trees; the other properties take them to be sorted lists", ST+": add", ST+": remove", ST+": extend", ST+": operator&", DI+": add", DI+": operator[]", DI+": extend")
p("Set and Dict when the comparator throws",
  "When the comparator throws, the call throws the same, the Set or Dict is as before and can be used further; extend keeps the elements that it added before. No history is undefined.",
  "every history, every comparator that answers as a strict weak order or throws, every rebalancing that keeps red-black trees", "operator< of the elements is user code", ST+": add", ST+": remove", ST+": extend", ST+": operator&", DI+": add", DI+": operator[]", DI+": extend")
p("The blocks under Deque",
  "On the blocks of the standard library every history of push_back, push_front, pop_back, pop_front, front, back and operator[] returns and leaves what it does on a list. Pushing and popping at the ends leaves the references to the other elements valid. A push without memory throws and changes nothing.",
  "every history, every size of the blocks, every number of requests for memory that are granted", "std::deque is blocks and a row of pointers; the other properties take it to be a list", D+": push_back", D+": push_front", D+": pop_back", D+": pop_front", D+": operator[]", D+": size")
p("Extending a Deque on its blocks",
  "On the blocks of the standard library, extend_back appends the range and extend_front puts it before the elements. Without memory they throw, the deque is as before and the new blocks are given back. The references to the elements stay valid.",
  "every state of the blocks that holds a list, every range of forward iterators outside the deque, every number of requests for memory that are granted", "std::deque is blocks and a row of pointers; the other properties take it to be a list", D+": extend_back", D+": extend_front")
with open(os.path.join(os.path.dirname(__file__), "..", "properties.jsonl"), "w") as f:
    for x in P:
        f.write(json.dumps(x) + "\n")
print(len(P))
