# Formal model of pyincpp in Lean 4 — design

## 1. What is modelled and how

The C++ headers in `/repo/sources` are read as text and transcribed function by function into total,
executable Lean functions. Nothing of the repository is compiled or run; the only tie between model and
code is the transcription, so every definition cites the file and lines it models.

### Outcomes (`Verif/Cpp.lean`)

A C++ call can return, throw, hit undefined behaviour, or run forever. `Res α` has four constructors
`ok a | throw msg | ub kind | fuel`. `throw` carries the `what()` text. Loops whose termination is not
structural take a *fuel* argument and answer `fuel` when it runs out. On top of it

* `Returns f v`  := for all large enough fuel `f fuel = ok v`
* `Throws f msg` := for all large enough fuel `f fuel = throw msg`
* `HitsUB f`     := for all large enough fuel `f fuel = ub _`
* `Diverges f`   := for all large enough fuel `f fuel = fuel` (however large the budget, it is not enough)

so "terminates" and "hangs" are theorems, never assumptions.

* `int` is 32-bit two's complement; `ck` turns a result outside `[-2^31, 2^31-1]` into `ub overflow`.
* Arguments of other arithmetic types are converted to `int` modulo 2^32, `double` by dropping the fraction (undefined if it does
  not fit); only C104 looks at them.
* `int size()` of a container is the C++20 conversion of `size_t` (mod 2^32), `i32`.
* `std::vector<int>` element access is checked: `v[i]` outside the vector is `ub outOfBounds`.
* `char` is a byte (`UInt8`); comparisons of `char` with `int` use the signed value (x86-64 ABI).
* Mutating methods of containers are in the monad `Meth σ α := σ → Res α × σ`, in which an exception keeps
  whatever state had been written before, so "a throwing operation changes nothing" is a theorem.

### The past-the-end access of `Int::operator-=`

`a[i + 1] += floor_div(tmp, BASE)` (int.hpp:408) touches `a[a.size()]` whenever both operands have the same
number of digits. By the standard this is undefined. The model has a memory mode `Mem`: in `strict` this is
`ub outOfBounds`; in `lenient` a read-modify-write of *exactly one past the end that adds 0* is a no-op and every
other out-of-range access is still `ub`. Value theorems hold in lenient mode, and the strict-mode theorems
say exactly when the undefined behaviour happens.

### External library (trusted contracts)

std::vector/deque/string/map/set member functions, std::find/count/rotate/reverse/stable_sort,
num_get/num_put, strlen, std::gcd are modelled by their specified results with their preconditions as `ub`.
std::remove, std::copy_if, std::includes, std::set_* are modelled as the loops of their reference implementation,
because the properties depend on how they traverse. For std::set and std::map C118 proves the contract from the functions of stl_tree.h;
the rebalancing after linking or unlinking a node (tree.cc) stays trusted: it keeps the order and gives a red-black tree (`Balancer.Keeps`).
For pushing, popping, indexing and extending of std::deque C120 and C121 prove the contract from the functions of stl_deque.h and deque.tcc.

## 2. Layout

* `Verif/Cpp.lean` – outcomes, machine ints, loops; `Verif/Model/*.lean` – one file per header;
* `Verif/Spec/*.lean` – the small independent specifications; `Verif/Proof/*.lean` – lemmas;
* `Verif/Props/*.lean` – the property theorems, and beside them `example`s showing the hypotheses are met.
* `Verif/Tests/*.lean` – the assertions of the repository's own tests (`/repo/tests/test_*.cpp`), evaluated on the model by the
  kernel. They support the transcription and are used by no proof. Left out are a few that take too long, those about `<cmath>`
  values, and those that rely on undefined behaviour; the model agrees with all the others.

`tools/coverage.py` lists the functions of the headers that no Lean definition cites; what remains are one-line accessors
(`real()`, `numerator()`, unary `+`) and defaulted members.

## 3. Plan per property

| id | modelled | proof |
|---|---|---|
| C01, C02 | `is_integer`, `Int(const char*)`, `operator<<`, `operator>>` over byte lists | induction over digits; canonical form `enc z` built from Mathlib's `Nat.digits` |
| C03, C06 | digit loops with index-checked vectors | loop invariants over the positional value |
| C04 | same, strict mode; `Props/IntStrict.lean` for the functions that divide | exact characterisation of the UB of every operator and function of `Int`, and of every program (`Props/IntStrictProgram.lean`); the property is false of the code, negation proved |
| C05 | `+=` with rhs aliasing this | false for `+=`: witness 5 += 5 = 20, exact characterisation; the others proved |
| C07, C08 | long division loops | invariant; C08 is false for negative dividends: witness, exact value, and the proved part |
| C09, C10 | `==`, `<=>`, hash; programs over Int variables | canonical form uniqueness; refinement to ℤ over op lists |
| C11–C15, C17, C19, C20 | each function | refinement to Mathlib notions (`Nat.Prime`, `Nat.factorial`, `Nat.log`, `Nat.gcd`) |
| C16 | Newton loop | terminates and is `Nat.sqrt` iff x+1 is not a perfect square (x ≥ 4); *diverges* otherwise |
| C18 | modular pow | false for negative base and for `|base| = 1` / `exp = 0` with |mod| = 1; proved for the rest |
| C21 | 32-bit ints | all but INT_MIN; INT_MIN is UB both ways |
| C22 | random with draw oracle | for all oracles |
| C23, C24 | the state machines | equivalence with a grammar; exact arithmetic for to_decimal (rounding: C73) |
| C73 | `to_decimal` over IEEE doubles, `std::pow(10, ·)` under a contract | `rnd` is nearest; counting roundings (`Near n`) |
| C25–C27, C31, C35 | Str functions | induction; UB cases characterised |
| C28–C30, C32–C34 | sequence functions, checked ints | induction / exhaustive over bytes; UB and corruption witnesses; Props/StrAny.lean: C23–C34 for strings of any size |
| C36–C42 | List and Deque in `Meth` | refinement over histories; aliasing witness for `/=`; Props/ListExact.lean: the outcome of every list history, defects included; Props/AnySize.lean, Props/DequeAny.lean and Props/ListAny.lean: every history of sets, dictionaries, deques and lists of any size, `size()` being cut to 32 bits |
| C43–C48 | Set and Dict as sorted lists | refinement over histories; merge loops |
| C49–C55 | Fraction with checked ints, stream model | rational refinement; `==` goes through `double`: rounding model |
| C56–C58, C62 | Complex over an arithmetic parameter: exact reals and IEEE `double`s; `is >> double` | Mathlib `ℂ`; `<cmath>` functions exact only in the real instance |
| C74 | Complex over `Dbl` | forward error analysis; norms of Mathlib's `ℂ` |
| C75 | constructors, `data()`; a pointer is the memory from its target on | induction over `strlen`; false for strings with a NUL |
| C76 | `os << double` in the default format (six significant digits, `%g`) on `Dbl` | decimal texts of C62; six-digit decimals are sparser than doubles, so reading back is characterised exactly |
| C77, C78 | programs over `Fraction` variables, as for `Int`; `operator double` | simulation by rational numbers; exact overflow condition from the remainders of Euclid's algorithm; `rnd` is nearest and monotone |
| C79 | `operator<<` of all classes on a stream with width, fill, adjustment and flags; nested values as a tree `Val` | induction over the tree |
| C80, C81 | outcomes of the random source as functions; `std::hash<int>` as the identity | counting (`Set.ncard`), pigeonhole; exclusive or of digits |
| C82 | explicit fuel for every looping function of `Int` | Fibonacci numbers (Lamé), binary digits, error of Newton's method in ℝ, Bertrand's postulate |
| C83 | values of a `Dict` with numbered nodes; a reference is a number or the default argument of `get` | one-step lemma from C46 on numbered values, induction over operations |
| C84 | functions that call user code again with callbacks that may throw (Model/Throwing.lean); the pairs a tree compares are a parameter | no-effect calculus; invariants of the `remove_if`/`copy_if` loops at the point of the exception; agreement with the other models when nothing throws |
| C85 | a vector with numbered slots, a capacity and any growth rule (Model/ListRef.lean) | one-step lemma, induction over operations |
| C86 | elements of a `std::deque` with numbered places (Model/DequeRef.lean); places are stable under operations at the ends | one-step lemma from `deque_step` on numbered elements, induction |
| C87 | a map `f` from values of a linear order to objects whose `<` (as modelled, possibly failing) decides the order (`Rep f lt`); operations are mapped along `f` (Spec/Nested.lean) | every container operation commutes with `f`; then C36, C45, C46 |
| C88 | nodes with numbers; iterators are numbers (Model/SetIter.lean). Inductive relation `Visits` on finite sets: next greater element of the set as it then is, or lost | invariant that the numbering of the nodes follows the elements; one step moves nodes as C45 says |
| C89 | loops by index, iterator and range over `Vec` of C85 (Model/ListLoop.lean). Inductive relation `Walk`: positions in order, with the condition under which the loop goes on as a parameter | one step per position; the iterator is the number of the place, equal to the end exactly at the length |
| C90 | the tree of C88 on the keys of the nodes of C83 (Model/DictIter.lean). Inductive relation `VisitsPairs` on finite maps | one step moves nodes as C83 says; the pairs follow C46 |
| C91 | reverse iterators hold a base iterator; reading goes to the node before the base, moving makes it the base (Model/ReverseIter.lean). Inductive relation `VisitsBack` on finite sets and maps: greatest element below the place, lost, or nothing left | the steps of C88 and C90; parity of the number of elements for loops that remove |
| C92 | the places of C86 with a count of the insertions, which lose every iterator, and of the losses of the end (Model/DequeLoop.lean). Inductive relation `Walk` on lists and indices; for queues the equation v = d ++ v.flatMap succ, for stacks pre x = x :: (succ x).reverse.flatMap pre | follow one place through a body (C86); induction on the number of rounds |
| C93 | the loops of C88–C92; bodies keep an invariant `P` and stay within the limits of the operations | the inductive relations of C88–C92 have derivations, by induction on the element (well-founded order), on INT_MAX minus the index, on the number of elements behind the place; `Rounds` for loops that go on for ever |
| C94 | reverse loops over the lists of C89 and the deques of C92: the iterator held is the place behind the element, at first the end | `BackWalk`: indices from the last to the first; `KeepsPlace` / `keepAll` say whether that iterator is lost |
| C95 | `double`s with two zeros (`SDbl`) in Complex, Fraction and `to_decimal`: the same results as with one (`SDbl.forget`), seen only in the text and in `arg` (Model/SignedZero.lean) | each operation commutes with `forget`; programs by induction on the statements |
| C96 | `index`, `count`, `-=`, `/=`, `uniquify`, `==` for any function `==` of the elements; NaN, the tolerance of Complex. The choice of `uniquify` as a marking of positions (Props/AnyEq.lean) | `findIdx`; the loop of `std::remove` with a reference; `uniquify` by induction from the end |
| C97 | Histories of sets and dictionaries for every strict weak order, as finite sets of the elements (pairs) held, with equivalence instead of equality (Spec/Weak.lean); doubles with two zeros | the merges keep the left representative, `Tree.insert` the one held; one step, then induction; ranks by naturality (`run_map`) |
| C98 | Members again with a budget of requests for memory as part of the state and the capacity of digit vectors (Model/OutOfMemory.lean); `Runs`: with enough requests the value and the new object, otherwise `std::bad_alloc` and an object with `P` (Spec/OutOfMemory.lean) | rules for `Runs` (sequence, request, read, write); the lemmas of C01-C05 for the steps between requests; induction over the loops of `/=`, `%=`, `copy_if` |
| C99 | The functions of `Int` again with counters of type `int`: `++i` and indices are checked, a size stored in an `int` is reduced modulo 2^32 (Model/IntAny.lean); `Short`, `AddFits`, `numDigits`, `lowDigits` speak about the integers only (Spec/IntAny.lean) | the checked loops are the old ones as long as the bound fits, and undefined otherwise (`countUp_eq`, `countUp_ub`); for each function the smallest operand whose loop does not fit; `whileF_congr` with an invariant that keeps all operands short |
| C100 | The functions of `Int` again in a monad that counts rounds of loops, elements written, elements moved and subtractions of the long division (Model/IntCost.lean); `digitCount`, `digitSum` (Spec/IntCost.lean). Reallocation of growing vectors is not counted | forgetting the counts gives the functions of Model/Int.lean (`C100_same`); rules for counts of sequences and loops (`Post`); the value of the remaining part and the digit sum of the quotient so far as invariant of the long division |
| C101 | `Py.floorDiv`, `Py.mod`, the grammar `Py.IntText` (Spec/Python.lean), written from the Python reference, ASCII only | each operation agrees exactly under the condition stated; witnesses where it does not |
| C102 | `Py.Slice`, `Py.Find`, `Py.Count`, `Py.Replace`, `Py.Split`, `Py.Strip`, `Py.Format` (only `{}` fields), `Py.IntTextIn` (Spec/PythonStr.lean) | agreement exactly under the condition stated; outside it the code throws, is undefined or differs |
| C103 | `Py.insert`, `Py.Index`, `Py.setItem`, `Py.update` on pairs in the order of insertion, `Py.reprSet` (Spec/PythonSeq.lean) | as C102 |
| C104 | `IsTrunc` (a number without its fraction), divisibility by 2^32 | exact: when the value is kept, what it becomes, when it is undefined |
| C105 | `Clear`: the text of an element says which it is and where it ends, given what may follow (Spec/Printed.lean) | compositional: from elements to containers |
| C106 | programs of a user that call `slice`, `split`, `to_integer` (Model/ReadBack.lean) | from the theorems on the members |
| C107 | `std::unordered_map` as the standard describes it, with the number of buckets, the order and the pairs looked at as parameters (Model/HashTable.lean); finite maps as functions (Spec/HashTable.lean) | one-step lemma, induction over histories; Cauchy–Schwarz for the calls of `==` |
| C108 | expressions as trees (Model/CxExpr.lean), exact value and running error bound (Spec/CxExpr.lean) | from the single operations of C74, by induction over the expression and over the list |
| C109 | `std::numpunct` as a record, grouping as the standard defines it (Model/Locale.lean) | lengths: a grouped number is longer, so texts agree only if nothing is grouped |
| C110 | `num_get` with separators and `__verify_grouping` (Model/LocaleIn.lean) | induction over the groups from the right: what `group` writes, `scan` takes apart and `verify` accepts |
| C111 | objects with lifetimes, calls that return `*this` or a new object (Model/Chain.lean; ChainInt, ChainSet and ChainStr for the members of `Int`, `Set`, `Deque` and `Str`) | invariant: which object the chain has reached, and whether it is one of the temporaries |
| C112 | the functions with counts (Model/ListCost.lean) | inductions; for appending a potential, twice the size less the capacity |
| C113 | the algorithms of libstdc++ as moves and swaps, with a function for what moving leaves (Model/Moves.lean) | lists cut at the positions; Gries and Mills for rotate; two runs of the remove loop side by side |
| C114 | `std::stable_sort` of libstdc++ as moves in one row of places, list and buffer (Model/StableSort.lean) | segments of the row; a relation kept by inserting and merging; for throwing comparators an invariant of the row |
| C115 | the searches of `Str` with characters passed and compared, and `to_integer` with the digit steps of C100 (Model/StrCost.lean) | the loops follow the spec `Scan`; digit counts of the growing number give the square from both sides |
| C116 | the steps of C114 with a comparator that has a state of its own (Model/SortState.lean) | a simulation closed under bind; costs closed under bind, with what is at the first place as the guard of the insertion loop |
| C117 | `sort` with a smaller buffer or none (Model/SortMemory.lean) | segments of places; merging by cutting both parts keeps order and stability; the binary search finds the cut when the part is sorted |
| C118 | the trees of `Set` and `Dict` (Model/RbTree.lean, Model/RbSet.lean) | red-black trees are not deep; where the searches end, by induction on the tree; a gap of the order is a free place below one of its two neighbours; step by step the same as the sorted list |
| C119 | the calls of C118 with `extend` element by element (Model/RbThrow.lean) | two programs run in step until the comparator throws; composition of such pairs; what comes first is only reading |
| C120 | the blocks of `std::deque` (Model/DequeBlock.lean) | element i is at place (start + i) mod S of block (start + i) div S; moving the pointers keeps the places; blocks in use have different numbers |
| C121 | a range at an end of a `std::deque` (Model/DequeBlockExtend.lean) | the blocks after the last one, or before the first one, are new and different; filling them place by place is the representation of a longer list |
| C59, C60 | tuples as type/value lists, print loop | induction |
| C63, C69 | stores of objects with addresses; `Str`'s writes through `const_cast` are `ub constWrite` in strict mode | case analysis on aliasing; lines by induction |
| C64–C66 | `<=>` of the sequence classes as the loops of the library, hashes | a three-valued lexicographic comparison; strict weak orders |
| C67, C68 | the stream after a read; reading loops of a client program (`Spec/ReadLoop`) | induction over the texts, generic in the class |
| C70–C72 | iterators as positions; `==` of `Dict`; own ranges as arguments | induction |
| C61 | `Meth` | a small calculus: readers, operations that never throw, and their compositions |

## 4. Wrong programs

`tools/mutate.py` edits one definition of the model in a scratch copy and rebuilds it; `seeded/LOG.jsonl` has one line per edit.
"caught" means that the proof of a property theorem, or of a lemma it needs, no longer compiles. This is evidence and no
disproof: a proof can also break when its statement is still true. "survived" means that every proof still compiled;
such a line names the theorem that was added or sharpened, or says why no property depends on the edited part.

## 5. Trusted base

* Lean's kernel. Every theorem depends on a subset of the axioms `propext`, `Classical.choice`, `Quot.sound`; there are
  no others, no `sorry`, no `native_decide`. `tools/axioms.lean.sh` prints the axioms of every theorem of the manifest.
* The faithfulness of the transcription: each definition cites the lines it models.
* The contracts of the standard library, section 1, and the platform: x86-64, 32-bit `int`, signed `char`, libstdc++
  (`num_get`, `std::gcd` on `INT_MIN` undefined), IEEE 754 `double` with rounding to nearest. Every `double` operation is rounded on its own: no contraction to fused multiply-add, no excess precision.

What is modelled with a simplification:

* **Int**: the digit vector is a list; its length stays below 2^31, except in C99, which says what happens beyond. Moved-from objects are only modelled where the code reads them. `random` draws from an
  arbitrary oracle.
* **List, Deque**: the element type is any type with a decidable `==` (and an order, for `sort`); copying an element never
  throws and there is always memory (except in C98). `stable_sort` is a stable merge sort (C114 has the steps of libstdc++). Inserting an element of the list itself and the overlapping
  `copy_if` have a strict (undefined) and a lenient mode.
* **Str**: bytes; `size()` is an `int`, so loops, buffers and `strip` of strings longer than `INT_MAX` follow the wrapped size. `strip` with nothing left forms `begin() - 1` (str.hpp:592), undefined under `strict`, harmless under `lenient`. `to_decimal` over an abstract arithmetic (`DoubleOps`) instantiated with rationals and with IEEE doubles;
  `std::pow(10, n)` is any function that is exact for `n ≤ 22` (`PowExact`) or gives the nearest double (`PowNear`).
* **Set, Dict**: `std::set` and `std::map` are sorted lists (trees in C118); the comparator is a strict weak order unless a theorem says
  otherwise. The `std::set_*` algorithms are one walk loop. References into a dictionary do not outlive the call, except in C83.
* **Fraction, Complex**: `Dbl` identifies the two zeros; C95 proves that with two zeros nothing else changes but the text of a real part `-0` and `arg`. Streams
  are string streams in the "C" locale. `<cmath>` functions are a parameter; exact in the real instance. The text of a
  `double` in `operator<<` is a parameter, instantiated by `Dbl.text` (the default format) for C76.

* **Objects**: a moved-from `std::vector`, `deque`, `set`, `map` or `string` is empty, also after a self-move, as in
  libstdc++ (the standard only promises a valid state). `Str`'s only member is `const std::string`; writing it through `const_cast` is
  undefined (`ub constWrite`, strict), and what compilers do in lenient mode. The same holds inside containers: `List<Str>::insert`,
  `remove` and others assign `Str`s; the container theorems speak of element types whose copy and assignment work.
* **Iterators** are positions in C70–C72, where they are not used after the container has changed. Where they are (C83, C85, C86, C88–C94), the
  places have numbers that are never used again, and an iterator or reference is a number.

Not modelled: `std::bad_alloc` outside of C98, C120 and C121 (constructors, `Str`, free operators), iterator invalidation beyond the points above, `noexcept`, the benchmarks of the repository.
