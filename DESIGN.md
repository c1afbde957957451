# Formal model of Kuree/logic in Lean 4

The code under study is a header library of SystemVerilog-like 2-state (`bit`)
and 4-state (`logic`) vectors, in `/repo/include/logic` and `/repo/src/util.cc`.
The code was read as text only; it was not compiled or run.

## Layout

* `lean/Verif/Model/` - the model, one file per source file. Every definition
  cites the file and lines it models.
* `lean/Verif/Spec.lean` - the specification vocabulary (4-valued logic and its
  truth tables, digit strings, numbers of bit strings). It does not import the
  model.
* `lean/Verif/Lemmas/` - helper lemmas.
* `lean/Verif/Props/` - the property theorems, one file per group, each with a
  concrete instance beside it.
* `MANIFEST.json` - property to theorem map. `seeded/LOG.jsonl` - mutation log.

## Modelling decisions

* **C++ integers** are `Int` values tagged with a type (`bool` or width and
  signedness). Integral promotion, the usual arithmetic conversions and
  narrowing conversions are modelled explicitly (`Model/CInt.lean`).
* **Undefined behaviour is an outcome.** Functions that can shift out of range,
  overflow a signed integer, divide by zero, index a limb array out of bounds,
  flow off the end of a non-void function (`noReturn`, comparisons of a native
  value with a wide one), use a reference to a destroyed vector (`dangling`),
  throw or fail to terminate return `Except Fault`.
* **A native `bit`** is the bit pattern of its holder (`BitVec 1/8/16/32/64`),
  so bits above the declared width are represented and can be dirty.
  **A wide `bit`** is a list of 64-bit limbs of the declared length.
* `bit<msb,lsb,s>` is `Bits n s` with `n = |msb-lsb|+1`; functions that use the
  declared range take it as an explicit argument.
* A `logic` is a pair of planes as in the source.
* Loops are folds over the same index range; the only unbounded recursion
  (`big_num::operator>` on signed values) takes fuel and reports divergence.
* `std::reduce` is modelled with its `int` accumulator.
* Template arguments are assumed to fit their C++ types; `int` arithmetic on
  indices is exact, except in the element addresses of packed arrays, where overflow
  is modelled.
* Instantiations that do not compile (for example signed-signed `big_num`
  equality, `big_num::popcount`) are not modelled, or are the fault `illFormed`
  where a run-time width decides (65 bit constant slices of wide values, wide
  against native order). Comments name them. Refutation witnesses were
  chosen among instantiations that compile, as far as reading can tell.
* Compile-time (`constexpr`) evaluation is modelled as run-time evaluation.

## Plan per property

| id | property | model and proof plan |
|---|---|---|
| C01 | 2-state bit write/read-back | `Bits.set`/`Bits.get` over any width; native via shift lemmas on storage, wide via limb lemmas. Law for all states and index pairs. |
| C02 | 4-state bit write/read-back | `Lg.set*`/`Lg.get`; two-plane lift of C01. x/z read at index >= 64 is a shift fault in `operator[]` (it writes `r.set_x(idx)` into a 1-bit object): refuted there, proved below 64. |
| C03 | ascending ranges address consistently | Same functions with an ascending range argument. |
| C04 | ranges with non-zero low bound address consistently | False of the code (reads ignore the low bound, writes subtract it): negation with witness, `_partial` for ranges with low bound 0. |
| C05 | out-of-range 4-state read is X | Decision logic of `Lg.get`. |
| C06 | out-of-range write is ignored | True for wide values, false for native ones (`1ull << i` is not bounds checked): negation plus `_partial`. |
| C07 | default construction | Induction over limbs / native mask arithmetic, rendered through the modelled formatter. |
| C08 | 4-state XOR truth table (equal widths) | Bitwise truth-table lifting: each plane is a bitwise function, table checked on the 4x4 finite table. |
| C09 | 4-state NOT truth table | As C08. |
| C10 | 4-state AND truth table (equal widths) | False of the code at 3 of 16 entries. Negation, plus exact table actually computed (`_partial`). |
| C11 | 4-state OR truth table (equal widths) | False of the code at 2 of 16 entries. As C10. |
| C12 | 4-state XOR of different widths | False (`xor_` calls `|`). Negation, plus what is computed. |
| C13 | 4-state AND/OR of different widths | Composition of extension and C10/C11; commutes on known operands. |
| C14 | 2-state bitwise operators | Bitwise lemmas on both storage classes. |
| C15 | 4-state operators are conservative over 2-state | Corollaries of the operator theorems with an all-zero x/z plane. |
| C16 | results stay in canonical form | Predicate `Clean`; preserved by a listed set of operations (induction over operation sequences); also for histories over all widths, 2-state and 4-state, which make exactly the canonical objects; exact conditions (iff) for `+ - * << ~` at all widths, unsigned and signed, and native expressions; refuted for `+`, `<<`, `~`, integer construction. |
| C17 | 4-state AND reduction | False (scan stops at the first x): negation, exact result, and the subdomain where it is right. |
| C18 | 4-state OR reduction | As C17. |
| C19 | 4-state XOR reduction | False for odd widths (counts zeros): negation, exact result, proved for even widths. |
| C20 | complemented reductions | Decision logic over C17-C19 results. |
| C21 | 2-state AND reduction | False (1-bit inverted, wide calls xor): negation; proved for unsigned native widths >= 2. |
| C22 | truth value of a 4-state vector | Native proved; wide false when all set bits are in upper halves of limbs: negation plus `_partial`. |
| C23 | logical negation | As C22. |
| C24 | logical right shift | Native: amounts < width; amounts >= width are a shift fault. Wide: all amounts. |
| C25 | logical left shift | As C24; native amount is truncated to the holder type: negation. |
| C26 | arithmetic right shift | Native signed/unsigned; wide unsigned; wide signed false (bit n-1-k never written): negation and exact result. |
| C27 | 4-state shifts propagate X | Decision logic plus `mask`. |
| C28 | addition is modulo 2^n | Ring arithmetic modulo 2^n; ripple-carry loop invariant for limbs. Fails for 1-bit bool holder and signed overflow fault. |
| C29 | subtraction is modulo 2^n | As C28 with `negate`. |
| C30 | multiplication is modulo 2^n | Product loop invariant; out-of-bounds limb write is a fault: exact fault condition, product correct whenever no fault and no truncation. |
| C31 | unsigned division and remainder | Native: direct. Wide: shift-subtract loop invariant; truncating zero/one/fits tests give counterexamples. |
| C32 | division by zero | Decision logic. |
| C33 | 4-state arithmetic propagates X | Decision logic. |
| C34 | signed division truncates toward zero | Direct over Int.tdiv/tmod; INT_MIN/-1 is a fault. |
| C35 | negation | Ring arithmetic. |
| C36 | increment and decrement | From C28/C29 with extension of the 1-bit one. |
| C37 | mixed-width arithmetic | Composition with C47. |
| C38 | equality at equal width | Storage equality is bit equality on clean values. |
| C39 | equality at different widths | False (narrowing cast / truncating reduce): negation, exact condition. |
| C40 | unsigned order | Lexicographic limb comparison equals numeric order. |
| C41 | signed order, native widths | Direct. |
| C42 | signed order, limb-based widths | False at the minimum value; `>` diverges on min > min (fuel-bounded evaluation shown never to return): negation, divergence theorem, `_partial` elsewhere. |
| C43 | 4-state relational operators | Decision logic over C38-C41. |
| C44 | case equality | Two-plane C38. |
| C45 | 2-state against 4-state comparison | Decision logic. |
| C46 | order and equality cohere | False for mixed signedness: negation; proved otherwise. |
| C47 | zero extension | Bit lemmas. |
| C48 | sign extension | Native proved; wide false for non-negative values: negation. |
| C49 | constant slices of unsigned values | Mask arithmetic native, limb loop wide. |
| C50 | constant slices of signed values | False: extra mask bit, shift fault; negation. |
| C51 | run-time slices | As C49. |
| C52 | concatenation | Shift/or in promoted type: proved under the width condition; negation otherwise; logic.concat(bit) false. |
| C53 | unpacking | Induction over the argument list. |
| C54 | concat and unpack are inverse | Composition of C52, C53. |
| C55 | 4-state slice assignment, constant bounds | Loop invariant of the element-wise copy. |
| C56 | 4-state slice assignment, run-time bounds | Same loop. |
| C57 | 2-state slice assignment | Constant-bound form false (reads op[i]): negation; run-time form proved. |
| C58 | signedness casts | Storage casts; false for signed partial widths. |
| C59 | numeric conversion | Direct. |
| C60 | construction from integers | False (no masking): negation, proved when k is in range. |
| C61 | binary literals | Induction over the digit string; xz plane is `1u << idx`, fault at idx >= 32. |
| C62 | hexadecimal literals | Induction; lower-case letters are wrong: negation. |
| C63 | octal literals | Induction. |
| C64 | decimal literals | Induction modulo 2^64. |
| C65 | raw strings | Induction. |
| C66 | literal prefix | Decision logic of the prefix scanner. |
| C67 | wide binary/hex literals | Loop over batches. |
| C68 | wide octal literals | False (21 digits = 63 bits per limb): negation; proved within one limb. |
| C69 | wide x/z planes and underscores | False in general (1u shift, underscores consume batch positions). |
| C70 | binary formatting | Induction over positions. |
| C71 | hexadecimal and octal formatting (4-state) | Induction over digits. |
| C72 | hexadecimal and octal formatting (2-state) | False (digits reversed): negation and exact result. |
| C73 | decimal formatting | Induction on the value (division by 10). |
| C74 | x/z digits in formatted output | Case analysis per digit. |
| C75 | padding | Length reasoning on `pad_result`. |
| C76 | wide formatting | 'b' loop; last limb dropped at multiples of 64; octal boundary digit wrong. |
| C77 | format/parse round trip | Composition of C61 and C70. |
| C78 | packed array element read/write | False: update writes one bit too many, read needs one bit too many; exact frame. |
| C79 | packed array index out of range | False for indices between element count and bit count; proved for xz and large; the outcome of every write that passes the guard is given exactly. |
| C80 | packed array constant slices | From C49/C55. |
| C81 | unpacked array | List update laws; non-zero base false. |
| C82 | packed struct/union fields | From C55 by induction over histories of field writes. |
| C83 | reductions over limbs do not depend on evaluation order | Relational model of std::reduce (any tree, any permutation). |
| C84 | wide emptiness tests look at every bit | False: only low halves: negation, exact characterisation. |
| C85 | literals | Conversion arithmetic. |
| C86 | all_set is exact | False: `std::reduce` with `&` starts from 0, the result is always false: exact behaviour and negation. |
| C87 | 2-state bitwise operators on different widths | Composition of extension and the equal width operators; false for wide signed operands. |
| C88 | 2-state OR/XOR reductions | Native: direct; wide r_or only looks at low halves: negation and exact condition. |
| C89 | slices of ranges with a non-zero low bound | False for a positive low bound: slices take positions, not indices. |
| C90 | bit access with a constant index | Reduction of the static forms to the run-time ones; false for a positive low bound (`get<i>` tests against the size). |
| C91 | extension to a smaller width | `extend` becomes a slice: from C49. |
| C92 | assignment of an integer | Conversion arithmetic; false for k out of range (no mask) and for one bit targets. |
| C93 | assignment between native widths | Conversion arithmetic; false for narrowing (no mask), one bit targets and a signed z. |
| C95 | bit access with a vector index | Index arithmetic with the usual conversions; false for ascending (2-state) or all (4-state) ranges with a positive low bound. |
| C104 | native value from a big_num | First limb arithmetic; false for one bit and for values from 2^n on (no mask). |
| C94 | concatenation of several values | Induction on the argument list over the two-argument theorem (C52); false when a step crosses from at most 32 to more than 32 bits and for negative signed arguments. |
| C96 | highest set bit | Loop invariant on the limbs; false for negative native values (63) and for the wide zero (number of limbs). |
| C97 | the negate member | Complement plus one over the holder type and over the limbs; false for canonicity in place of signed types and of wide widths that are not multiples of 64. |
| C98 | population count | Count over the holder bits; false for results of `~`. |
| C105 | 4-state operators with a 2-state right operand | Reduce the conversion of the 2-state operand to a 4-state value with an empty x/z plane and apply C28-C34, C40-C44; false when the signedness of the operands differs. |
| C106 | shift assignment | Induction on the sequence over C24-C27; false for amounts of at least the holder width and, because the result is not canonical, for a comparison that follows. |
| C107 | unary plus | Case split on the x/z test (C84); false for x/z in upper halves of the 64 bit chunks of wide values. |
| C108 | truth value of 2-state vectors | Case split on native and wide storage; false for ones in upper chunk halves only, and for results that are not canonical. |
| C111 | assignment to indexed part-selects | Reduce to run-time slice assignment (C57) with the bounds computed from the base; false for sources narrower than the selection and for selections that leave the vector. |
| C103 | packed arrays of 2-state elements | Reduce to run-time slices (C56) and run-time slice assignment (C57) one bit longer than the element; false for elements of 32 or 64 bits (undefined behaviour) and for the lowest bit of the next element. |
| C110 | big_num operators on different sizes | Compose the extension lemma with the equal-size operators (C01-C09, C28-C31); false for narrower signed operands, which are extended with ones whatever their value, and for products of one-limb operands. |
| C112 | big_num concatenation | Loop invariants of the limb copy and of the bit copy. |
| C113 | big_num compound assignment | Induction on the sequence over C110; false for narrower signed operands. |
| C99 | decimal text of values with unknown bits | Characterise the letter loop for native and wide objects; false for signed objects with top bit z or 1, and for wide objects (only 128 bits are looked at). |
| C100 | text of byte strings | Byte extraction per limb against the constructor theorem C65; false at multiples of 64 above 64 and for 2-state vectors. |
| C101 | 2-state text against 4-state text at wide widths | Decimal and octal hold for all values; hexadecimal holds when each limb is zero or has a nonzero top digit and is mirrored otherwise. |
| C114 | 2-state client expressions of any depth | Deep embedding of expressions, evaluation by the modelled operators, reference semantics on BitVec; induction on the tree with the canonical-form invariant. |
| C115 | 4-state client expressions of any depth | As C114 with a reference semantics on functions from positions to 4-state bits; the invariant says the x/z plane of every intermediate result is canonical. |
| C116 | 2-state client programs | Simulation theorem over a big-step interpreter with fuel, then a loop invariant for the multiplication program. |
| C117 | 4-state client programs | Simulation theorem on top of C115; reversal by induction on the number of bits moved. |
| C102 | construction from a numeric text | The constructor from the text gives the object of the constructor from the integer; then C60. |
| C109 | header helpers: text length, bit copy and tuple reversal | Induction on the loop; exact failing domains. |
| C118 | a 2-state read outside the range yields 0 | Exact read function of the native shift: sign fill up to the promoted width, fault above; the wide read checks the index. |
| C119 | equality of signed operands of different widths | Exact answer per storage class (both native, mixed, both wide); the wide ones refute the property. |
| C120 | division of unsigned operands of different widths | From C31/C32 through zero extension (C47); exact outcome of every wide case, which refutes the property. |
| C121 | 4-state arithmetic on different widths propagates x | x/z plane of the extended operand, then C33 exactly; refuted for a native operand with an x above bit 31 that meets a wide one. |
| C122 | arithmetic on signed operands of different widths | C28-C30, C34 through the number of the extended operand (C48); exact for wide sums, products of negative operands refuted. |
| C123 | operands of different signedness are read as unsigned | Exact condition for sums and differences; exact quotient through the usual arithmetic conversions; exact order through the casts to uint64_t; each refutes the property. |
| C124 | slice assignment from the object itself | Loop invariant: index lo + k receives old index k mod lo. Exact outcome, the condition on the value, the disjoint case, a counterexample for every overlapping slice; constant 2-state form is the identity. |
| C125 | expressions over the integer types, exactly | Structural induction over a typed syntax; each operator from the exact single-operator theorems. |
| C126 | programs over the integer types | Induction on the steps; Euclid's algorithm as an application, proved to end with the gcd for all inputs; a loop with a mixed comparison that ends in the library only (refutation). |
| C127 | run-time part-selects that leave the vector | Exact outcome for native (defined iff both bounds are in the holder) and wide values (four cases of bound signs, -1 diverges); refutation for every vector. |
| C128 | expressions over the 4-state integer types, exactly | Denotation in V4 vectors (`ExL.den`), induction over the syntax; the deviation of & and | on z and of extension on x/z are part of the denotation. |
| C129 | programs over the 4-state integer types | Simulation over fuel on top of C128; Euclid as an application; the loop of C126 as a refutation. |
| C130 | indexed part-selects | Exact outcome for native and wide vectors over all int bases, reduction of the base modulo 2^32, refutation for every vector. |
| C131 | 4-state compound bitwise assignment | Exact fold of the tables of the library; IEEE result for known operands; refutation at every width. |
| C132 | clear, unary plus, ashl, bool and text of big_num; slices of 2-state packed arrays | Exact theorems per member; refutation for bool at every width above 32. |
| C133 | moving a program from bit to logic | Simulation by induction over expressions and statements at widths without spare storage bits; refutation at every other width. |
| C134 | sign extension of x and z | Exact value of every bit below and above 64 bits; equivalence saying when it is the standard's; refutation for every pair of widths. |
| C135 | fill of literals with a leading x or z digit | Equivalence saying for which literals the bits are the standard's; refutation at every width above four in each base. |
| C136 | assignments to part-selects that leave the vector | Full statement for wide vectors; exact outcome on the storage for native ones; refutation at every native width and for every unknown base. |
| C137 | signed order of limb-based values of different widths | Exact answer for all operands and widths; right for operands that are not both negative and for widths that are multiples of 64; refutation for all negative operands of the other widths. |
| C138 | binary text of wide values is read back | Exact condition (iff) for all wide objects; known objects covered; refutation for the objects that are not read back. |
| C139 | hexadecimal text is read back | Exact condition (iff) for unsigned native, signed native and all wide objects; known objects covered; refutations. |
| C140 | octal text of native values is read back | Exact condition (iff) for both signs; known objects covered; refutations. |
| C141 | decimal text of native values is read back | Exact condition (iff): not negative, or the most negative number of 8 or 16 bits; refutation for every other negative number (the parser skips the minus sign). |
| C142 | a known bit of a result does not depend on the unknown bits | `^`, `~`, native arithmetic, comparison, shift, reductions and part selects: proved. `&` and `|`: the exact pairs of operands (iff). Expressions and programs: a syntactic condition that is sound. Refutations: `x | 0`, `z & 1`, wide sums, the conditional, signed widening. |
| C143 | laws of bit vector arithmetic hold with == | Native: the storage computes the expression modulo the holder size, so laws that hold at the holder width hold for all contents. Without products: an iff on the width (8, 16, 32, 64, multiples of 64). Wide Boolean expressions: the exact answer of ==. |
| C144 | slices compose, and commute with the bitwise operators | Equality of canonical objects from equality of bits. Refuted for run-time slices of one-bit slices and for ~ of 2-state vectors. |
| C145 | slice assignment and slice reading fit together | From the exact bits after update. An operand with x or z from its bit 64 on is undefined behaviour (refutation at every wide width). |
| C146 | extension in steps, and extension of the bitwise operators | Equality of canonical objects from equality of bits. |
| C147 | shifts in steps | Wide vectors with all amounts, native ones within the defined amounts; refuted natively for a total of at least the width, where the single shift is undefined behaviour. |
| C148 | concatenation is associative and inverse to slicing | Widths that fit the promoted type of the first operand; refuted beyond 32 bits, where one grouping is defined and the other undefined behaviour. |
| C149 | == is an equivalence relation across types | Reduce native == to congruence modulo the holder of the left operand and wide == to the chunk comparison of C39, then decide symmetry and transitivity for every combination of types: iff theorems on the widths. |
| C150 | the order is transitive across types | Express every comparison by a key: the number, the number modulo 2^64, or for wide signed operands the key of C137. Iff theorem on the signednesses for native operands, proofs for wide ones, refutation for wide <=. |
| C151 | 2-state programs that work bit by bit agree with the operators | Loop invariants over the positions, with the carry of BitVec addition; compare with C28 for +. |
| C152 | a 4-state adder made of gates is sound | Loop invariant with the carry computed by the tables of & and | as they are (C10, C11); correctness up to the first x or z; refutation from x | 0 = 1. |
| C153 | sequences of array writes | Induction over the list of writes from the exact effect of one write (C78): an exact description by the last write concerning each bit, then an iff for an element to hold its last value, for 4-state and 2-state arrays. |
| C154 | loops that fill or copy a packed array | Loop invariants over the exact effect of one write: the upward loop overwrites what the write before it damaged, the downward loop damages what it has written. |
| C155 | counters | The whole storage counts modulo its own size; induction over k; then divisibility of 2^n by the storage size gives the widths that wrap. |
| C156 | counting loops | A loop lemma over an invariant under which < and ++ are right, instantiated for unsigned, signed native and signed wide vectors; divergence from an invariant under which the test never fails. |
| C157 | multiplication by shifting and adding | Loop invariant: the accumulator holds a times the low i bits of b. |
| C158 | Euclid's algorithm | Induction on the fuel with C31 for each division; the wide refutation from the emptiness test. |
| C159 | rotation by two shifts | C24 and C25 for the two shifts, then the definition of rotation. |
| C160 | counting ones by clearing the lowest | x & (x - 1) clears the lowest one; induction over the number of ones that have a visible one at or above them. |
| C161 | swapping without a third variable | Whole-storage arithmetic of + and -, bit by bit for ^. |
| C162 | slice references as objects | Induction over the program; a memory of vectors and a list of references; each step by C55, C57 or C124. |
| C163 | permuting chunks | Loop invariant over the number of chunks copied, with C51 and C55 for each step. |
| C164 | texts identify values | Injectivity of digit maps and numerals composed with C70 to C76. |
| C165 | reading, then printing | C61 and its wide form give the bits, C70 gives the text; both directions of the equivalence. |
| C166 | sorting with operator< | Insertion sort over any comparison given by a key; the keys are the numbers, or the order C137 shows for wide signed objects. |
| C167 | x_set and z_set | C02 and C118 for the two planes. |
| C168 | limb arrays are accessed in bounds | A second model of every function with checked accesses; each checked function is proved equal to the unchecked one. Multiplication is refuted and its condition is exact. |
| C169 | cyclic redundancy check | Polynomials over ZMod 2; a step multiplies by X up to a multiple of the generator; uniqueness of the remainder. One-bit registers are refuted: << keeps the bit. |
| C170 | Gray codes | (1 + S)^(2^k) = 1 + S^(2^k) as the invariant of the decoder; carries of x + 1 for the neighbours. |
| C171 | long division | Loop invariant: quotient and remainder of the bits done so far; the remainder never exceeds the prefix, so the shift never overflows. |
| C172 | base letters of literals | Exact value of the literal for every letter class: equal for both cases, raw text after s, 0 after any other letter, whole literal in binary without a letter; each of the last three refutes the statement at every width. |
| C173 | square root by digits | Loop invariant: root and remainder of the upper digit pairs; the trial value never exceeds the width because 4r+1 shifted stays below 2^n. |
| C174 | linear feedback shift register | Run as the CRC (C169) of a message of zeros; injectivity and pigeonhole for the cycle; counting for the maximal length. One-bit registers are refuted. |
| C175 | carry, borrow and saturation | Comparison of the whole storage; a sum is stored with its carry unless the width fills the storage: the carry test and saturation are right only at widths 8, 16, 32, 64 and multiples of 64, the borrow test everywhere. |
| C176 | midpoint | a + b = (a ^ b) + 2 (a & b); >> masks the operand's carry. |
| C177 | lowest one and powers of two | Bits of a negation; exact set of values that pass in terms of the bits any_set() looks at; refuted at every wide width, both ways. |
| C178 | expressions and programs over the integer types by the rules of C++ | As C125 and C126 with a reference that follows C++ where it differs from SystemVerilog, so that no expression is excluded. |
| C179 | expressions and programs over the 4-state integer types by the rules of C++ | Lifting of C178 to 4-state vectors; an amount in range is the same for the value and the x/z plane. |
| C180 | resolution of several drivers of a bus | Induction over the bits for two drivers (table of IEEE 1800 6-2), then over the list. |
| C181 | multiplexer with an unknown select | As C180; soundness by cases over the tables. |
| C182 | powers by repeated squaring | Induction over the bits of e with C30; refutation where the products are computed as int (9 to 16 bits) and at wide widths. |
| C183 | digits in any base by repeated division | Induction with C31, C30, C28 and C16; refutation above 96 bits. |
| C184 | shifting in stages | Induction over the bits of the amount with C25. |
| C185 | decoder and priority encoder | Induction over the bits, C25 and C96; exactly when `highest_bit` agrees (iff). |
| C186 | parity check by r_xor | C19 and C08, induction over the bits. |
| C187 | index arithmetic in int | Model the index expressions with checked int arithmetic (Model/IntIndex.lean) and prove that they are the unchecked functions exactly when no expression leaves int. False for a slice assignment that ends at 2^31 - 1. |
| C188 | lifetimes of vectors behind slice references | Model destruction at the end of a block (Model/Lifetime.lean). True if every block returns only references of vectors declared before it; otherwise the returned reference dangles for ever. The meaning extends C162. |
| C189 | unpack into the vector itself or into one variable twice | Run unpack on a memory of variables (Model/UnpackAlias.lean) and compare with the alias-free model. `x` can only be the last field that is read: a field of `x`'s width in any other place leaves no bit for the next one, and does not compile. |
| C190 | objects in memory | Model types with the Itanium ABI rules (Model/Layout.lean) and compute sizes and bytes; a predicate that says which bits the bytes hold. Equal bits give equal bytes only for canonical objects (refuted for `~x` at every width that leaves holder bits); a packed array can be up to 7 bytes per plane larger (refuted, characterised for byte elements). |
| C191 | overload sets | Model the requires clauses as candidate lists (Model/Overload.lean) and prove which are viable. True for holders, `to_num`, `extend` and members with two forms; never ambiguous; refuted for slices and `get` of ranges with a low bound above 0 and of ascending ranges, operators with an ascending right operand of equal size, and single-bit updates of ascending 4-state vectors. |
| C192 | packed arrays of packed arrays | Model the nested type by its list of ranges (Model/MultiDim.lean). Places are exact; reading the row and slicing it gives the element (partial as C78); a second index yields a bit of the row (refuted for every array); a row write clears the lowest bit of the next row (exact). |
| C193 | expressions in a wider context | Results are not masked, so the bits above the width in the storage are the carry. Follow the storage through the expression: right up to 8, 16, 32, 64 or a multiple of 64 bits (partial), wrong beyond (refuted, iff); wide & masks and is wrong as soon as the target is wider. |
| C194 | reductions of complements | Proved for 4-state vectors on every descending range and every ascending one from 0: the loops stop at the same bit. Refuted on ascending ranges with a positive low bound. For unsigned 2-state native vectors an exact characterisation: false at all ones (zero) when the width is not that of a C++ type, because ~ is not masked. Refuted for one bit and for wide vectors. Signed ones likewise exactly: false at -1 and the greatest number. Wide ones exactly as well: r_and is a parity and r_or sees the lower halves of the limbs. |
| C195 | absolute value, minimum, maximum, clamp | Absolute value (native; wide unary minus does not compile) proved except for the least number, which is characterised: undefined behaviour at 32 and 64 bits, negative at 8 and 16, elsewhere a non-canonical value comparing as non-negative. Minimum, maximum and clamp proved for unsigned vectors of every width and signed native ones; for signed wide vectors proved except for two negative numbers one of which is the least, where the maximum is the lesser one or the comparison does not end. |
| C196 | laws of the 4-state bitwise operators | What any expression computes is proved bit by bit, with a table per operator; a law holds of the library at a width exactly if it holds of the library's tables on single bits. Proved for every law of ~ and ^, and for every Boolean law on operands without x and z. Refuted at every width for commutativity, associativity and distributivity of & and |, De Morgan, ^ by its definition and z & z. Commutativity characterised exactly per pair of operands; without z, & is associative, distributive over |, idempotent and absorbing. |
| C197 | undefined behaviour of arithmetic, exactly | An exact condition for every operator, both directions: sums, differences and unary minus only for signed vectors of exactly 32 or 64 bits, products for unsigned 16-bit operands and signed operands over 16 bits, quotients by 0 and least divided by -1. Refuted for wide 4-state products, where an unknown bit that the test does not see leaves an out of bounds write. |
| C198 | case statements with wildcards | Each bit test is proved for all sixteen pairs of bits, then the loop by induction on the position and the statement by induction on the items. |
| C199 | Hamming code | The checksum is the exclusive or of the indices of the ones; the loops are handled by induction with the checksum's bits as invariant. |
| C200 | Ring buffer in a packed array | Invariant: the pointers are known and differ by the queue's length modulo the number of slots; live slots hold the queue. A write clears the lowest bit of the next slot, which is the free one; with every slot in use it is the oldest value. |
| C201 | Binary to decimal by shifting and adding three | Invariant: the register holds the decimal digits of the bits taken so far; doubling a decimal digit carries exactly if the digit is at least five. |
| C202 | Counting ones in parallel | Invariant: field j of level l is the number of ones of x in its window; the sum of a level is at most the vector before it, so nothing leaves the vector. |
| C203 | Addition with saved carries | Full adder identity on natural numbers by induction over the bits, then induction over the list. One bit vectors are refuted (1 << 1 is 1). |
| C204 | Inverse of an odd number by Newton's iteration | Ring identity a*x*(2 - a*x) = 1 - e^2 for a*x = 1 + e; refuted at 9 to 16 bits (int overflow) and for limb-based vectors (out-of-bounds write). |
| C205 | Writing with byte enables | Loop invariant over the groups written so far; the missing case (an x or z enable at index 64 or above) is refuted as undefined behaviour. |
| C206 | Decimal text through a register of decimal digits | Digits of C201 through the digit-wise description of the text (C74, C76); refuted at registers of a multiple of 64 bits above 64, where the sixteen leading digits are printed as 0. |
| C207 | 4-state shift register | Induction on the list of inputs; refuted for the shift as soon as the register holds an x or z: from then on all bits but the last input are x. |
| C208 | Majority of three replicas | Case analysis over the exact tables of C10 and C11; refuted at every width: an unset first replica against two zeros gives 1. |
| C209 | Addition with a parallel prefix network | Invariant: after the round of distance k each position holds generate and propagate of the window of the next power of two; windows compose; a window that reaches position 0 holds the carry of the addition. |
| C210 | Register of flags | Induction on the list over the exact tables of C09, C10 and C11; refuted for flags that were not set: clearing leaves x, setting any flag sets all. |
| C211 | Numbers of several vectors | Induction on the list; exact carry test of C175; refuted at every width with spare storage bits, where no carry is ever found. |
| C212 | The one's complement checksum | Induction on the list with the residue modulo 2^n - 1 and the zero test as invariant; refuted at every width with spare storage bits, where the carry is never found. |
| C213 | Subtraction and comparison of numbers of several vectors | Induction on the list; the storage of a difference below zero is above every canonical value, so both tests are exact at every width, unlike the carry of C211. |
| C214 | Overflow and sign flags of an adder | Top bit of a number given modulo 2^n by cases on its range; the two exact results follow by linear arithmetic. |
| C215 | Comparator made of gates | Exact reduction loop of C18 on the xor table of C08, least position by Nat.find. |
| C216 | Round robin arbiter | Invariant: the mask selects the positions from some p on. The cyclic distance from p to a waiting requester falls at every clock. |
| C217 | 4-state accumulator with reset | Simulation by a register of optional numbers, induction on the run; wide vectors overlook unknown bits in the upper halves of limbs, so refuted there. |
| C218 | Booth multiplication | Loop invariant with the signed value of the low bits of the multiplier; exactness from the bounds of the factors; refuted for wide multiplicands, whose sign extension is wrong. |
| C219 | Decimal digits by shifts and additions | Induction over the digits; each round multiplies by ten and adds the digit modulo 2^n. |
| C220 | Multiplication modulo a number by doubling and adding | Invariant on the storage, not the value: the running remainder is a times the bits read so far. Right for every modulus unless the width fills the storage; there refuted at every such width. |
| C221 | Greatest common divisor without division | Induction over the rounds with bounds of both numbers as powers of two; two rounds lose at least one bit. |
| C222 | The high half of a product from half products | Each step is exact because the half products leave room for the carries; then the identity of the schoolbook product. |
| C223 | Powers modulo a number by squaring | Induction over the bits of the exponent on top of C220; Fermat's little theorem as an application. |
| C224 | Rounds of a block cipher undo themselves | Induction over the rounds; at 4 states with respect to the order in which x and z lie below 0 and 1. |
| C225 | Synchronous circuits that start from x | Induction over the cycles with a relation between 4-state wires and bits; | is sound only if its left operand is known, so the claim is refuted for other uses of | and for z. |
| C226 | Zigzag code of signed numbers | Composition of C24, C25, C26, C14 and C29 with a bit level identity; at wide widths ashr loses a copy of the sign (C26), so negative values are decoded as their complements: exact result and negation. |
| C227 | Division by a constant with a product | An equivalence on natural numbers, and C24, C30 and C31; refuted where the product does not fit. |
| C228 | Products in fields of characteristic two | Horner's scheme: the value of the result at a root of X^n + p in any ring with c + c = 0, by induction over the bits of the multiplier; then in the ring of polynomials modulo X^n + p. |
| C229 | Inverses in fields of characteristic two | Induction over the rounds on top of C228; the multiplicative group of a field with 2^n elements. |
| C230 | Logarithm by halving | Induction over the rounds: the vector is the first one shifted by the result, whose bits so far are those of the logarithm. |
| C231 | The sign of a field, and an arithmetic shift without ashr | If bit k-1 is clear the exclusive or adds m, otherwise it subtracts m; then the numbers of the fields. |
| C232 | The order of signed numbers by the order of unsigned ones | The exclusive or adds 2^(n-1) to the signed number; then the order of unsigned vectors. |
| C233 | The IEEE tables of & and \| from the operators of the library | Induction over expressions on top of C196; without \| an x of the leftmost variable is an x of the result; induction over the cycles. |
| C234 | A multiplexer made of gates | All 4-state bits on top of C233; induction over the depth of the tree. |
| C235 | Many additions at a time on bit planes | Induction over the digits for the adder of 0 and 1; agreement of known bits by induction over expressions. |
| C236 | Which operators are enough for the IEEE tables | An expression for each set that suffices; for the others an invariant of pairs of values, by induction over expressions (at most one x; a 0 only beside an x; an x of the leftmost variable). |

## What is modelled

| source | model |
|---|---|
| `util.hh` holder types, `native_num`, `abs_diff`, `clog2`; C++ conversions and operators | `Model/CInt.lean`, `Model/Bit.lean` |
| `big_num.hh`: limbs, masks, access, bitwise, shifts, arithmetic, comparison, slices, `popcount`, emptiness tests, conversions | `Model/BigNum.lean` |
| `bit.hh`: constructors, access, slices, concatenation, update, bitwise, shifts, arithmetic, comparison, conversions | `Model/Bit.lean`, `Model/Reduce.lean`, `Model/Static.lean` |
| `logic.hh`: the same for the 4-state type, with `x` and `z` | `Model/Logic.lean`, `Model/Reduce.lean`, `Model/Static.lean` |
| `big_num.hh`: operators on different sizes, compound assignment, `ashl`, `concat` | `Model/BigMixed.lean` |
| `big_num.hh`: every function once more with checked array accesses, shift counts and `clz` arguments | `Model/BigChecked.lean` |
| `array.hh` (packed arrays of 4-state and of 2-state elements, unpacked arrays), `struct.hh`, `union.hh` | `Model/Array.lean` |
| `util.hh`/`util.cc` literal parsing | `Model/Parse.lean` |
| `util.hh`/`util.cc` formatting and padding | `Model/Format.lean` |
| `util.hh` helpers `str_len`, `copy`, `reverse_tuple` | `Model/Util.lean` |
| `bit.hh`, `logic.hh`: slice assignment whose operand is the assigned object | `Model/Alias.lean` |
| `bit.hh`, `logic.hh`: the `int` expressions for bit positions, with overflow | `Model/IntIndex.lean` |
| `bit.hh` 1202-1231: slice reference proxies as objects that refer to a vector of a memory | `Model/Ref.lean` |
| the same with declarations, nested blocks and the end of lifetimes | `Model/Lifetime.lean` |
| `unpack` with arguments that alias each other or the unpacked vector | `Model/UnpackAlias.lean` |
| `big_num.hh` 17-21, `bit.hh` 26, `logic.hh` 15-19, `array.hh` 38 and 130: size, alignment and bytes of objects | `Model/Layout.lean` |
| `util.hh` 23, 42, 49, 76-138 and the `requires` clauses of `bit.hh`/`logic.hh`: which overload a call selects | `Model/Overload.lean` |
| `array.hh` 9-50: packed arrays of packed arrays | `Model/MultiDim.lean` |
| client code: expressions and imperative programs whose operators are the modelled library functions | `Model/Expr.lean`, `Model/Expr4.lean`, `Model/ExprI.lean`, `Model/ExprL.lean` |

## What is not modelled

* The build system.
* `bit::unpack` (it does not compile) and the forms listed as not compiling in
  the header of `Model/Bit.lean`.
* Lifetimes other than those of `Model/Lifetime.lean` (C188: slice references in nested blocks). Vectors have no move operations of their own, so a move is a copy.
* Overflow of `int` index expressions outside `Model/IntIndex.lean` (C187: single bits, run-time slices and slice assignment) and other than element addresses; the theorems other than C187 compute bit positions in unbounded integers, which C187 shows to agree for the indices of a range with nonnegative `int` bounds. Aliasing other than slice assignment from the object itself (C124), slice references (C162) and `unpack` into the object itself (C189) (the compound assignments compute their result into a temporary before they assign it), evaluation order
  of function arguments, exceptions other than the ones thrown explicitly.
* Literals of `2^32` characters or more (the x/z parser counts characters in 32 bits), and memory exhaustion.

## Conformance of the model

`lean/Verif/Conformance.lean` and `ConformanceDiv.lean` transcribe the assertions of
the project's own tests (`/repo/tests/*.cc`, except type checks; the `sizeof` checks are in `Props/Layout.lean`) onto the
model and evaluate them in the kernel (two 300-bit divisions follow from the theorems on division). They are tests of the reading of the source, not
properties. All hold, except the product of a 100-bit by a 20-bit value: the compiled
test passes, the model reports the out-of-bounds array write of `big_num::operator*`
that this product performs (C30).

## How to read `seeded/LOG.jsonl`

Each line is one edit of the model in a scratch copy, followed by a rebuild. Not everything in a line was seen in that build.

* `proofs_failed_directly` is observed: declarations at which Lean reported an error. For automatic edits (ids `A` or `B`
  and four digits) only the first such declaration was kept.
* `theorems_failed` may also list theorems that use a proof that failed, taken from the dependency graph of the unedited
  project. The build stops before it reaches them. `theorems_failed_observed` holds those Lean itself reported, and
  `theorems_failed_basis` says `observed`, `inferred` or `observed and inferred`. The lists are cut at twelve where
  `theorems_failed_more` is present.
* `claim_broken` with `claim_basis` `stated with the edit` is the claim the edit was written to break. With `inferred` it is
  only up to six properties that depend on the failed proof; they were not checked one by one to be false of the edited model.
* A failed proof shows that the proof no longer goes through. It does not by itself show that the statement became false, as
  an edit can also upset a proof script. Only an edit that survives shows something for certain: a theorem that has to be
  tightened, or an edit that changes nothing.

## Trusted base

* Lean 4.33.0's kernel, and the axioms `propext`, `Classical.choice`,
  `Quot.sound`. `AXIOMS.md` lists the axioms of every property theorem
  (`#print axioms`). No other axioms, no `sorry`, no
  `native_decide`, no `bv_decide`.
* The reading of the C++ source recorded in the model comments, on an LP64
  platform (int 32 bits, long and long long 64 bits, 8-bit bytes), C++20. For C190 the Itanium C++ ABI's layout rules on a little-endian machine.
* Standard library functions modelled by their documented behaviour:
  `std::reduce`, `std::string_view` searches and `substr`, `std::stringstream`
  integer output, `std::popcount`, `__builtin_clzll`, `std::bitset::to_string`.
