{"id": "C01", "title": "2-state bit write/read-back", "statement": "After b.set(i,v) on a bit<n-1,0>, b[i] reads v, every other in-range index reads what it read before, and the call has no undefined behaviour.", "quantifier": "every width (1..64 native and >64 limb based), every stored value, every in-range index pair, both values of v", "why_tests_cant": "2^n states times n^2 index pairs for every n; tests visit a handful", "anchors": ["include/logic/bit.hh:bit::set(int,bool)", "include/logic/bit.hh:bit::operator[]", "include/logic/big_num.hh:big_num::set", "include/logic/big_num.hh:big_num::operator[]"]}
{"id": "C02", "title": "4-state bit write/read-back", "statement": "After l.set(i,v), l.set_x(i), l.set_z(i) or l.set(i,w) on a logic<n-1,0>, l[i] reads v, x, z, w respectively, and every other in-range index keeps its 4-state value; reading never has undefined behaviour.", "quantifier": "every width (1..64 native and >64 limb based), every 4-state value, every index pair", "why_tests_cant": "4^n states for every n", "anchors": ["include/logic/logic.hh:logic::set", "include/logic/logic.hh:logic::set_x", "include/logic/logic.hh:logic::set_z", "include/logic/logic.hh:logic::operator[]"]}
{"id": "C03", "title": "ascending ranges address consistently", "statement": "On bit<0,n-1> / logic<0,n-1> (ascending range) a write at index i is read back at index i and at no other index.", "quantifier": "every width (1..64 native and >64 limb based), every value and index pair", "why_tests_cant": "as C01, over the mirrored index map", "anchors": ["include/logic/bit.hh:bit::set(int,bool)", "include/logic/bit.hh:bit::get_"]}
{"id": "C04", "title": "ranges with non-zero low bound address consistently", "statement": "For any declared range [msb:lsb], a write at index i (min<=i<=max) is read back at index i.", "quantifier": "all msb, lsb, all indices in range, all values", "why_tests_cant": "infinitely many ranges; no test uses a low bound other than 0", "anchors": ["include/logic/bit.hh:bit::set(int,bool)", "include/logic/bit.hh:bit::get_", "include/logic/logic.hh:logic::operator[]"]}
{"id": "C05", "title": "out-of-range 4-state read is X", "statement": "Reading logic<msb,lsb>[i] with i outside [min(msb,lsb),max(msb,lsb)] returns a single x and does not touch memory outside the value.", "quantifier": "all ranges, all indices outside the range, all stored values", "why_tests_cant": "unbounded set of indices", "anchors": ["include/logic/logic.hh:logic::operator[]"]}
{"id": "C06", "title": "out-of-range write is ignored", "statement": "set(i,v) with i outside the declared range leaves every in-range bit unchanged and leaves the value equal to (match / ==) what it was.", "quantifier": "every width (1..64 native and >64 limb based), all out-of-range indices", "why_tests_cant": "unbounded set of indices", "anchors": ["include/logic/bit.hh:bit::set(int,bool)", "include/logic/big_num.hh:big_num::set"]}
{"id": "C07", "title": "default construction", "statement": "A default-constructed logic reads x at every index and str() is n times 'x'; a default-constructed bit reads 0 everywhere.", "quantifier": "every width (1..64 native and >64 limb based)", "why_tests_cant": "every width", "anchors": ["include/logic/logic.hh:logic::logic()", "include/logic/bit.hh:bit::bit()", "include/logic/bit.hh:bit::mask"]}
{"id": "C08", "title": "4-state XOR truth table (equal widths)", "statement": "For equal-width operands every bit of a ^ b is given by the IEEE-1800 xor table (known xor known; x if either is x or z).", "quantifier": "every width (1..64 native and >64 limb based), all 4^n x 4^n operand pairs, mixed signedness", "why_tests_cant": "4^(2n) operand pairs for each n", "anchors": ["include/logic/logic.hh:logic::operator^"]}
{"id": "C09", "title": "4-state NOT truth table", "statement": "Every bit of ~a is the table value: 0->1, 1->0, x->x, z->x.", "quantifier": "every width (1..64 native and >64 limb based), every 4-state value, signed or unsigned", "why_tests_cant": "4^n values for each n", "anchors": ["include/logic/logic.hh:logic::operator~"]}
{"id": "C10", "title": "4-state AND truth table (equal widths)", "statement": "Every bit of a & b is given by the table printed in the source and in IEEE-1800 (0 dominates, otherwise x if either is x/z).", "quantifier": "every width (1..64 native and >64 limb based), all operand pairs", "why_tests_cant": "4^(2n) pairs; tests check 5 of the 16 table entries", "anchors": ["include/logic/logic.hh:logic::operator&"]}
{"id": "C11", "title": "4-state OR truth table (equal widths)", "statement": "Every bit of a | b is given by the table printed in the source and in IEEE-1800 (1 dominates, otherwise x if either is x/z).", "quantifier": "every width (1..64 native and >64 limb based), all operand pairs", "why_tests_cant": "as C10", "anchors": ["include/logic/logic.hh:logic::operator|"]}
{"id": "C12", "title": "4-state XOR of different widths", "statement": "a ^ b for different widths zero-extends the shorter unsigned operand and xors bit by bit.", "quantifier": "all pairs of different widths, all unsigned operand values", "why_tests_cant": "unbounded widths", "anchors": ["include/logic/logic.hh:logic::operator^", "include/logic/logic.hh:logic::xor_"]}
{"id": "C13", "title": "4-state AND/OR of different widths", "statement": "a & b and a | b for unsigned operands of different widths equal the equal-width operation on the zero-extended operands, and commute whenever the operands hold no x/z.", "quantifier": "all pairs of widths, all values", "why_tests_cant": "unbounded widths", "anchors": ["include/logic/logic.hh:logic::and_", "include/logic/logic.hh:logic::or_", "include/logic/logic.hh:logic::extend"]}
{"id": "C14", "title": "2-state bitwise operators", "statement": "For bit operands, &, | and ^ of equal width, &=, |=, ^= and ~ compute the boolean function on every bit.", "quantifier": "every width (1..64 native and >64 limb based), all values, all signedness combinations", "why_tests_cant": "2^(2n) pairs", "anchors": ["include/logic/bit.hh:bit::operator&", "include/logic/bit.hh:bit::operator|", "include/logic/bit.hh:bit::operator^", "include/logic/bit.hh:bit::operator~", "include/logic/big_num.hh:big_num::operator&", "include/logic/big_num.hh:big_num::operator~"]}
{"id": "C15", "title": "4-state operators are conservative over 2-state", "statement": "On operands without x/z, every 4-state operator (& | ^ ~ + - * / % shifts, comparisons) yields a value without x/z whose bits are those of the corresponding 2-state operator.", "quantifier": "every width (1..64 native and >64 limb based), all known operand values", "why_tests_cant": "all values", "anchors": ["include/logic/logic.hh:logic::operator&", "include/logic/logic.hh:logic::operator+", "include/logic/logic.hh:logic::operator>>"]}
{"id": "C16", "title": "results stay in canonical form", "statement": "Every operation leaves the storage bits above the declared width clear, so that two values that read the same at every index also compare equal (==, match).", "quantifier": "every width (1..64 native and >64 limb based), all sequences of operations", "why_tests_cant": "histories of operations of any length", "anchors": ["include/logic/bit.hh:bit::mask_off", "include/logic/big_num.hh:big_num::mask_off", "include/logic/bit.hh:bit::operator+", "include/logic/big_num.hh:big_num::operator~"]}
{"id": "C17", "title": "4-state AND reduction", "statement": "r_and() is 0 if any bit is 0, otherwise x if any bit is x/z, otherwise 1, wherever in the vector those bits are.", "quantifier": "every width (1..64 native and >64 limb based), all 4-state values", "why_tests_cant": "4^n values and all positions", "anchors": ["include/logic/logic.hh:logic::r_and"]}
{"id": "C18", "title": "4-state OR reduction", "statement": "r_or() is 1 if any bit is 1, otherwise x if any bit is x/z, otherwise 0.", "quantifier": "every width (1..64 native and >64 limb based), all 4-state values", "why_tests_cant": "4^n values and all positions", "anchors": ["include/logic/logic.hh:logic::r_or"]}
{"id": "C19", "title": "4-state XOR reduction", "statement": "r_xor() is x if any bit is x/z, otherwise the parity of the number of ones.", "quantifier": "every width 2..64 (unsigned; other instantiations do not compile), all values", "why_tests_cant": "4^n values", "anchors": ["include/logic/logic.hh:logic::r_xor", "include/logic/bit.hh:bit::popcount"]}
{"id": "C20", "title": "complemented reductions", "statement": "r_nand, r_nor and r_xnor are the 4-state negation of r_and, r_or and r_xor.", "quantifier": "every width (1..64 native and >64 limb based), all values", "why_tests_cant": "4^n values", "anchors": ["include/logic/logic.hh:logic::r_nand", "include/logic/logic.hh:logic::r_nor", "include/logic/logic.hh:logic::r_xnor"]}
{"id": "C21", "title": "2-state AND reduction", "statement": "bit::r_and() is true exactly when every bit is 1.", "quantifier": "every width (1..64 native and >64 limb based), signed and unsigned, all values", "why_tests_cant": "2^n values", "anchors": ["include/logic/bit.hh:bit::r_and", "include/logic/big_num.hh:big_num::r_xor"]}
{"id": "C22", "title": "truth value of a 4-state vector", "statement": "static_cast<bool>(l) is true exactly when no bit is x/z and at least one bit is 1.", "quantifier": "every width (1..64 native and >64 limb based), all values", "why_tests_cant": "4^n values; the failing ones are a sparse set of bit positions", "anchors": ["include/logic/logic.hh:logic::operator bool", "include/logic/bit.hh:bit::any_set", "include/logic/big_num.hh:big_num::any_set"]}
{"id": "C23", "title": "logical negation", "statement": "!l is x if any bit is x/z, 0 if some bit is 1, 1 if all bits are 0.", "quantifier": "every width (1..64 native and >64 limb based), all values", "why_tests_cant": "4^n values", "anchors": ["include/logic/logic.hh:logic::operator!"]}
{"id": "C24", "title": "logical right shift", "statement": "a >> k moves bit i+k to bit i and fills with zeros, for every shift amount including amounts >= the width.", "quantifier": "every width (1..64 native and >64 limb based), all values and amounts (any amount width)", "why_tests_cant": "unbounded amounts", "anchors": ["include/logic/bit.hh:bit::operator>>", "include/logic/big_num.hh:big_num::operator>>"]}
{"id": "C25", "title": "logical left shift", "statement": "a << k moves bit i to bit i+k, drops bits shifted out and fills with zeros, for every shift amount.", "quantifier": "every width (1..64 native and >64 limb based), all values and amounts (any amount width)", "why_tests_cant": "unbounded amounts", "anchors": ["include/logic/bit.hh:bit::operator<<", "include/logic/big_num.hh:big_num::operator<<"]}
{"id": "C26", "title": "arithmetic right shift", "statement": "a.ashr(k) moves bit i+k to bit i and fills with copies of the sign bit (signed) or zeros (unsigned).", "quantifier": "every width (1..64 native and >64 limb based), signed and unsigned, all values and amounts", "why_tests_cant": "unbounded amounts and widths", "anchors": ["include/logic/bit.hh:bit::ashr", "include/logic/big_num.hh:big_num::ashr"]}
{"id": "C27", "title": "4-state shifts propagate X", "statement": "If the value or the amount holds any x/z, every bit of >>, <<, ashr and ashl is x.", "quantifier": "every width (1..64 native and >64 limb based), all values, all amounts", "why_tests_cant": "4^n values", "anchors": ["include/logic/logic.hh:logic::operator>>", "include/logic/logic.hh:logic::operator<<", "include/logic/logic.hh:logic::ashr", "include/logic/logic.hh:logic::ashl"]}
{"id": "C28", "title": "addition is modulo 2^n", "statement": "The n bits of a + b for equal-width operands are those of the sum modulo 2^n.", "quantifier": "every width (1..64 native and >64 limb based), all operand values, all signedness combinations", "why_tests_cant": "2^(2n) pairs", "anchors": ["include/logic/bit.hh:bit::operator+", "include/logic/big_num.hh:big_num::operator+"]}
{"id": "C29", "title": "subtraction is modulo 2^n", "statement": "The n bits of a - b for equal-width operands are those of the difference modulo 2^n.", "quantifier": "every width (1..64 native and >64 limb based), all operand values", "why_tests_cant": "2^(2n) pairs", "anchors": ["include/logic/bit.hh:bit::operator-", "include/logic/big_num.hh:big_num::operator-", "include/logic/big_num.hh:big_num::negate"]}
{"id": "C30", "title": "multiplication is modulo 2^n", "statement": "The n bits of a * b for equal-width operands are those of the product modulo 2^n, with no undefined behaviour.", "quantifier": "every width (1..64 native and >64 limb based), all operand values", "why_tests_cant": "2^(2n) pairs", "anchors": ["include/logic/bit.hh:bit::operator*", "include/logic/big_num.hh:big_num::operator*"]}
{"id": "C31", "title": "unsigned division and remainder", "statement": "For a non-zero divisor, a / b and a % b are the Euclidean quotient and remainder: a = q*b + r, r < b.", "quantifier": "every width (1..64 native and >64 limb based) unsigned, all values with b != 0", "why_tests_cant": "2^(2n) pairs; long division loop over all bit lengths", "anchors": ["include/logic/bit.hh:bit::operator/", "include/logic/bit.hh:bit::operator%", "include/logic/big_num.hh:big_num::div_mod_unsigned"]}
{"id": "C32", "title": "division by zero", "statement": "4-state a / 0 and a % 0 are all x; 2-state limb-based a / 0 and a % 0 are 0.", "quantifier": "every width (1..64 native and >64 limb based), all dividends", "why_tests_cant": "all dividends", "anchors": ["include/logic/logic.hh:logic::operator/", "include/logic/logic.hh:logic::operator%", "include/logic/big_num.hh:big_num::div_mod"]}
{"id": "C33", "title": "4-state arithmetic propagates X", "statement": "If either operand of + - * / % holds any x/z, every bit of the result is x.", "quantifier": "every width (1..64 native and >64 limb based), all values", "why_tests_cant": "4^(2n) pairs", "anchors": ["include/logic/logic.hh:logic::operator+", "include/logic/logic.hh:logic::operator-", "include/logic/logic.hh:logic::operator*", "include/logic/logic.hh:logic::operator/", "include/logic/logic.hh:logic::operator%"]}
{"id": "C34", "title": "signed division truncates toward zero", "statement": "For two signed operands of equal native width the quotient truncates toward zero and the remainder takes the sign of the dividend.", "quantifier": "every native width 2..64, all operand pairs with non-zero divisor", "why_tests_cant": "2^(2n) pairs", "anchors": ["include/logic/bit.hh:bit::operator/", "include/logic/bit.hh:bit::operator%"]}
{"id": "C35", "title": "negation", "statement": "The n bits of -a (and of negate()) are the two's complement of a, so a + (-a) reads 0.", "quantifier": "every width (1..64 native and >64 limb based), all values", "why_tests_cant": "2^n values", "anchors": ["include/logic/bit.hh:bit::operator-()", "include/logic/bit.hh:bit::negate", "include/logic/big_num.hh:big_num::negate"]}
{"id": "C36", "title": "increment and decrement", "statement": "++ adds one and -- subtracts one modulo 2^n; postfix forms return the previous value.", "quantifier": "every width (1..64 native and >64 limb based), all values without x/z", "why_tests_cant": "2^n values and wrap-around", "anchors": ["include/logic/bit.hh:bit::operator++", "include/logic/logic.hh:logic::operator++", "include/logic/logic.hh:logic::operator--"]}
{"id": "C37", "title": "mixed-width arithmetic", "statement": "For unsigned operands of widths n and m, a op b (op in + - *) is computed modulo 2^max(n,m) on the zero-extended operands.", "quantifier": "all width pairs, all values", "why_tests_cant": "unbounded widths", "anchors": ["include/logic/bit.hh:bit::add", "include/logic/bit.hh:bit::minus", "include/logic/bit.hh:bit::multiply", "include/logic/bit.hh:bit::extend"]}
{"id": "C38", "title": "equality at equal width", "statement": "For canonical equal-width operands a == b is true exactly when all bits agree.", "quantifier": "every width (1..64 native and >64 limb based), all values", "why_tests_cant": "2^(2n) pairs", "anchors": ["include/logic/bit.hh:bit::operator==", "include/logic/big_num.hh:big_num::operator=="]}
{"id": "C39", "title": "equality at different widths", "statement": "For unsigned operands of different widths a == b is true exactly when the numbers are equal; in particular it is symmetric.", "quantifier": "all width pairs, all values", "why_tests_cant": "unbounded widths; failures sit on sparse value sets", "anchors": ["include/logic/bit.hh:bit::operator==", "include/logic/big_num.hh:big_num::operator=="]}
{"id": "C40", "title": "unsigned order", "statement": "For unsigned operands of any widths >, <, >=, <= are the order of the denoted numbers.", "quantifier": "all width pairs in the same storage class, all values", "why_tests_cant": "unbounded widths", "anchors": ["include/logic/bit.hh:bit::operator>", "include/logic/big_num.hh:big_num::operator>"]}
{"id": "C41", "title": "signed order, native widths", "statement": "For two signed canonical operands >, <, >=, <= are the order of the two's complement numbers.", "quantifier": "all native widths, all values", "why_tests_cant": "2^(2n) pairs", "anchors": ["include/logic/bit.hh:bit::operator>", "include/logic/bit.hh:bit::operator<"]}
{"id": "C42", "title": "signed order, limb-based widths", "statement": "For two signed operands wider than 64 bits a > b is the order of the two's complement numbers, and the comparison terminates.", "quantifier": "all equal widths > 64, all values", "why_tests_cant": "sparse failing inputs (minimum value); non-termination", "anchors": ["include/logic/big_num.hh:big_num::operator>", "include/logic/big_num.hh:big_num::negate"]}
{"id": "C43", "title": "4-state relational operators", "statement": "==, !=, >, <, >=, <= are x when either operand holds x/z and otherwise the 2-state answer as a known bit.", "quantifier": "every width (1..64 native and >64 limb based), all values", "why_tests_cant": "4^(2n) pairs", "anchors": ["include/logic/logic.hh:logic::operator==", "include/logic/logic.hh:logic::operator>", "include/logic/logic.hh:logic::operator<="]}
{"id": "C44", "title": "case equality", "statement": "a.match(b) for canonical equal-width operands is true exactly when the operands agree at every index as 4-state values; nmatch is its negation.", "quantifier": "every width (1..64 native and >64 limb based), all 4-state pairs", "why_tests_cant": "4^(2n) pairs", "anchors": ["include/logic/logic.hh:logic::match", "include/logic/logic.hh:logic::nmatch"]}
{"id": "C45", "title": "2-state against 4-state comparison", "statement": "bit < logic (and >, <=, >=) is true exactly when the logic operand has no x/z and the numeric relation holds.", "quantifier": "equal native widths, all values", "why_tests_cant": "all pairs", "anchors": ["include/logic/bit.hh:bit::operator>(logic)", "include/logic/logic.hh:logic::operator<(bit)"]}
{"id": "C46", "title": "order and equality cohere", "statement": "Exactly one of a < b, a == b, a > b holds for any two values without x/z, also when one operand is signed and the other is not.", "quantifier": "all native widths, all signedness combinations, all values", "why_tests_cant": "sparse failing inputs", "anchors": ["include/logic/bit.hh:bit::operator>", "include/logic/bit.hh:bit::operator=="]}
{"id": "C47", "title": "zero extension", "statement": "extend<m>() of an unsigned value keeps the low n bits and clears the new ones, for 2-state and 4-state values.", "quantifier": "all n <= m, all values", "why_tests_cant": "unbounded widths", "anchors": ["include/logic/bit.hh:bit::extend", "include/logic/big_num.hh:big_num::extend", "include/logic/logic.hh:logic::extend"]}
{"id": "C48", "title": "sign extension", "statement": "extend<m>() of a signed value preserves the two's complement number.", "quantifier": "all n <= m, all values", "why_tests_cant": "unbounded widths; both signs", "anchors": ["include/logic/bit.hh:bit::extend", "include/logic/big_num.hh:big_num::extend"]}
{"id": "C49", "title": "constant slices of unsigned values", "statement": "slice<a,b>() of an unsigned [n-1:0] value has width |a-b|+1 and its bit i is bit min(a,b)+i of the source, 2-state and 4-state.", "quantifier": "every width (1..64 native and >64 limb based), all a,b < n for which the call compiles (a slice of exactly 65 bits does not), all values", "why_tests_cant": "n^2 slices times 2^n values", "anchors": ["include/logic/bit.hh:bit::slice_", "include/logic/big_num.hh:big_num::slice", "include/logic/logic.hh:logic::slice_"]}
{"id": "C50", "title": "constant slices of signed values", "statement": "slice<a,b>() of a signed value reads exactly the selected bits and is canonical.", "quantifier": "native widths, all a,b < n, all values", "why_tests_cant": "n^2 slices times 2^n values", "anchors": ["include/logic/bit.hh:bit::slice_"]}
{"id": "C51", "title": "run-time slices", "statement": "slice<k>(a,b) and slice<k,incr>(base) with in-range bounds of width k read exactly the selected bits.", "quantifier": "every width (1..64 native and >64 limb based), all bounds, all values", "why_tests_cant": "n^2 slices times 2^n values", "anchors": ["include/logic/bit.hh:bit::slice_", "include/logic/big_num.hh:big_num::slice", "include/logic/logic.hh:logic::slice"]}
{"id": "C52", "title": "concatenation", "statement": "a.concat(b) has width n+m, its low m bits are b and its high n bits are a, in 2-state and 4-state.", "quantifier": "all widths with n+m < 64 (others do not compile), all values", "why_tests_cant": "2^(n+m) values", "anchors": ["include/logic/bit.hh:bit::concat", "include/logic/logic.hh:logic::concat"]}
{"id": "C53", "title": "unpacking", "statement": "l.unpack(a1,...,ak) distributes consecutive bit fields, the last argument taking the low bits for descending ranges.", "quantifier": "all field lists, all widths, all 4-state values", "why_tests_cant": "arbitrary argument lists", "anchors": ["include/logic/logic.hh:logic::unpack", "include/logic/logic.hh:logic::unpack_", "include/logic/bit.hh:bit::unpack"]}
{"id": "C54", "title": "concat and unpack are inverse", "statement": "Concatenating unsigned values and unpacking the result into variables of the same widths gives back the values, 4-state included.", "quantifier": "all widths with n+m <= 32, all values", "why_tests_cant": "2^(n+m) values", "anchors": ["include/logic/logic.hh:logic::concat", "include/logic/logic.hh:logic::unpack"]}
{"id": "C55", "title": "4-state slice assignment, constant bounds", "statement": "l.update<hi,lo>(v): bit lo+j of l becomes bit j of v (0 when v is too short) and all bits outside [hi:lo] are unchanged.", "quantifier": "every width (1..64 native and >64 limb based), all hi,lo, all 4-state values", "why_tests_cant": "n^2 slices times 4^n values", "anchors": ["include/logic/logic.hh:logic::update_", "include/logic/logic.hh:logic::set_"]}
{"id": "C56", "title": "4-state slice assignment, run-time bounds", "statement": "l.update(hi,lo,v) and assignment through slice_ref(hi,lo) do what update<hi,lo> does.", "quantifier": "every width (1..64 native and >64 limb based), all hi,lo, all values", "why_tests_cant": "as C55", "anchors": ["include/logic/logic.hh:logic::update", "include/logic/bit.hh:slice_ref_runtime"]}
{"id": "C57", "title": "2-state slice assignment", "statement": "bit::update<hi,lo>(v) and bit::update(hi,lo,v): bit lo+j becomes bit j of v, all other bits unchanged.", "quantifier": "every width (1..64 native and >64 limb based), all hi,lo, all values", "why_tests_cant": "n^2 slices times 2^n values", "anchors": ["include/logic/bit.hh:bit::update", "include/logic/bit.hh:bit::update_"]}
{"id": "C58", "title": "signedness casts", "statement": "to_signed()/to_unsigned() keep every bit; the signed view of an n-bit pattern is its two's complement number.", "quantifier": "every width (1..64 native and >64 limb based), all values", "why_tests_cant": "2^n values", "anchors": ["include/logic/bit.hh:bit::to_signed", "include/logic/bit.hh:bit::to_unsigned", "include/logic/logic.hh:logic::to_signed"]}
{"id": "C59", "title": "numeric conversion", "statement": "to_uint64()/to_num() return the denoted number for native canonical values (0 if any x/z), the low limb for wide ones.", "quantifier": "every width (1..64 native and >64 limb based), all values", "why_tests_cant": "2^n values", "anchors": ["include/logic/bit.hh:bit::to_num", "include/logic/bit.hh:bit::to_uint64", "include/logic/logic.hh:logic::to_num", "include/logic/logic.hh:logic::to_uint64"]}
{"id": "C60", "title": "construction from integers", "statement": "Constructing an n-bit value from an integer k yields the bits of k modulo 2^n; two integers congruent modulo 2^n give equal values.", "quantifier": "every native width, all integers of the holder type", "why_tests_cant": "unbounded integers", "anchors": ["include/logic/bit.hh:bit::bit(T)", "include/logic/logic.hh:logic::logic(T)"]}
{"id": "C61", "title": "binary literals", "statement": "Parsing 'b followed by at most n digits from {0,1,x,z,_} sets bit i from the i-th digit from the right, in both the value plane and the x/z plane.", "quantifier": "all digit strings of length <= width <= 64", "why_tests_cant": "2^64 strings", "anchors": ["src/util.cc:parse_raw_str_", "src/util.cc:parse_xz_raw_str_", "src/util.cc:get_input_base"]}
{"id": "C62", "title": "hexadecimal literals", "statement": "Parsing 'h followed by hex digits yields the denoted number; x/z digits mark four bits each.", "quantifier": "all strings of at most 16 digits (both letter cases)", "why_tests_cant": "22^16 strings", "anchors": ["src/util.cc:parse_raw_str_"]}
{"id": "C63", "title": "octal literals", "statement": "Parsing 'o followed by octal digits yields the denoted number; x/z digits mark three bits each.", "quantifier": "all strings of at most 21 digits", "why_tests_cant": "10^21 strings", "anchors": ["src/util.cc:parse_raw_str_"]}
{"id": "C64", "title": "decimal literals", "statement": "Parsing 'd followed by decimal digits yields the denoted number modulo 2^64, ignoring underscores.", "quantifier": "all digit strings of any length", "why_tests_cant": "unbounded strings", "anchors": ["src/util.cc:parse_raw_str_"]}
{"id": "C65", "title": "raw strings", "statement": "A string without a quote is stored as its last 8 (native) or 8 per limb (wide) bytes, last character in the low byte.", "quantifier": "all byte strings", "why_tests_cant": "unbounded strings", "anchors": ["src/util.cc:parse_raw_str_", "src/util.cc:parse_raw_str"]}
{"id": "C66", "title": "literal prefix", "statement": "The base letter is the first non-digit after the first quote and the size prefix does not influence the parsed digits.", "quantifier": "all size prefixes and digit strings", "why_tests_cant": "unbounded strings", "anchors": ["src/util.cc:get_input_base"]}
{"id": "C67", "title": "wide binary/hex literals", "statement": "For widths above 64, 'b and 'h literals without underscores load limb k from digits 64k.. (16k..), so the bits of the value are those of the literal.", "quantifier": "all digit strings, all widths > 64", "why_tests_cant": "unbounded strings", "anchors": ["src/util.cc:parse_raw_str(ptr)", "src/util.cc:get_stride"]}
{"id": "C68", "title": "wide octal literals", "statement": "For widths above 64, 'o literals denote the same number as for narrow widths.", "quantifier": "all digit strings, all widths > 64", "why_tests_cant": "needs more than 21 digits", "anchors": ["src/util.cc:parse_raw_str(ptr)", "src/util.cc:get_stride"]}
{"id": "C69", "title": "wide x/z planes and underscores", "statement": "For widths above 64, x/z digits mark exactly their bits and underscores do not shift digits.", "quantifier": "all digit strings, all widths > 64", "why_tests_cant": "needs x/z in specific positions", "anchors": ["src/util.cc:parse_xz_raw_str(ptr)", "src/util.cc:parse_xz_raw_str_"]}
{"id": "C70", "title": "binary formatting", "statement": "str(\"b\") of an n-bit value is exactly n characters, character n-1-i showing bit i as 0,1,x,z.", "quantifier": "every width (1..64 native and >64 limb based), all 4-state values", "why_tests_cant": "4^n values", "anchors": ["src/util.cc:to_string_", "src/util.cc:pad_result", "include/logic/logic.hh:logic::str"]}
{"id": "C71", "title": "hexadecimal and octal formatting (4-state)", "statement": "str(\"h\")/str(\"o\") of a native known value has ceil(n/4) / ceil(n/3) digits, most significant first, denoting the value.", "quantifier": "every width 1..64, all known values", "why_tests_cant": "2^n values", "anchors": ["src/util.cc:fmt_value", "src/util.cc:pad_result", "src/util.cc:parse_fmt"]}
{"id": "C72", "title": "hexadecimal and octal formatting (2-state)", "statement": "bit::str(\"h\")/str(\"o\") prints the digits most significant first.", "quantifier": "native widths, all values", "why_tests_cant": "2^n values; palindromic values hide it", "anchors": ["src/util.cc:to_string", "src/util.cc:format_value_2power"]}
{"id": "C73", "title": "decimal formatting", "statement": "str(\"0d\") of a native known value is the shortest decimal numeral of the number, with a leading - for negative signed values.", "quantifier": "every width 1..64, all known values", "why_tests_cant": "2^n values", "anchors": ["src/util.cc:fmt_decimal", "src/util.cc:to_string", "src/util.cc:pad_result", "include/logic/logic.hh:logic::str"]}
{"id": "C74", "title": "x/z digits in formatted output", "statement": "In str(\"h\")/str(\"o\") a digit is x (z) when all its bits are x (z), X when some but not all are x/z and one is x (or mixed), Z when some bits are z and none x.", "quantifier": "every width 1..64 that is a multiple of the digit size, all values", "why_tests_cant": "4^n values", "anchors": ["src/util.cc:fmt_value"]}
{"id": "C75", "title": "padding", "statement": "str(\"Nd\") and friends never truncate, pad to at least max(N, natural width), with spaces for d/s and zeros otherwise; N=0 suppresses padding.", "quantifier": "all formats, widths, values", "why_tests_cant": "unbounded pad widths", "anchors": ["src/util.cc:parse_fmt", "src/util.cc:pad_result"]}
{"id": "C76", "title": "wide formatting", "statement": "str(\"b\"), str(\"h\"), str(\"o\"), str(\"d\") of values wider than 64 bits show every bit and the digits that denote the value.", "quantifier": "all widths > 64, all values", "why_tests_cant": "needs particular widths (multiples of 64) and boundary positions", "anchors": ["src/util.cc:to_string(ptr)", "src/util.cc:to_string_(ptr)"]}
{"id": "C77", "title": "format/parse round trip", "statement": "Parsing \"'b\" + l.str() gives back l at the same width.", "quantifier": "native widths, all 4-state values", "why_tests_cant": "4^n values", "anchors": ["src/util.cc:parse_raw_str_", "src/util.cc:parse_xz_raw_str_", "src/util.cc:to_string_"]}
{"id": "C78", "title": "packed array element read/write", "statement": "After arr.update(i,v), arr[i] reads v and every other element is unchanged.", "quantifier": "all element widths, element counts, indices, values", "why_tests_cant": "unbounded dimensions", "anchors": ["include/logic/array.hh:packed_array::operator[]", "include/logic/array.hh:packed_array::update"]}
{"id": "C79", "title": "packed array index out of range", "statement": "Reading a 4-state packed array at an index outside the array or containing x/z gives all x; writing there changes nothing.", "quantifier": "all dimensions and indices", "why_tests_cant": "unbounded indices", "anchors": ["include/logic/array.hh:packed_array::operator[]", "include/logic/array.hh:packed_array::update"]}
{"id": "C80", "title": "packed array constant slices", "statement": "slice_array<hi,lo>() and update<hi,lo>(v) address elements lo..hi (relative to the array's low bound).", "quantifier": "all dimensions, all bounds, all values", "why_tests_cant": "unbounded dimensions", "anchors": ["include/logic/array.hh:packed_array::slice_array", "include/logic/array.hh:packed_array::update"]}
{"id": "C81", "title": "unpacked array", "statement": "After update<i>(v), arr[i] is v and all other elements are unchanged; reading outside the range gives the default value.", "quantifier": "all ranges, all indices, all histories of updates", "why_tests_cant": "histories of any length", "anchors": ["include/logic/array.hh:unpacked_array"]}
{"id": "C82", "title": "packed struct/union fields", "statement": "Field accessors built from slice<hi,lo>/update<hi,lo> over disjoint ranges are independent: writing one field leaves the other unchanged and reads back.", "quantifier": "all widths, all disjoint field ranges, all histories of field writes", "why_tests_cant": "histories of any length", "anchors": ["include/logic/struct.hh:packed_struct", "include/logic/union.hh:union_", "include/logic/logic.hh:logic::update_"]}
{"id": "C83", "title": "reductions over limbs do not depend on evaluation order", "statement": "any_set, is_one, fit_in_64 and limb equality give the same answer under every evaluation order std::reduce may choose.", "quantifier": "all limb arrays, all groupings and permutations", "why_tests_cant": "the implementation picks one order", "anchors": ["include/logic/big_num.hh:big_num::any_set", "include/logic/big_num.hh:big_num::fit_in_64"]}
{"id": "C84", "title": "wide emptiness tests look at every bit", "statement": "any_set(), fit_in_64() and is_one() of a value wider than 64 bits depend on all of its bits.", "quantifier": "all widths > 64, all values", "why_tests_cant": "failing inputs have bits only in the upper halves of limbs", "anchors": ["include/logic/big_num.hh:big_num::any_set", "include/logic/big_num.hh:big_num::fit_in_64", "include/logic/big_num.hh:big_num::is_one", "include/logic/big_num.hh:big_num::all_set"]}
{"id": "C85", "title": "literals", "statement": "k_logic / k_bit denote the 32-bit two's complement number k mod 2^32, k_logic64 / k_bit64 the 64-bit one, signed and without x/z.", "quantifier": "all unsigned long long k", "why_tests_cant": "2^64 literals", "anchors": ["include/logic/logic.hh:operator\"\"_logic", "include/logic/bit.hh:operator\"\"_bit"]}
{"id": "C86", "title": "all_set is exact", "statement": "all_set() of a value wider than 64 bits is true exactly when every bit is 1.", "quantifier": "all widths > 64, all values", "why_tests_cant": "the only input that distinguishes is one value per width out of 2^n", "anchors": ["include/logic/big_num.hh:big_num::all_set"]}
{"id": "C87", "title": "2-state bitwise operators on different widths", "statement": "2-state & | ^ on operands of different widths compute the boolean function of the two operands extended to the wider width (sign-extended when signed, zero-extended otherwise).", "quantifier": "all pairs of widths and signednesses, all values", "why_tests_cant": "quadratically many width pairs times 2^(n+m) values", "anchors": ["include/logic/bit.hh:bit::and_", "include/logic/bit.hh:bit::or_", "include/logic/bit.hh:bit::xor_", "include/logic/big_num.hh:big_num::extend"]}
{"id": "C88", "title": "2-state OR/XOR reductions", "statement": "bit::r_or() is true exactly when some bit is 1, r_nor()/r_nand()/r_xnor() are the negations of r_or()/r_and()/r_xor(), and r_xor() is the parity of the number of ones.", "quantifier": "all widths, all values", "why_tests_cant": "failing values of r_or have ones only in the upper halves of limbs", "anchors": ["include/logic/bit.hh:bit::r_or", "include/logic/bit.hh:bit::r_nor", "include/logic/bit.hh:bit::r_nand", "include/logic/bit.hh:bit::r_xor", "include/logic/big_num.hh:big_num::r_xor"]}
{"id": "C89", "title": "slices of ranges with a non-zero low bound", "statement": "slice<a,b>() of a value declared [msb:lsb] takes the bits that set writes at the indices min(a,b)..max(a,b).", "quantifier": "every range, every width (1..64 native and >64 limb based), all a,b inside the range, all values", "why_tests_cant": "the range and both bounds are parameters; the tests only slice [n-1:0] values", "anchors": ["include/logic/bit.hh:bit::slice", "include/logic/bit.hh:bit::slice_", "include/logic/big_num.hh:big_num::slice"]}
{"id": "C90", "title": "bit access with a constant index", "statement": "get<i>(), set<i>(v), set_x<i>() and set_z<i>() with a template index have the effect of the run-time forms for the same index: get<i>() reads the bit, x and z included, that operator[](i) reads, and set<i>(v) changes the bit that set(i, v) changes and no other.", "quantifier": "every range, every width, every index in range, every stored value", "why_tests_cant": "the index is a template parameter: each test fixes one index of one type", "anchors": ["include/logic/bit.hh:bit::get", "include/logic/bit.hh:bit::set", "include/logic/logic.hh:logic::get", "include/logic/logic.hh:logic::set", "include/logic/logic.hh:logic::set_x", "include/logic/logic.hh:logic::set_z"]}
{"id": "C91", "title": "extension to a smaller width", "statement": "x.extend<m>() of an unsigned value to fewer bits keeps exactly the low m bits and gives a canonical value.", "quantifier": "all pairs m < n, native and limb based, for which the call compiles (m = 65 does not), all values", "why_tests_cant": "infinitely many width pairs; the failing candidates sit at limb boundaries", "anchors": ["include/logic/bit.hh:bit::extend", "include/logic/bit.hh:bit::slice"]}
{"id": "C92", "title": "assignment of an integer", "statement": "x = k stores k modulo 2^n in canonical form, clears x and z, and x then equals k when k is representable.", "quantifier": "all native widths, both signs, all integers k", "why_tests_cant": "k ranges over 2^64 values and the failing ones need widths that are not those of C++ types", "anchors": ["include/logic/bit.hh:bit::operator=", "include/logic/logic.hh:logic::operator="]}
{"id": "C93", "title": "assignment between native widths", "statement": "y = x converts the value as SystemVerilog does: truncation to the low bits, zero extension of unsigned and sign extension (of 0, 1, x or z) of signed values, and the result is canonical.", "quantifier": "all pairs of native widths, both signs on both sides, all values", "why_tests_cant": "64 x 64 x 4 type pairs", "anchors": ["include/logic/bit.hh:bit::operator=", "include/logic/logic.hh:logic::operator=", "include/logic/logic.hh:logic::logic"]}
{"id": "C94", "title": "concatenation of several values", "statement": "concat(x, y0, y1, ...) has the total width, is canonical, holds x on top and each argument above the total width of the arguments after it, x and z included.", "quantifier": "all argument lists of any length, all widths and signs that compile, all values", "why_tests_cant": "argument lists of any length; the failing lists need an intermediate width on each side of a C++ type boundary", "anchors": ["include/logic/bit.hh:bit::concat", "include/logic/logic.hh:logic::concat"]}
{"id": "C95", "title": "bit access with a vector index", "statement": "x.get(op) with a vector index op gives the bit that x[i] addresses, where i is the number held by op.", "quantifier": "every range, every width, every index value in range, every index width up to 64", "why_tests_cant": "the index type and the range are parameters", "anchors": ["include/logic/bit.hh:bit::get", "include/logic/logic.hh:logic::get"]}
{"id": "C96", "title": "highest set bit", "statement": "highest_bit() is the position of the highest one of the value, and no bit position when the value is zero.", "quantifier": "all widths, both signs, all canonical values", "why_tests_cant": "2^n values of unboundedly many widths", "anchors": ["include/logic/bit.hh:bit::highest_bit", "include/logic/big_num.hh:big_num::highest_bit"]}
{"id": "C97", "title": "the negate member", "statement": "negate(), on a constant and in place, gives the two's complement of the value in canonical form.", "quantifier": "all widths and signs for which the form compiles, all canonical values", "why_tests_cant": "2^n values of unboundedly many widths", "anchors": ["include/logic/bit.hh:bit::negate", "include/logic/big_num.hh:big_num::negate"]}
{"id": "C98", "title": "population count", "statement": "popcount() is the number of ones of the value.", "quantifier": "all unsigned native widths (the others do not compile), all values", "why_tests_cant": "2^n values; failing ones need a stored value with bits above the width", "anchors": ["include/logic/bit.hh:bit::popcount"]}
{"id": "C99", "title": "decimal text of values with unknown bits", "statement": "The decimal text of a 4-state object with unknown bits is one letter: x if all bits are x, z if all are z, X if some bit is x, and Z if some bit is z and none is x.", "quantifier": "all widths, both signs, all objects with at least one x or z bit", "why_tests_cant": "4^n objects at unboundedly many widths; the tests only print a handful of short values", "anchors": ["src/util.cc:to_string", "include/logic/logic.hh:logic::str"]}
{"id": "C100", "title": "text of byte strings", "statement": "The %s text of an object of whole bytes is its bytes as characters, most significant first, so that an object built from a text prints that text back.", "quantifier": "all widths that are multiples of 8, all texts of fitting length", "why_tests_cant": "256^k texts for every length k", "anchors": ["src/util.cc:to_string", "src/util.cc:parse_raw_str"]}
{"id": "C101", "title": "2-state text against 4-state text at wide widths", "statement": "The text of a wide 2-state vector in a format is the text of the 4-state vector with the same bits in that format.", "quantifier": "all widths above 64, all values, all formats", "why_tests_cant": "2^n values at unboundedly many widths", "anchors": ["src/util.cc:to_string", "include/logic/bit.hh:bit::str", "include/logic/logic.hh:logic::str"]}
{"id": "C102", "title": "construction from a numeric text", "statement": "A value of n bits constructed from a literal without x or z digits holds the denoted number in the declared width and sign: its bits are the number modulo 2^n, its numeric conversion is the number those bits denote, and it compares equal to the value constructed from that number.", "quantifier": "all binary, octal and hexadecimal literals of up to 64 bits, every native width, both signs", "why_tests_cant": "unboundedly many literal spellings; the wrong cases have their stray bits outside the declared width where the bit tests do not look", "anchors": ["include/logic/bit.hh:bit::bit(std::string_view)", "include/logic/logic.hh:logic::logic(std::string_view)"]}
{"id": "C103", "title": "packed arrays of 2-state elements", "statement": "In a packed array of 2-state elements, reading element i gives its bits, update(i, v) replaces element i by v and leaves every other element unchanged, and an index that is unknown or out of range reads zero and writes nothing.", "quantifier": "all element widths, array ranges, indices and values", "why_tests_cant": "array lengths, element widths and index values are unbounded; the failing cases (element width 32 or 64, negative elements, full holders) are not in the tests", "anchors": ["include/logic/array.hh:packed_array::operator[]", "include/logic/array.hh:packed_array::update", "include/logic/bit.hh:bit::update"]}
{"id": "C104", "title": "native value from a big_num", "statement": "bit<n-1,0>(b) of a big_num keeps the low n bits of b and is canonical.", "quantifier": "all native widths, all big_num widths and values", "why_tests_cant": "unbounded source widths", "anchors": ["include/logic/bit.hh:bit::bit"]}
{"id": "C105", "title": "4-state operators with a 2-state right operand", "statement": "x op y with x 4-state and y 2-state is x op (y as a 4-state value without x/z): comparisons compare the numbers, match compares bits, arithmetic is modulo 2^n, an x/z of x or a zero divisor gives x.", "quantifier": "all widths, all sign combinations that compile, all canonical values", "why_tests_cant": "2^n values of unboundedly many widths; the failing operands differ in signedness", "anchors": ["include/logic/logic.hh:logic::operator==(const bit&)", "include/logic/logic.hh:logic::operator+(const bit&)", "include/logic/logic.hh:logic::match"]}
{"id": "C106", "title": "shift assignment", "statement": "A sequence of x <<= k and x >>= k leaves in x the bits of the same sequence of shifts; an x/z in either operand leaves all x.", "quantifier": "all widths, all operand types that compile, all values and amounts, sequences of any length", "why_tests_cant": "sequences of any length over 2^n values; the failing amounts depend on the width of the holder type", "anchors": ["include/logic/bit.hh:bit::operator>>=", "include/logic/bit.hh:bit::operator<<=", "include/logic/logic.hh:logic::operator>>=", "include/logic/logic.hh:logic::operator<<="]}
{"id": "C107", "title": "unary plus", "statement": "+x is x when x has no x/z and all x otherwise.", "quantifier": "all widths, both signs, all values", "why_tests_cant": "4^n values of unboundedly many widths; the failing ones have x/z only in upper chunk halves", "anchors": ["include/logic/logic.hh:logic::operator+()", "include/logic/bit.hh:bit::operator+()"]}
{"id": "C108", "title": "truth value of 2-state vectors", "statement": "A 2-state vector converts to true exactly when one of its bits is one, and !x is the opposite.", "quantifier": "all widths, both signs, all values", "why_tests_cant": "2^n values of unboundedly many widths; the failing ones have ones only in upper chunk halves", "anchors": ["include/logic/bit.hh:bit::operator bool", "include/logic/bit.hh:bit::operator!"]}
{"id": "C109", "title": "header helpers: text length, bit copy and tuple reversal", "statement": "reverse_tuple reverses any number of arguments; str_len returns the larger of the natural length and the number in front of the format for every format; copy moves the bits start..end of the source to the low bits of the destination, for either order of the bounds, and changes no other bit.", "quantifier": "all formats, all sizes, all limb-based values and all bounds", "why_tests_cant": "no test calls them; the domain is unbounded", "anchors": ["include/logic/util.hh:str_len", "include/logic/util.hh:copy", "include/logic/util.hh:reverse_tuple"]}
{"id": "C110", "title": "big_num operators on different sizes", "statement": "For big_num operands of different sizes, & | ^ + - * / % give a result of the larger size that is the operator applied to the operands extended to that size (sign extended if signed).", "quantifier": "all sizes, both signs, all values", "why_tests_cant": "pairs of unboundedly many sizes and 2^(n+m) values", "anchors": ["include/logic/big_num.hh:big_num::operator&", "include/logic/big_num.hh:big_num::operator+", "include/logic/big_num.hh:big_num::operator*", "include/logic/big_num.hh:big_num::operator/"]}
{"id": "C111", "title": "assignment to indexed part-selects", "statement": "x[base +: k] = v and x[base -: k] = v replace exactly the addressed bits by those of v, x/z included, and reading the part-select afterwards gives v.", "quantifier": "all widths, selections, run-time bases and values", "why_tests_cant": "base is a run-time value; widths are unbounded", "anchors": ["include/logic/bit.hh:bit::slice_ref", "include/logic/logic.hh:logic::slice_ref"]}
{"id": "C112", "title": "big_num concatenation", "statement": "x.concat(y) of two big_num values holds y in its low bits and x above it, and is canonical when the operands are.", "quantifier": "all sizes, both signs, all values", "why_tests_cant": "pairs of unboundedly many sizes and 2^(n+m) values", "anchors": ["include/logic/big_num.hh:big_num::concat"]}
{"id": "C113", "title": "big_num compound assignment", "statement": "Any sequence of &= and ^= statements on a big_num leaves the value of the same sequence of operators on the extended operands, in canonical form.", "quantifier": "all sizes, all sequences of assignments, all operand sizes and values", "why_tests_cant": "the sequence is unbounded", "anchors": ["include/logic/big_num.hh:big_num::operator&=", "include/logic/big_num.hh:big_num::operator^="]}
{"id": "C114", "title": "2-state client expressions of any depth", "statement": "Every well-formed expression over unsigned 2-state vectors (variables, literals, bitwise, arithmetic, shift, slice, concatenation, widening, comparison and conditional operators, nested to any depth and mixing widths) evaluates without undefined behaviour to the value that IEEE-1800 unsigned bit-vector arithmetic gives, where well-formedness is a condition on the syntax alone that bars the operator/width combinations shown wrong elsewhere.", "quantifier": "all expression trees of any size, all widths up to 2^31, all values of the variables", "why_tests_cant": "the expression trees are an infinite family; each result feeds the next operator, so an uncanonical intermediate value only shows in a later operator", "anchors": ["include/logic/bit.hh:bit"]}
{"id": "C115", "title": "4-state client expressions of any depth", "statement": "Every well-formed expression over unsigned 4-state vectors evaluates without undefined behaviour to the vector of 0/1/x/z bits that the IEEE-1800 tables give, whenever no & or | meets one of the bit pairs on which the library departs from the tables and no known shift amount is out of the machine's range.", "quantifier": "all expression trees of any size, all 4-state values of the variables, widths up to 2^31 for the bitwise operators, slices and widening, up to 64 for those that test for x and z", "why_tests_cant": "infinitely many expression trees and 4^n values per variable", "anchors": ["include/logic/logic.hh:logic"]}
{"id": "C116", "title": "2-state client programs", "statement": "A well-formed program (its expressions are those of C114) made of assignments, bit and part-select assignments, sequencing, conditionals and unbounded loops over 2-state vectors runs on the library exactly as on bit vectors: whenever the reference execution ends, the library execution ends in the same number of steps with no undefined behaviour and with equal values in all variables. In particular a shift-and-add multiplication loop computes the product modulo 2^n at every wide width.", "quantifier": "all programs, all executions of any number of steps, all initial values", "why_tests_cant": "executions of unbounded length over unboundedly many programs and widths", "anchors": ["include/logic/bit.hh:bit", "include/logic/bit.hh:bit::update", "include/logic/bit.hh:bit::set"]}
{"id": "C117", "title": "4-state client programs", "statement": "A well-formed program (its expressions are those of C115) made of assignments, bit and part-select assignments, sequencing, conditionals and unbounded loops over 4-state vectors runs on the library exactly as the IEEE-1800 reference on 0/1/x/z bits; a condition that is x or z counts as false. In particular a bit-reversal program reverses every 4-state vector of every width.", "quantifier": "all programs, all executions of any number of steps, all initial 4-state values", "why_tests_cant": "executions of unbounded length over unboundedly many programs and 4^n values", "anchors": ["include/logic/logic.hh:logic", "include/logic/logic.hh:logic::update", "include/logic/logic.hh:logic::set"]}
{"id": "C118", "title": "a 2-state read outside the range yields 0", "statement": "Reading a bit of a 2-state value at a position at or above its width yields 0, the value SystemVerilog gives for an out-of-range 2-state read; for limb-based values this holds at every position, for native values it depends on the holder type.", "quantifier": "all widths, both signs, all values, all positions", "why_tests_cant": "positions are unbounded; the failing ones (promoted width and sign fill of the holder) are never read by a test", "anchors": ["include/logic/bit.hh:bit::operator[](uint64_t)", "include/logic/big_num.hh:big_num::operator[]"]}
{"id": "C119", "title": "equality of signed operands of different widths", "statement": "For two canonical signed operands of different widths a == b is true exactly when the two's complement numbers are equal.", "quantifier": "all width pairs for which the comparison compiles, all values", "why_tests_cant": "unbounded widths; no test compares signed operands of different widths", "anchors": ["include/logic/bit.hh:bit::operator==", "include/logic/big_num.hh:big_num::operator=="]}
{"id": "C120", "title": "division of unsigned operands of different widths", "statement": "For unsigned operands of widths n and m, a / b and a % b are the quotient and the remainder of the denoted numbers, in max(n,m) bits, for every non-zero divisor; a 4-state division by zero is all x.", "quantifier": "all width pairs, all values", "why_tests_cant": "unbounded widths and values; the wide cases take other paths than the native ones", "anchors": ["include/logic/bit.hh:bit::operator/", "include/logic/bit.hh:bit::operator%", "include/logic/logic.hh:logic::operator/"]}
{"id": "C121", "title": "4-state arithmetic on different widths propagates x", "statement": "If an operand of + - * / % on 4-state vectors of different widths holds an x or z, every bit of the result is x.", "quantifier": "all width pairs, all 4-state values", "why_tests_cant": "unbounded widths; depends on the position of the x after the extension", "anchors": ["include/logic/logic.hh:logic::operator+", "include/logic/big_num.hh:big_num::any_set"]}
{"id": "C122", "title": "arithmetic on signed operands of different widths", "statement": "For signed operands of different widths + - * / % give the bits of the result on the two's complement numbers, modulo 2^max(n,m), without undefined behaviour.", "quantifier": "all width pairs, all values", "why_tests_cant": "unbounded widths; the sign extension differs between native and limb-based sources", "anchors": ["include/logic/bit.hh:bit::operator+", "include/logic/bit.hh:bit::extend", "include/logic/big_num.hh:big_num::extend"]}
{"id": "C123", "title": "operands of different signedness are read as unsigned", "statement": "If exactly one operand is unsigned, + - / % and the order work on the bit patterns read as unsigned numbers, zero-extended to the larger width, as SystemVerilog specifies.", "quantifier": "all native widths (sums and differences: all width pairs; quotients and remainders: also wide results with an unsigned dividend and a divisor that is native or at least as wide), all values", "why_tests_cant": "the result depends on the holder type and the C++ conversions; the tests use one signedness", "anchors": ["include/logic/bit.hh:bit::operator/", "include/logic/bit.hh:bit::operator>", "include/logic/util.hh:signed_result"]}
{"id": "C124", "title": "slice assignment from the object itself", "statement": "x.update(hi, lo, x), x.update<hi, lo>(x) and x.slice_ref(hi, lo) = x store in index lo + k what index k of x held before the statement, and change nothing outside the slice.", "quantifier": "all ranges based at 0, all bounds inside the range, all values, both endiannesses", "why_tests_cant": "the operand is a reference to the written object and the loop reads bits it has already written; every test assigns from another object", "anchors": ["include/logic/bit.hh:bit::update", "include/logic/bit.hh:bit::update_", "include/logic/bit.hh:slice_ref_runtime", "include/logic/logic.hh:logic::update_"]}
{"id": "C125", "title": "expressions over the integer types, exactly", "statement": "Every expression over byte, shortint, int and longint, signed or unsigned, built from ~ & ^ | unary - + - * / % >> << ashr extend to_signed to_unsigned == < <= and ?:, has the SystemVerilog value if no operation in its evaluation is one C++ leaves undefined (signed overflow, a 16-bit unsigned product of 2^31 or more, division by zero, the most negative number by -1, a shift amount outside the machine range), and faults otherwise.", "quantifier": "all expressions of any depth, all values of the variables", "why_tests_cant": "expressions are unbounded in depth and the values in 64-bit variables; the tests evaluate single operators", "anchors": ["include/logic/bit.hh:bit::operator+", "include/logic/bit.hh:bit::operator*", "include/logic/bit.hh:bit::operator/", "include/logic/bit.hh:bit::operator>>", "include/logic/bit.hh:bit::ashr", "include/logic/bit.hh:bit::extend"]}
{"id": "C126", "title": "programs over the integer types", "statement": "A program of assignments between the integer types (with implicit extension or truncation), ++, --, sequences, conditionals and loops runs in the library exactly as on the SystemVerilog values: same number of steps, same final values, undefined exactly where an operation is.", "quantifier": "all programs, all initial values, any number of steps", "why_tests_cant": "loops run an unbounded number of steps", "anchors": ["include/logic/bit.hh:bit::operator=", "include/logic/bit.hh:bit::operator++", "include/logic/bit.hh:bit::operator--"]}
{"id": "C127", "title": "run-time part-selects that leave the vector", "statement": "slice<k>(a,b) with int bounds of width k reads the bits inside the vector and, for bits outside it, 0 (2-state) or x (4-state); it always returns.", "quantifier": "all widths, all values, all int bounds", "why_tests_cant": "run-time bounds range over all ints, and one bad value (-1) never returns; the tests use in-range bounds", "anchors": ["include/logic/bit.hh:bit::slice_", "include/logic/big_num.hh:big_num::slice", "include/logic/logic.hh:logic::slice"]}
{"id": "C128", "title": "expressions over the 4-state integer types, exactly", "statement": "Every expression over logic of 8, 16, 32 and 64 bits, signed or unsigned, built from literals, the default value, ~ & | ^ unary - + - * / % >> << ashr extend to_signed to_unsigned == < <= match ! and ?:, evaluates to the 4-state SystemVerilog vector: bitwise operators by the truth tables of the library, arithmetic, shifts and comparisons all x if an operand has an x or z or the divisor is 0; it faults exactly when an operation between known operands is one that C++ leaves undefined.", "quantifier": "all expressions of any depth, all values of the variables including x and z", "why_tests_cant": "expressions are unbounded in depth and 4-state values quadruple per bit; the tests evaluate single operators on a few vectors", "anchors": ["include/logic/logic.hh:logic::operator+", "include/logic/logic.hh:logic::operator/", "include/logic/logic.hh:logic::operator&", "include/logic/logic.hh:logic::ashr", "include/logic/logic.hh:logic::match", "include/logic/logic.hh:logic::extend"]}
{"id": "C129", "title": "programs over the 4-state integer types", "statement": "A program of assignments between the 4-state integer types, ++, --, sequences, conditionals and loops runs in the library exactly as on vectors of 0, 1, x and z: same number of steps, same final vectors, undefined exactly where an operation is. Euclid's algorithm written against it ends for all inputs, with the greatest common divisor if both are known.", "quantifier": "all programs, all initial values including x and z, any number of steps", "why_tests_cant": "loops run an unbounded number of steps and conditions can be x", "anchors": ["include/logic/logic.hh:logic::operator=", "include/logic/logic.hh:logic::operator++", "include/logic/logic.hh:logic::operator--", "include/logic/logic.hh:logic::operator bool"]}
{"id": "C130", "title": "indexed part-selects", "statement": "slice<k, true>(base) and slice<k, false>(base), the SystemVerilog x[base +: k] and x[base -: k], read the selected bits of the vector including x and z, x (or 0 in 2-state) for bits outside the vector, and all x if the base has an x or z.", "quantifier": "all widths, all vectors, all bases of any width", "why_tests_cant": "the base is a run-time value of up to 64 bits; the tests use two in-range bases on one vector", "anchors": ["include/logic/logic.hh:logic::slice", "include/logic/bit.hh:bit::slice"]}
{"id": "C131", "title": "4-state compound bitwise assignment", "statement": "Any sequence of &=, |= and ^= statements on a 4-state vector leaves in every bit the value that folding the IEEE 1800 truth tables over the operands' bits gives, never faults and keeps the vector canonical.", "quantifier": "all widths, all vectors and operands including x and z, sequences of any length", "why_tests_cant": "four states per bit at unbounded widths and lengths; the tests have no 4-state compound assignment with x or z", "anchors": ["include/logic/logic.hh:logic::operator&=", "include/logic/logic.hh:logic::operator|=", "include/logic/logic.hh:logic::operator^="]}
{"id": "C132", "title": "clear, unary plus, ashl, bool and text of big_num; slices of 2-state packed arrays", "statement": "clear() and unmask() leave 0, unary + keeps the value, ashl shifts left by the denoted amount, bool is true exactly for non-zero numbers, the text constructor of big_num gives the value of the bit of the same width, and slice_array of a 2-state packed array returns the addressed elements.", "quantifier": "all widths, all values, all array ranges", "why_tests_cant": "widths and values are unbounded; bool goes wrong only for numbers whose low half limbs are all 0", "anchors": ["include/logic/big_num.hh:big_num::clear", "include/logic/big_num.hh:big_num::ashl", "include/logic/big_num.hh:big_num::operator bool", "include/logic/bit.hh:bit::clear", "include/logic/array.hh:packed_array::slice_array"]}
{"id": "C133", "title": "moving a program from bit to logic", "statement": "A program of declarations, assignments, conditionals and loops over 2-state unsigned vectors, rewritten with every bit replaced by logic of the same range, runs to the same outcome: same faults, same number of steps, and every variable holds the known vector with the old value.", "quantifier": "all programs over the modelled operators, all stores, all fuels, all widths", "why_tests_cant": "programs are unbounded; no test runs one expression through both class templates", "anchors": ["include/logic/logic.hh:logic::logic", "include/logic/logic.hh:logic::operator~", "include/logic/logic.hh:logic::operator+", "include/logic/bit.hh:bit::operator~", "include/logic/bit.hh:bit::operator+"]}
{"id": "C134", "title": "sign extension of x and z", "statement": "Extending a signed 4-state vector repeats its leftmost bit, also if that bit is x or z.", "quantifier": "all widths, all target widths, all clean 4-state vectors", "why_tests_cant": "widths and values are unbounded; no test extends a signed vector with x or z in the sign position", "anchors": ["include/logic/logic.hh:logic::extend", "include/logic/bit.hh:bit::extend"]}
{"id": "C135", "title": "fill of literals with a leading x or z digit", "statement": "A literal with fewer digits than the vector has bits is filled with x if its leftmost digit is x, with z if it is z, and with 0 otherwise.", "quantifier": "all widths, all binary, octal and hexadecimal literals", "why_tests_cant": "literals and widths are unbounded; no test checks bits above the digits of a literal that starts with x or z", "anchors": ["include/logic/logic.hh:logic::logic", "src/util.cc:parse_xz_raw_str", "src/util.cc:parse_raw_str"]}
{"id": "C136", "title": "assignments to part-selects that leave the vector", "statement": "x[base +: k] = v and x[base -: k] = v write the selected bits that lie inside the vector and nothing else, wherever the selection lies, keep the vector canonical, and write nothing if the base has an x or z.", "quantifier": "all widths, vectors, values and run-time bases", "why_tests_cant": "the base is a run-time value; the tests only assign inside the vector", "anchors": ["include/logic/bit.hh:bit::slice_ref", "include/logic/bit.hh:bit::update", "include/logic/logic.hh:logic::slice_ref", "include/logic/logic.hh:logic::update"]}
{"id": "C137", "title": "signed order of limb-based values of different widths", "statement": "For two signed operands wider than 64 bits and of different widths a > b and a < b are the order of the two's complement numbers, and the comparison terminates.", "quantifier": "all pairs of widths > 64, all values", "why_tests_cant": "the wrong answers need two negative operands, and which way they are wrong depends on both widths; the tests compare no signed wide values", "anchors": ["include/logic/big_num.hh:big_num::operator>", "include/logic/big_num.hh:big_num::negate", "include/logic/bit.hh:bit::operator>"]}
{"id": "C138", "title": "binary text of wide values is read back", "statement": "Every canonical 4-state object wider than 64 bits is equal to the object its string constructor makes from the base letter b and the text printed by str(\"b\") (every bit is read back as it was printed), and the same for a 2-state object.", "quantifier": "all widths > 64, all canonical values", "why_tests_cant": "the parser counts characters and the printer counts bits; which objects survive depends on the width and on where the x and z bits are", "anchors": ["include/logic/logic.hh:logic::str", "include/logic/logic.hh:logic::logic(std::string_view)", "include/logic/big_num.hh:big_num(std::string_view)", "src/util.cc:logic::util::parse_raw_str"]}
{"id": "C139", "title": "hexadecimal text is read back", "statement": "Every canonical object is equal to the object read from the base letter h and the text printed by str(\"h\").", "quantifier": "all widths, all canonical values", "why_tests_cant": "a digit with some x and some known bits has a letter of its own that loses bits; the number of such digits grows exponentially with the width", "anchors": ["include/logic/logic.hh:logic::str", "include/logic/logic.hh:logic::logic(std::string_view)", "src/util.cc:logic::util::parse_raw_str", "src/util.cc:logic::util::to_string"]}
{"id": "C140", "title": "octal text of native values is read back", "statement": "Every canonical native object is equal to the object read from the base letter o and the text printed by str(\"o\").", "quantifier": "all widths up to 64, all canonical values", "why_tests_cant": "depends on how the width splits into groups of three and on every digit being uniformly unknown", "anchors": ["include/logic/logic.hh:logic::str", "include/logic/logic.hh:logic::logic(std::string_view)", "src/util.cc:logic::util::parse_raw_str"]}
{"id": "C141", "title": "decimal text of native values is read back", "statement": "Every canonical known native object is equal to the object read from the base letter d and the text printed by str(\"0d\").", "quantifier": "all widths up to 64, both signs, all canonical values", "why_tests_cant": "the tests read positive decimal numbers and print negative ones, but never read back what they printed", "anchors": ["include/logic/logic.hh:logic::str", "include/logic/logic.hh:logic::logic(std::string_view)", "src/util.cc:logic::util::parse_raw_str"]}
{"id": "C142", "title": "a known bit of a result does not depend on the unknown bits", "statement": "If some bits of the operands are x or z, every bit of the result that is 0 or 1 is the bit the same operation, expression or program yields when the unknown bits are replaced by any 0s and 1s; and if it has a value for some replacement, it has one with the unknown bits.", "quantifier": "all widths, all contents, all replacements, all expressions and programs over the 4-state integer types", "why_tests_cant": "relates one run with unknown bits to all 2^k runs that fill them in, for every operator and every composition", "anchors": ["include/logic/logic.hh:logic::operator&", "include/logic/logic.hh:logic::operator|", "include/logic/logic.hh:logic::operator^", "include/logic/logic.hh:logic::operator~", "include/logic/logic.hh:logic::operator+", "include/logic/logic.hh:logic::operator==", "include/logic/logic.hh:logic::operator<<", "include/logic/logic.hh:logic::r_and", "include/logic/logic.hh:logic::r_or"]}
{"id": "C143", "title": "laws of bit vector arithmetic hold with ==", "statement": "If two expressions over + - * & | ^ ~ have the same value for all bit vectors of the width (for example ~(x - y) and ~x + y, or ~(x & y) and ~x | ~y), then over unsigned objects of that width they yield objects that compare equal.", "quantifier": "all pairs of expressions, all widths above one, all objects", "why_tests_cant": "quantifies over all identities; whether == holds depends on storage bits above the width that no index can read", "anchors": ["include/logic/bit.hh:bit::operator~", "include/logic/bit.hh:bit::operator&", "include/logic/bit.hh:bit::operator+", "include/logic/bit.hh:bit::operator-", "include/logic/bit.hh:bit::operator*", "include/logic/bit.hh:bit::operator==", "include/logic/big_num.hh:big_num::operator~", "include/logic/big_num.hh:big_num::operator&"]}
{"id": "C144", "title": "slices compose, and commute with the bitwise operators", "statement": "A slice [c:d] of a slice [a:b] is the slice [lo+c:lo+d] of the vector, lo being the smaller of a and b, and slicing the result of & | ^ ~ is the operator on the slices: the same object, storage included.", "quantifier": "all widths, contents with x and z, slice bounds within the vector", "why_tests_cant": "relates two slices at every pair of bounds; the tests take single slices of literals", "anchors": ["include/logic/bit.hh:bit::slice", "include/logic/bit.hh:bit::operator[]", "include/logic/logic.hh:logic::slice", "include/logic/logic.hh:logic::operator[]", "include/logic/logic.hh:logic::operator&", "include/logic/logic.hh:logic::operator|", "include/logic/logic.hh:logic::operator^", "include/logic/logic.hh:logic::operator~"]}
{"id": "C145", "title": "slice assignment and slice reading fit together", "statement": "After assigning v to the slice [a:b] the slice reads v; assigning a slice its own value changes nothing; of two assignments to a slice the last one counts; assignments to disjoint slices commute.", "quantifier": "all widths, vectors and operands with x and z, all bounds within the vector", "why_tests_cant": "laws between sequences of assignments at all positions", "anchors": ["include/logic/logic.hh:logic::update", "include/logic/logic.hh:logic::operator[]", "include/logic/logic.hh:logic::set"]}
{"id": "C146", "title": "extension in steps, and extension of the bitwise operators", "statement": "Extending an unsigned vector to m and then to k bits is extending it to k bits; the low bits of an extension are the vector; the extension of x & y, x | y, x ^ y is the operator on the extensions.", "quantifier": "all widths n <= m <= k, all canonical vectors with x and z", "why_tests_cant": "three widths, among them the change from native to wide storage", "anchors": ["include/logic/bit.hh:bit::extend", "include/logic/logic.hh:logic::extend", "include/logic/logic.hh:logic::operator&"]}
{"id": "C147", "title": "shifts in steps", "statement": "Shifting by k and then by l is shifting by k + l, to the right and to the left; shifting left and back clears the upper k bits, right and back the lower ones; a slice of x >> k is the slice of x that lies k bits higher.", "quantifier": "all widths, contents and amounts", "why_tests_cant": "relates three amounts, at all widths", "anchors": ["include/logic/bit.hh:bit::operator>>", "include/logic/bit.hh:bit::operator<<", "include/logic/big_num.hh:big_num::operator>>", "include/logic/big_num.hh:big_num::operator<<", "include/logic/logic.hh:logic::operator>>"]}
{"id": "C148", "title": "concatenation is associative and inverse to slicing", "statement": "{{x, y}, z} and {x, {y, z}} are the same vector; the slices of a concatenation are its operands; the two slices of a vector concatenate to it.", "quantifier": "all widths with a total below 64 bits, all canonical vectors with x and z", "why_tests_cant": "three widths at once; integer promotion makes the result depend on the grouping", "anchors": ["include/logic/bit.hh:bit::concat", "include/logic/logic.hh:logic::concat", "include/logic/logic.hh:logic::operator[]"]}
{"id": "C149", "title": "== is an equivalence relation across types", "statement": "For canonical objects of any widths and signedness: a == a; a == b implies b == a; a == b and b == c imply a == c.", "quantifier": "all combinations of three widths and signednesses whose comparisons compile, all values", "why_tests_cant": "transitivity and symmetry quantify over triples of types and values; a test compares a few pairs, and the failing pairs differ by a multiple of the holder size or only in the upper half of one 64-bit chunk", "anchors": ["include/logic/bit.hh:bit::operator==", "include/logic/big_num.hh:big_num::operator=="]}
{"id": "C150", "title": "the order is transitive across types", "statement": "For canonical objects of any widths and signedness: a < b and b < c imply a < c, and a <= b and b <= c imply a <= c.", "quantifier": "all combinations of three widths and signednesses whose comparisons compile, all values", "why_tests_cant": "a violation is a cycle through three types; sorting code assumes that there is none, tests compare two operands at a time", "anchors": ["include/logic/bit.hh:bit::operator<", "include/logic/bit.hh:bit::operator<=", "include/logic/big_num.hh:big_num::operator>", "include/logic/big_num.hh:big_num::operator<="]}
{"id": "C151", "title": "2-state programs that work bit by bit agree with the operators", "statement": "A ripple-carry adder, a reversal, a count and a Gray decoder written with operator[] and set() on bit<n-1,0> never fault and give the sum, the reversed vector (twice: the vector), the number of ones, and the operand of x ^ (x >> 1); a + b reads like the adder's result.", "quantifier": "all widths and signednesses, all operand values, all previous contents of the result object", "why_tests_cant": "the loops run over every position of every width; a defect of one position, one carry chain or one old content of the target is found only by chance", "anchors": ["include/logic/bit.hh:bit::operator[]", "include/logic/bit.hh:bit::set", "include/logic/bit.hh:bit::operator+", "include/logic/bit.hh:bit::operator>>"]}
{"id": "C152", "title": "a 4-state adder made of gates is sound", "statement": "A ripple-carry adder of single-bit &, | and ^ on logic never faults, and each known bit of its result is that bit of the sum for every choice of the unknown bits; without x and z it is the sum and the carry.", "quantifier": "all widths, all 4-state operand values, all previous contents of the result object", "why_tests_cant": "the number of 4-state operand pairs is 16^n; the wrong results need an x or z next to particular known bits and a carry", "anchors": ["include/logic/logic.hh:logic::operator[]", "include/logic/logic.hh:logic::set", "include/logic/logic.hh:logic::operator&", "include/logic/logic.hh:logic::operator|", "include/logic/logic.hh:logic::operator^"]}
{"id": "C153", "title": "sequences of array writes", "statement": "After any sequence of writes x.update(i, v) to a packed array, each element holds the value last written to it, or its original content if it was never written.", "quantifier": "all element widths, all array ranges, all sequences of writes of any length with indices inside the range, all previous contents", "why_tests_cant": "the number of sequences is unbounded and the order of the writes matters: a test that writes upwards passes, the same writes in the other order lose bits", "anchors": ["include/logic/array.hh:packed_array::update", "include/logic/array.hh:packed_array::slice_array"]}
{"id": "C154", "title": "loops that fill or copy a packed array", "statement": "A loop that writes v(i) to every element, upwards or downwards, leaves v(i) in every element; a loop that copies an array element by element leaves a copy.", "quantifier": "all element widths, all array ranges, all values, all previous contents", "why_tests_cant": "the downward loop destroys only the lowest bit of each element but the first, so a test with even values passes; the claim covers arrays of any size", "anchors": ["include/logic/array.hh:packed_array::update", "include/logic/array.hh:packed_array::operator[]"]}
{"id": "C155", "title": "counters", "statement": "k executions of ++ add k modulo 2^n and k executions of -- subtract it; k of one after k of the other restore the object; after 2^n increments the counter compares equal to its start.", "quantifier": "every width, signed and unsigned, every start value, every k", "why_tests_cant": "the number of steps is unbounded, and the missing wrap-around of widths with spare storage bits shows only after 2^n steps", "anchors": ["include/logic/bit.hh:bit::operator++", "include/logic/bit.hh:bit::operator--", "include/logic/big_num.hh:big_num::operator+"]}
{"id": "C156", "title": "counting loops", "statement": "for (i = a; i < c; ++i) executes its body for a, a+1, ..., c-1 in this order and leaves i == c if c is a value of the type of i; otherwise it does not end.", "quantifier": "every width of variable and bound, signed and unsigned, all a and c, 2-state and 4-state", "why_tests_cant": "loops of unbounded length; the wrong cases need a bound beyond the type, or a wide signed loop through zero", "anchors": ["include/logic/bit.hh:bit::operator<", "include/logic/bit.hh:bit::operator++", "include/logic/big_num.hh:big_num::operator>"]}
{"id": "C157", "title": "multiplication by shifting and adding", "statement": "acc = 0; for (i = 0; i < n; i++) if (b[i]) acc = acc + (a << i) leaves the product modulo 2^n in acc.", "quantifier": "every width, all unsigned operands", "why_tests_cant": "the claim covers all operand pairs of all widths; it also shows that the operators needed compose where operator* itself faults", "anchors": ["include/logic/bit.hh:bit::operator[]", "include/logic/bit.hh:bit::operator<<", "include/logic/bit.hh:bit::operator+"]}
{"id": "C158", "title": "Euclid's algorithm", "statement": "while (b) { r = a % b; a = b; b = r; } ends with the greatest common divisor in a.", "quantifier": "every width, all unsigned operands", "why_tests_cant": "an unbounded number of divisions; the wide failure needs an intermediate remainder whose ones lie in the upper half of a chunk", "anchors": ["include/logic/bit.hh:bit::operator%", "include/logic/bit.hh:bit::operator bool", "include/logic/big_num.hh:big_num::any_set"]}
{"id": "C159", "title": "rotation by two shifts", "statement": "(x << k) | (x >> (n - k)) is x rotated left by k, for 0 <= k < n.", "quantifier": "every width, all values, all k", "why_tests_cant": "the amount 0 is the one a test is likely to leave out, and widths are unbounded", "anchors": ["include/logic/bit.hh:bit::operator<<", "include/logic/bit.hh:bit::operator>>", "include/logic/bit.hh:bit::operator|"]}
{"id": "C160", "title": "counting ones by clearing the lowest", "statement": "while (x) { x = x & (x - 1); c++; } ends with the number of ones in c.", "quantifier": "every width, all unsigned values", "why_tests_cant": "the loop runs once per one of x; the wide failure needs the highest one in the upper half of a chunk", "anchors": ["include/logic/bit.hh:bit::operator bool", "include/logic/bit.hh:bit::operator&", "include/logic/bit.hh:bit::operator-"]}
{"id": "C161", "title": "swapping without a third variable", "statement": "a = a ^ b; b = a ^ b; a = a ^ b and a = a + b; b = a - b; a = a - b both exchange a and b.", "quantifier": "every width, all unsigned values", "why_tests_cant": "all value pairs of all widths; the one-bit failure is a single pair", "anchors": ["include/logic/bit.hh:bit::operator^", "include/logic/bit.hh:bit::operator+", "include/logic/bit.hh:bit::operator-"]}
{"id": "C162", "title": "slice references as objects", "statement": "Any program that declares slice references to several vectors, constant or run-time, and assigns temporaries or other vectors through them in any order ends with every vector holding what the program means: each bit is the one the last assignment that covers it has for it, and vectors without a reference are unchanged.", "quantifier": "every number of vectors, references and assignments, all bounds inside the vectors, all widths and contents", "why_tests_cant": "programs of any length with overlapping references that outlive other writes", "anchors": ["include/logic/bit.hh:slice_ref_fixed", "include/logic/bit.hh:slice_ref_runtime", "include/logic/logic.hh:logic::slice_ref"]}
{"id": "C163", "title": "permuting chunks", "statement": "for (i = 0; i < k; i++) y.slice_ref(i*w+w-1, i*w) = x.slice<w>(p(i)*w+w-1, p(i)*w) puts chunk p(i) of x at chunk i of y, for every map p; applied with the inverse map it gives x back.", "quantifier": "every chunk width and number of chunks, every map, all contents", "why_tests_cant": "unbounded loops over all contents; the failure needs an unknown bit from position 64 of a chunk", "anchors": ["include/logic/bit.hh:slice_ref_runtime", "include/logic/logic.hh:logic::slice", "include/logic/logic.hh:logic::update"]}
{"id": "C164", "title": "texts identify values", "statement": "Two different values of one type have different texts in every base.", "quantifier": "every width, signed and unsigned, all pairs of canonical values", "why_tests_cant": "a pair property over all values; the lost chunk shows only at multiples of 64", "anchors": ["include/logic/logic.hh:logic::str", "include/logic/util.hh:to_string"]}
{"id": "C165", "title": "reading, then printing", "statement": "A binary literal of as many digits as the type has bits is printed by str(\"b\") as it was written.", "quantifier": "every width, all texts over 0, 1, x, z", "why_tests_cant": "4^n texts in every width; the failures need x or z in the upper half of a chunk", "anchors": ["include/logic/logic.hh:logic::logic", "include/logic/util.hh:parse_raw_str", "include/logic/logic.hh:logic::str"]}
{"id": "C166", "title": "sorting with operator<", "statement": "Insertion sort with operator< as its only operation ends with the same objects in ascending order of their numbers.", "quantifier": "every width, signed and unsigned, lists of every length", "why_tests_cant": "lists of every length; the wrong results need the least wide signed number", "anchors": ["include/logic/bit.hh:bit::operator<", "include/logic/big_num.hh:big_num::operator<"]}
{"id": "C167", "title": "x_set and z_set", "statement": "x_set(i) says whether bit i is x and z_set(i) whether it is z, as operator[](i) gives it, with a run-time or a constant index, and after any write.", "quantifier": "every declared range, every index, all contents", "why_tests_cant": "all ranges and indices; indices outside the range are the ones tests do not try", "anchors": ["include/logic/logic.hh:logic::x_set", "include/logic/logic.hh:logic::z_set"]}
{"id": "C168", "title": "limb arrays are accessed in bounds", "statement": "No member function of big_num reads or writes its array of limbs outside the array, forms an iterator outside it, shifts a 64-bit number by 64 or more, or calls __builtin_clzll on zero.", "quantifier": "every size above zero, signed and unsigned, every pair of sizes for the mixed operations, every index, amount and content, including indices past the size and bits set above it", "why_tests_cant": "a read past the end usually returns something harmless; which index is computed depends on the size, the second size and the content", "anchors": ["include/logic/big_num.hh:big_num"]}
{"id": "C169", "title": "cyclic redundancy check", "statement": "The loop fb = r[n-1] ^ b; r = r << 1; if (fb) r = r ^ p over the bits of any message leaves in r the remainder of M*X^n modulo X^n + p over the field with two elements; a message followed by its check bits leaves zero, and with p[0] = 1 two messages that differ inside a window of n bits have different check bits.", "quantifier": "every width, every polynomial, initial register and message of every length", "why_tests_cant": "messages of unbounded length, all polynomials; the detection property speaks of pairs of messages", "anchors": ["include/logic/bit.hh:bit::operator<<", "include/logic/bit.hh:bit::operator^", "include/logic/bit.hh:bit::operator[]"]}
{"id": "C170", "title": "Gray codes", "statement": "g = x ^ (x >> 1) has as bit i the exclusive or of the bits i and i + 1 of x; the doubling decoder gives x back; the codes of x and x + 1 differ in exactly one bit, also at the wrap from all ones to zero.", "quantifier": "every width above one, all contents", "why_tests_cant": "2^n neighbours at every width; the decoder's last step depends on the width", "anchors": ["include/logic/bit.hh:bit::operator>>", "include/logic/bit.hh:bit::operator^", "include/logic/bit.hh:bit::operator+"]}
{"id": "C171", "title": "long division", "statement": "The restoring division r = r << 1; r[0] = x[i]; if (r >= d) { r = r - d; q[i] = 1; }, from the highest bit down, ends with the quotient and remainder of x by d, both canonical, and gives all ones and x for d = 0.", "quantifier": "every width, all canonical divisors", "why_tests_cant": "all pairs of operands at every width; intermediate values reach the top bit", "anchors": ["include/logic/bit.hh:bit::operator<<", "include/logic/bit.hh:bit::operator>=", "include/logic/bit.hh:bit::operator-", "include/logic/bit.hh:bit::set"]}
{"id": "C172", "title": "base letters of literals", "statement": "The base letter of a literal may be written in either case; a sign letter s before the base letter does not change the bits; the literals '0, '1, 'x and 'z without a base fill the vector; a letter that names no base is not silently a number.", "quantifier": "all widths, all literals: any size prefix, any letter, any body", "why_tests_cant": "all strings; 2^n widths; letters the tests never write", "anchors": ["src/util.cc:get_input_base", "src/util.cc:parse_raw_str_", "src/util.cc:parse_xz_raw_str_", "src/util.cc:get_stride"]}
{"id": "C173", "title": "square root by digits", "statement": "The loop t = r << (i + 1); t[2 * i] = 1; if (x >= t) { x = x - t; r[i] = 1; }, over the (n + 1) / 2 bits of the root from the highest down, ends with the integer square root of x in r and the remainder in x, both canonical.", "quantifier": "every width, all canonical radicands", "why_tests_cant": "2^n radicands at every width; the trial values reach the top bit", "anchors": ["include/logic/bit.hh:bit::operator<<", "include/logic/bit.hh:bit::operator>=", "include/logic/bit.hh:bit::operator-", "include/logic/bit.hh:bit::set"]}
{"id": "C174", "title": "linear feedback shift register", "statement": "The register fb = r[n-1]; r = r << 1; if (fb) r = r ^ p returns to its first value after k steps exactly if X^n + p divides (X^k - 1) r; with p[0] = 1 it never becomes zero and its run is a cycle; with a primitive polynomial it runs through all 2^n - 1 nonzero values.", "quantifier": "every width, polynomial, initial register and number of steps", "why_tests_cant": "the period 2^n - 1 cannot be run at useful widths; all polynomials", "anchors": ["include/logic/bit.hh:bit::operator<<", "include/logic/bit.hh:bit::operator^", "include/logic/bit.hh:bit::operator[]"]}
{"id": "C175", "title": "carry, borrow and saturation", "statement": "For unsigned a and b: (a + b) < a holds exactly if the sum needs more than n bits; (a - b) > a exactly if a < b; s = a + b; if (s < a) s = ~zero gives the smaller of the sum and 2^n - 1.", "quantifier": "every width above one, all canonical operands", "why_tests_cant": "depends on the storage bits above the declared width, at every width", "anchors": ["include/logic/bit.hh:bit::operator+", "include/logic/bit.hh:bit::operator-", "include/logic/bit.hh:bit::operator<", "include/logic/bit.hh:bit::operator>", "include/logic/bit.hh:bit::operator~"]}
{"id": "C176", "title": "midpoint", "statement": "(a & b) + ((a ^ b) >> 1) is the mean of a and b rounded down; (a + b) >> 1 is the mean of the sum modulo 2^n.", "quantifier": "every width above one, all contents", "why_tests_cant": "2^(2n) pairs at every width; spare storage bits hold the carry of the sum", "anchors": ["include/logic/bit.hh:bit::operator&", "include/logic/bit.hh:bit::operator^", "include/logic/bit.hh:bit::operator+", "include/logic/bit.hh:bit::operator>>"]}
{"id": "C177", "title": "lowest one and powers of two", "statement": "x & (~x + 1) keeps exactly the lowest one of x; x && !(x & (x - 1)) holds exactly if x is a power of two.", "quantifier": "every width above one for the first, every width for the second; all canonical contents", "why_tests_cant": "2^n values; the boolean conversion of wide vectors looks at half of the bits", "anchors": ["include/logic/bit.hh:bit::operator&", "include/logic/bit.hh:bit::operator~", "include/logic/bit.hh:bit::operator+", "include/logic/bit.hh:bit::operator-", "include/logic/bit.hh:bit::operator bool", "include/logic/big_num.hh:any_set"]}
{"id": "C178", "title": "expressions and programs over the integer types by the rules of C++", "statement": "Every expression and program over byte, shortint, int and longint, signed, unsigned or mixed, with shift amounts of any of the types, has the value of C++'s integer rules: mixed operands of / % are divided as int below 32 bits and as unsigned numbers from 32 bits on, mixed operands of < <= are compared as 64-bit unsigned numbers, amounts of << and ashr are converted to the type of the shifted value; it faults exactly where an operation is undefined.", "quantifier": "all expressions and programs that compile, all values of the variables, any number of steps", "why_tests_cant": "unbounded nesting and loops; the deviations only show at particular widths and signs", "anchors": ["include/logic/bit.hh:bit::operator/", "include/logic/bit.hh:bit::operator%", "include/logic/bit.hh:bit::operator<", "include/logic/bit.hh:bit::operator<=", "include/logic/bit.hh:bit::operator<<", "include/logic/bit.hh:bit::ashr"]}
{"id": "C179", "title": "expressions and programs over the 4-state integer types by the rules of C++", "statement": "Every expression and program over logic of 8, 16, 32 and 64 bits, signed, unsigned or mixed, with shift amounts of any of the types, evaluates to the 4-state vector of the library's truth tables for the bitwise operators, all x where an operand of an arithmetic, shift or relational operator has an x or z or the divisor is 0, and otherwise the number of C++'s integer rules (C178); it faults exactly where an operation is undefined.", "quantifier": "all expressions and programs that compile, all values of the variables including x and z, any number of steps", "why_tests_cant": "unbounded nesting and loops, 4^n values", "anchors": ["include/logic/logic.hh:logic::operator/", "include/logic/logic.hh:logic::operator%", "include/logic/logic.hh:logic::operator<", "include/logic/logic.hh:logic::operator<=", "include/logic/logic.hh:logic::operator<<", "include/logic/logic.hh:logic::ashr"]}
{"id": "C180", "title": "resolution of several drivers of a bus", "statement": "A loop over the bits that uses x_set, z_set, operator[], set, set_x and set_z to resolve any number of drivers of a bus gives z where every driver is z, 0 or 1 where one drives that value and every other one the same or z, and x elsewhere; the order of the drivers does not matter and no step faults, at any width.", "quantifier": "all widths, any number of drivers, all 4^n values of each, every order", "why_tests_cant": "unbounded lists of drivers and their permutations; the x and z may lie above bit 63, where operator[] is undefined for them", "anchors": ["include/logic/logic.hh:logic::x_set", "include/logic/logic.hh:logic::z_set", "include/logic/logic.hh:logic::set_x", "include/logic/logic.hh:logic::set_z", "include/logic/logic.hh:logic::set", "include/logic/logic.hh:logic::operator[]"]}
{"id": "C181", "title": "multiplexer with an unknown select", "statement": "A loop over the bits that computes sel ? a : b follows IEEE 1800 11.4.11: a known select keeps every bit of the chosen branch, x and z included; an unknown select keeps the bits on which the branches agree and gives x elsewhere; known output bits do not change when the unknown bits of the select and the branches become known.", "quantifier": "all widths, all selects, branches and previous contents of the result", "why_tests_cant": "4^(2n+1) inputs", "anchors": ["include/logic/logic.hh:logic::x_set", "include/logic/logic.hh:logic::z_set", "include/logic/logic.hh:logic::set_x", "include/logic/logic.hh:logic::set_z", "include/logic/logic.hh:logic::set", "include/logic/logic.hh:logic::operator bool"]}
{"id": "C182", "title": "powers by repeated squaring", "statement": "r = 1; b = a; for every bit of e: if (e[i]) r = r * b; b = b * b gives a^e modulo 2^n on unsigned vectors and never faults.", "quantifier": "all widths, bases, exponents of any width", "why_tests_cant": "the intermediate squares overflow the int of the promoted product only for particular bases; wide products need particular limb patterns", "anchors": ["include/logic/bit.hh:bit::operator*", "include/logic/bit.hh:bit::operator[]"]}
{"id": "C183", "title": "digits in any base by repeated division", "statement": "Repeated % and / by a base y >= 2 gives the digits of every unsigned number, the loop that stops at 0 ends and has no leading zeros, and Horner's rule over the digits gives the number back.", "quantifier": "all widths, numbers, bases, number of digits", "why_tests_cant": "unbounded numbers of digits; wide division is wrong only for particular patterns", "anchors": ["include/logic/bit.hh:bit::operator/", "include/logic/bit.hh:bit::operator%", "include/logic/bit.hh:bit::operator*", "include/logic/bit.hh:bit::operator+", "include/logic/bit.hh:bit::operator bool"]}
{"id": "C184", "title": "shifting in stages", "statement": "Shifting by 2^k for every bit k of the amount that is set gives the shift by the amount.", "quantifier": "all widths above one, all amounts that the shift is defined for, all values", "why_tests_cant": "amounts times values times widths", "anchors": ["include/logic/bit.hh:bit::operator<<", "include/logic/bit.hh:bit::operator[]"]}
{"id": "C185", "title": "decoder and priority encoder", "statement": "bit<n-1,0>(1) << a has exactly bit a set; a loop over the bits gives the index of the highest one at every width and -1 for 0, agrees with highest_bit, and gives a back for the decoder's output.", "quantifier": "all widths, all values", "why_tests_cant": "2^n values and all widths", "anchors": ["include/logic/bit.hh:bit::operator<<", "include/logic/bit.hh:bit::operator[]", "include/logic/bit.hh:bit::highest_bit"]}
{"id": "C186", "title": "parity check by r_xor", "statement": "Flipping the bits of e in a word without x and z changes r_xor exactly if e has an odd number of ones; with an x or z in either the check gives x.", "quantifier": "all native widths above one, all words and error patterns", "why_tests_cant": "4^(2n) pairs", "anchors": ["include/logic/logic.hh:logic::r_xor", "include/logic/logic.hh:logic::operator^"]}
{"id": "C187", "title": "index arithmetic in int", "statement": "For every range with nonnegative int bounds the int expressions that compute bit positions do not overflow: reads and writes at an index of the range, logic reads at any index, run-time slices between nonnegative ends, run-time slice assignment inside the range, unpacked array reads at indices in range. For every other index the overflow condition is exact.", "quantifier": "all ranges, all indices, all values and operands", "why_tests_cant": "the overflow lies at indices near 2^31 and at ranges whose bounds are near 2^31; undefined behaviour need not show in a run", "anchors": ["include/logic/bit.hh:bit::get_", "include/logic/bit.hh:bit::set", "include/logic/bit.hh:bit::slice_", "include/logic/bit.hh:bit::update_", "include/logic/logic.hh:logic::operator[]", "include/logic/logic.hh:logic::update_", "include/logic/array.hh:unpacked_array::operator[]"]}
{"id": "C188", "title": "lifetimes of vectors behind slice references", "statement": "No assignment through a slice reference goes to a vector that has been destroyed, in programs with nested scopes, functions that return references and references of temporaries; and every vector that is alive at the end holds what the program means.", "quantifier": "all programs of declarations, references, assignments and nested blocks; all values, bounds and widths", "why_tests_cant": "a dangling reference usually still works in a run, and nesting is unbounded", "anchors": ["include/logic/bit.hh:slice_ref_fixed", "include/logic/bit.hh:slice_ref_runtime", "include/logic/bit.hh:bit::slice_ref", "include/logic/logic.hh:logic::slice_ref"]}
{"id": "C189", "title": "unpack into the vector itself or into one variable twice", "statement": "`x.unpack(a, b, ...)` has the same outcome whether or not variables are named twice or `x` itself is among them; every named variable then holds the field of its first mention as `x` had it before the call, and no other variable changes.", "quantifier": "all widths, signednesses, lists of variables (any repetition) and 4-state contents", "why_tests_cant": "the tests unpack into distinct variables only, and the number of arguments is unbounded", "anchors": ["include/logic/logic.hh:logic::unpack", "include/logic/logic.hh:logic::unpack_", "include/logic/util.hh:reverse_tuple"]}
{"id": "C190", "title": "objects in memory", "statement": "A `bit` of n bits takes the least power of two of bytes that has n bits, up to 64 bits, and the least multiple of 8 bytes above; a `logic` takes twice that, an unpacked array the sum of its elements. No byte is padding: bit i of the value is bit i mod 8 of byte i / 8 and its x/z mark lies sizeof(bit) bytes later, so objects with equal bytes are equal, and objects with equal bits have equal bytes. A packed array is never larger than the unpacked one.", "quantifier": "every width, signedness, array range and content", "why_tests_cant": "the tests check sizeof for eight types and never look at bytes; the layout is a family over all widths", "anchors": ["include/logic/bit.hh:bit", "include/logic/logic.hh:logic", "include/logic/big_num.hh:big_num", "include/logic/array.hh:packed_array", "include/logic/array.hh:unpacked_array"]}
{"id": "C191", "title": "overload sets", "statement": "Every call of an overloaded member selects exactly one body: each size and signedness has one holder type (the smallest that fits), one `to_num` for native sizes, one `slice` for each pair of indices in range, one `extend` for each size, one form of each binary operator for each pair of ranges, and one `update<hi, lo>` and `get<i>` for indices in range. No call is ambiguous.", "quantifier": "every range, size, signedness and template index", "why_tests_cant": "a test instantiates a handful of types; a call for which no overload is viable does not compile and so cannot appear in a test", "anchors": ["include/logic/util.hh:get_holder_type", "include/logic/util.hh:match_endian", "include/logic/util.hh:native_num", "include/logic/bit.hh:slice", "include/logic/bit.hh:extend", "include/logic/bit.hh:to_num", "include/logic/bit.hh:update", "include/logic/logic.hh:update"]}
{"id": "C192", "title": "packed arrays of packed arrays", "statement": "A packed array of packed arrays of any depth has the bits of its elements and no others, each element at its SystemVerilog place (last dimension fastest). `a[i]` is the inner array i, `a[i][j]` its element j, and `a.update(i, row)` replaces inner array i and nothing else.", "quantifier": "any number of dimensions, any ranges, element widths and contents", "why_tests_cant": "the tests check the sizeof of one two-dimensional type and never index it", "anchors": ["include/logic/array.hh:get_array_type", "include/logic/array.hh:get_array_base_type", "include/logic/array.hh:packed_array"]}
{"id": "C193", "title": "expressions in a wider context", "statement": "An expression over + - * & | ^ ~ assigned or extended to a wider vector has the bits SystemVerilog gives it, where the operands are extended to the width of the target before the operations (c = a + b keeps the carry).", "quantifier": "any expression, any operand widths, target widths and canonical values", "why_tests_cant": "the tests compute single operators and compare at the width of the operands", "anchors": ["include/logic/bit.hh:bit_operator::extend", "include/logic/bit.hh:operator=", "include/logic/bit.hh:operator+", "include/logic/bit.hh:operator~"]}
{"id": "C194", "title": "reductions of complements", "statement": "The reductions obey De Morgan's laws: (~x).r_or() equals x.r_nand() and (~x).r_and() equals x.r_nor(), for 2-state vectors and, with x and z, for 4-state vectors.", "quantifier": "any width, any declared range, any canonical value", "why_tests_cant": "the tests check single reductions on literals; the law is about every value at every width, and it fails at one value per width only", "anchors": ["include/logic/bit.hh:bit::r_and, bit::r_or, bit::operator~", "include/logic/logic.hh:logic::r_and, logic::r_or, logic::operator~"]}
{"id": "C195", "title": "absolute value, minimum, maximum, clamp", "statement": "Written with <, > and unary minus, x < 0 ? -x : x is the absolute value of x, and x < y ? x : y, x > y ? x : y and min(max(x, lo), hi) are the minimum, the maximum and the number nearest to x between lo and hi.", "quantifier": "any width above one, any canonical values, lo not above hi", "why_tests_cant": "the tests compare and negate single literals; the least number of each width is the case that decides, and it behaves in three ways depending on the width", "anchors": ["include/logic/bit.hh:bit::operator<, bit::operator>, bit::operator-", "include/logic/big_num.hh:big_num::operator>"]}
{"id": "C196", "title": "laws of the 4-state bitwise operators", "statement": "Every law of the IEEE 4-state tables for ~, &, | and ^ (commutativity, associativity, distributivity, De Morgan, and all others) holds of logic vectors: both sides give results for which match is true.", "quantifier": "any width, any pair of expressions of any depth with the same IEEE value on all single bits, any canonical unsigned operands", "why_tests_cant": "the tests apply one operator to a few literals; a law is about all operands and the property about all laws", "anchors": ["include/logic/logic.hh:logic::operator~, logic::operator&, logic::operator|, logic::operator^, logic::match"]}
{"id": "C197", "title": "undefined behaviour of arithmetic, exactly", "statement": "Native +, -, *, /, % and unary - on canonical operands of one width are undefined behaviour exactly if C++ computes them in a signed type that cannot hold the exact result, or the divisor is 0; every other call returns. Wide vectors are undefined only in products whose limbs reach past the storage. 4-state operands with an x or z, and 4-state divisions by 0, always return.", "quantifier": "any width, any mix of signedness, any canonical operands", "why_tests_cant": "the tests use a handful of small operands; undefined behaviour depends on the operands, the width and both signs, and a test that triggers it need not fail", "anchors": ["include/logic/bit.hh:bit::operator+, operator-, operator*, operator/, operator%", "include/logic/logic.hh:logic::operator+, operator-, operator*, operator/, operator%", "include/logic/big_num.hh:big_num::operator*, div_mod"]}
{"id": "C198", "title": "case statements with wildcards", "statement": "Loops over x_set, z_set, operator[] and ^ give case, casez, casex and ==? as IEEE 1800 defines them: no step faults, the first item that fits is taken, and ==? is 0, 1 or x; without wildcards the loop agrees with match. An item that casex passes over differs from the expression however the unknown bits turn out.", "quantifier": "any width, any contents, any list of items", "why_tests_cant": "the tests call x_set and z_set on single literals; a case statement depends on every bit of every item", "anchors": ["include/logic/logic.hh:logic::x_set, logic::z_set, logic::operator[], logic::operator^, logic::match"]}
{"id": "C199", "title": "Hamming code", "statement": "A single error correcting code written with operator[], set, ^ and to_num is right at every width: the encoder never faults, keeps every bit whose index is not a power of two and makes the checksum 0; the corrector leaves an encoded vector alone and restores it after a change of any one bit but bit 0; a change of any two bits makes the checksum nonzero.", "quantifier": "any width up to 2^31, signed or not, any contents, any position of the error", "why_tests_cant": "the corrector must be right for every vector and every position; the tests set and read a few literal indices", "anchors": ["include/logic/bit.hh:bit::operator[], bit::set, bit::operator^, bit::operator bool, bit::to_num"]}
{"id": "C200", "title": "Ring buffer in a packed array", "statement": "A queue kept in a packed array with two 32-bit 4-state pointers (compare, step, wrap) and one slot left free answers every sequence of pushes and pops exactly as a list of at most D-1 values, with no undefined behaviour; a queue that uses every slot must do the same with D values.", "quantifier": "any element width, any number of slots, any sequence of requests of any length, any 4-state values (known from bit 64 up), any initial memory", "why_tests_cant": "the neighbour's lowest bit is only lost when the queue is full and has wrapped; the tests write one element of a small array and never run a client for long", "anchors": ["include/logic/logic.hh:logic::operator==, logic::operator+, logic::operator bool", "include/logic/array.hh:packed_array::operator[], packed_array::update"]}
{"id": "C201", "title": "Binary to decimal by shifting and adding three", "statement": "The shift-and-add-three circuit (slice each digit, add 3 if it is at least 5, assign it back, shift the register, set bit 0) over all bits of a number ends with no undefined behaviour and leaves in each 4-bit digit the decimal digit of the number; digits that do not fit are dropped.", "quantifier": "any width of the number, any number of digits, native or limb-based registers, any number", "why_tests_cant": "six operations interact in every step and a wrong bit in any digit spreads to the ones above; the tests use each operation once on small literals", "anchors": ["include/logic/bit.hh:bit::slice (run-time), bit::update, bit::operator>=, bit::operator+, bit::operator<<, bit::operator[], bit::set"]}
{"id": "C202", "title": "Counting ones in parallel", "statement": "The divide-and-conquer count x = (x & m) + ((x >> 2^l) & m), with masks that select every second group of 2^l bits, over the levels up to the width, ends with the number of ones of x and no undefined behaviour.", "quantifier": "any width above one up to 2^31, a power of two or not, native or limb-based, any contents, also not canonical", "why_tests_cant": "the fields of a level must not spill into each other at any width, also in the cut-off top field; the tests count no ones this way", "anchors": ["include/logic/bit.hh:bit::operator&, bit::operator>>, bit::operator+", "include/logic/big_num.hh:big_num::operator&, big_num::operator>>, big_num::operator+"]}
{"id": "C203", "title": "Addition with saved carries", "statement": "Reducing three numbers to two with s = a ^ b ^ c and t = ((a & b) | (a & c) | (b & c)) << 1, over any list of numbers, and adding the last two gives the sum of all modulo 2^n.", "quantifier": "any width, any list of any length, any contents", "why_tests_cant": "the identity mixes bitwise operators, a shift and the ripple-carry sum at every width; the tests add pairs of literals", "anchors": ["include/logic/bit.hh:bit::operator&, bit::operator|, bit::operator^, bit::operator<<, bit::operator+"]}
{"id": "C204", "title": "Inverse of an odd number by Newton's iteration", "statement": "x = a; x = x * (2 - a * x); repeated k times with n <= 3 * 2^k gives the inverse of an odd a modulo 2^n.", "quantifier": "any width above one, any odd number, any sufficient number of steps", "why_tests_cant": "the intermediate values run through the whole range, which is where the products leave int or the limb array; the tests multiply small literals", "anchors": ["include/logic/bit.hh:bit::operator*, bit::operator-", "include/logic/big_num.hh:big_num::operator*"]}
{"id": "C205", "title": "Writing with byte enables", "statement": "for each group b: if (en[b]) x.update(hi, lo, v.slice(hi, lo)): a group whose enable is 1 receives the group of v, x and z included; every other group, also one whose enable is x or z, is unchanged.", "quantifier": "any group width, any number of groups, any contents of the enables, of the data and of the target", "why_tests_cant": "the tests neither slice at run-time bounds inside a loop nor use an x or z as a condition", "anchors": ["include/logic/logic.hh:logic::operator[], logic::slice(a,b), logic::update(a,b,op), logic::operator bool"]}
{"id": "C206", "title": "Decimal text through a register of decimal digits", "statement": "The hexadecimal text of the register that the shift-and-add-three circuit fills is the decimal numeral of the number.", "quantifier": "any width of the number, any number of digits, every number", "why_tests_cant": "str(\"d\") is wrong from 2^128 on (C76), and no test prints a number of that size", "anchors": ["include/logic/logic.hh:logic(bit), logic::str", "src/util.cc:to_string(fmt, size, value, xz_mask)"]}
{"id": "C207", "title": "4-state shift register", "statement": "q = q << 1; q.set(0, d); repeated over any list of inputs leaves the inputs in their order, the last one at index 0, above them the old contents; the same with q.update(n-1, 1, q.slice(n-2, 0)) in place of the shift.", "quantifier": "any width above one, any contents, any list of inputs", "why_tests_cant": "the outcome depends on the whole history of the register, in particular on its never having been set; the tests shift known literals once", "anchors": ["include/logic/logic.hh:logic::operator<<, logic::set(int, logic<0>), logic::update(a,b,op), logic::slice(a,b)"]}
{"id": "C208", "title": "Majority of three replicas", "statement": "(a & b) | (a & c) | (b & c) is v at every bit where two of the three replicas hold v, whatever the third one holds.", "quantifier": "any width, all 4-state values", "why_tests_cant": "64 combinations per bit position; the tests of & and | use one or two literals", "anchors": ["include/logic/logic.hh:logic::operator&, logic::operator|"]}
{"id": "C209", "title": "Addition with a parallel prefix network", "statement": "g = a & b; p = a ^ b; for (k = 1; k < n; k *= 2) { g = g | (p & (g << k)); p = p & (p << k); } gives the carries: a ^ b ^ (g << 1) is the sum.", "quantifier": "any width above one, all operands", "why_tests_cant": "the network has a different depth at every power of two; the tests combine at most two operators on literals", "anchors": ["include/logic/bit.hh:bit::operator&, bit::operator|, bit::operator^, bit::operator<<"]}
{"id": "C210", "title": "Register of flags", "statement": "After any list of commands f = f | m and f = f & ~m every flag holds what the last command whose mask names it has put there.", "quantifier": "any width, any contents, any list of commands with masks of 0 and 1", "why_tests_cant": "the outcome depends on the history of each flag; the tests apply & and | once", "anchors": ["include/logic/logic.hh:logic::operator&, logic::operator|, logic::operator~"]}
{"id": "C211", "title": "Numbers of several vectors", "statement": "Limb by limb, s = a + b; r = s + c; c = s < a || r < s; adds two numbers kept in lists of vectors, the carry out included.", "quantifier": "any width above one, any number of limbs, all values", "why_tests_cant": "a lost carry shows only if a sum leaves the width of a limb, and then depends on the storage behind it; the tests add small literals", "anchors": ["include/logic/bit.hh:bit::operator+, bit::operator<"]}
{"id": "C212", "title": "The one's complement checksum", "statement": "Adding words with the carry out added back at the bottom, t = s + w; t = t + (t < s);, gives a checksum that agrees with the sum of the words modulo 2^n - 1, does not depend on the order of the words, and makes a packet with the complement of its checksum at any place add up to all ones.", "quantifier": "any width above one, any number of words in any order, all values", "why_tests_cant": "a lost carry shows only when a running sum leaves the width, and the independence of the order is a statement about all permutations; the tests add two literals", "anchors": ["include/logic/bit.hh:bit::operator+, bit::operator<, bit::operator~"]}
{"id": "C213", "title": "Subtraction and comparison of numbers of several vectors", "statement": "Limb by limb, s = a - b; r = s - c; c = s > a || r > s; subtracts two numbers kept in lists of canonical vectors, and the borrow out is the order of the two numbers.", "quantifier": "any width above one, any number of limbs, all canonical values", "why_tests_cant": "a borrow that runs through several limbs needs equal middle limbs, and the test compares storage that holds more than the value at most widths; the tests subtract literals that fit", "anchors": ["include/logic/bit.hh:bit::operator-, bit::operator>"]}
{"id": "C214", "title": "Overflow and sign flags of an adder", "statement": "On unsigned vectors the bit ((a ^ s) & (b ^ s))[n-1] of the sum s = a + b says whether a + b overflows as signed numbers, ((a ^ b) & (a ^ d))[n-1] says it of the difference d = a - b, and d[n-1] != that flag is the signed order of a and b.", "quantifier": "any width above one, all stored values", "why_tests_cant": "overflow needs operands of particular signs and magnitudes, and the flag is a bit of stored intermediate results that carry more than the value; the tests look at no flag", "anchors": ["include/logic/bit.hh:bit::operator+, bit::operator-, bit::operator^, bit::operator&, bit::get"]}
{"id": "C215", "title": "Comparator made of gates", "statement": "(a ^ b).r_nor() answers 1 exactly if both vectors are known and equal, 0 exactly if the lowest position that is not both known and equal holds two known different bits, and x otherwise; it agrees with == on known vectors and is never less precise than an == that sees the unknown bit.", "quantifier": "any width, all 4-state values", "why_tests_cant": "the answer depends on the order of unknown and different bits, which is exponential in the width; the tests compare known literals", "anchors": ["include/logic/logic.hh:logic::operator^, logic::r_nor, logic::operator=="]}
{"id": "C216", "title": "Round robin arbiter", "statement": "h = req & mask; g = h != 0 ? h & (~h + 1) : req & (~req + 1); mask = ~(g | (g - 1)); once per clock serves at most one, serves only requesters, serves someone whenever there is a request, and serves whoever asks during n clocks in a row in one of them.", "quantifier": "any width above one, every infinite sequence of canonical request vectors, every clock", "why_tests_cant": "fairness is a statement about all infinite runs; the tests execute no loop over such state", "anchors": ["include/logic/bit.hh:bit::operator&, bit::operator|, bit::operator~, bit::operator+, bit::operator-, bit::operator!="]}
{"id": "C217", "title": "4-state accumulator with reset", "statement": "if (rst) q = 0; else q = q + d; once per clock from a default constructed logic: every bit is x until the first reset, then q holds the sum since the last reset, until an unknown summand makes every bit x again; an x reset is no reset.", "quantifier": "any width above one, every sequence of reset bits and summands", "why_tests_cant": "the state depends on the whole history of resets and unknown summands; the tests run no register", "anchors": ["include/logic/logic.hh:logic::logic, logic::operator bool, logic::operator+, logic::operator="]}
{"id": "C218", "title": "Booth multiplication", "statement": "The loop that subtracts the shifted multiplicand at the start of a run of ones of the multiplier and adds it after its end multiplies by the signed value of the multiplier; with the multiplicand sign extended to the sum of the widths it gives the exact product of two signed numbers.", "quantifier": "any width of accumulator, multiplicand and multiplier, all values", "why_tests_cant": "the product of two signed numbers depends on sign extension, modular subtraction and the shift loop together; operator* of signed vectors is tested on small literals only", "anchors": ["include/logic/bit.hh:bit::get, bit::operator+, bit::operator-, bit::operator<<, bit::extend"]}
{"id": "C219", "title": "Decimal digits by shifts and additions", "statement": "The loop v = (v << 3) + (v << 1) + d over decimal digits from the most significant to the least computes the number with those digits modulo 2^n, and gives back every number below 2^n from its digits.", "quantifier": "any width above one bit, any number of digits, any start value", "why_tests_cant": "it depends on two shifts and two unmasked additions per digit over any number of digits; the tests read a few literals of small width", "anchors": ["include/logic/bit.hh:bit::operator<<, bit::operator+", "include/logic/big_num.hh:big_num::operator<<, big_num::operator+"]}
{"id": "C220", "title": "Multiplication modulo a number by doubling and adding", "statement": "The loop that doubles, adds the multiplicand for each one of the multiplier and subtracts the modulus when the sum is not below it computes a * b mod m.", "quantifier": "any width of the factors, all moduli above the multiplicand", "why_tests_cant": "it depends on comparison of sums that have left the width, at every width and modulus; the tests never compare an unmasked sum", "anchors": ["include/logic/bit.hh:bit::operator+, bit::operator-, bit::operator<, bit::get", "include/logic/big_num.hh:big_num::operator+, big_num::operator-, big_num::operator<"]}
{"id": "C221", "title": "Greatest common divisor without division", "statement": "The loop that halves b while it is even and otherwise subtracts the smaller from the greater number ends within four rounds per bit of the width, with the greatest common divisor of an odd a and any b.", "quantifier": "any width above one bit, all clean values", "why_tests_cant": "termination and the result depend on order, difference and shift together over any number of rounds; the tests have no loops over values", "anchors": ["include/logic/bit.hh:bit::operator>, bit::operator-, bit::operator>>, bit::get", "include/logic/big_num.hh:big_num::operator>, big_num::operator-, big_num::operator>>"]}
{"id": "C222", "title": "The high half of a product from half products", "statement": "The four products of the halves of two vectors of 2h bits, added with their carries, give the upper 2h bits of the product, without undefined behaviour.", "quantifier": "every half width h from 1 to 64 bits (the widths at which the mask of a half is a uint64_t), all values, also those with bits above the width", "why_tests_cant": "products of 16 bit vectors overflow int and wide products lose chunks for some operands; the tests multiply small literals only", "anchors": ["include/logic/bit.hh:bit::operator*, bit::operator+, bit::operator>>, bit::operator&", "include/logic/big_num.hh:big_num::operator*, big_num::operator>>"]}
{"id": "C223", "title": "Powers modulo a number by squaring", "statement": "Squaring and multiplying with the loop of C220, from the highest bit of the exponent to the lowest, gives a to the power e modulo m, without a product or a division and without undefined behaviour.", "quantifier": "every width above one bit, every modulus and every base up to it, every exponent of any width", "why_tests_cant": "the result depends on bits that + leaves above the width between the rounds; the tests have no loops over values", "anchors": ["include/logic/bit.hh:bit::operator+, bit::operator-, bit::operator<, bit::operator[]"]}
{"id": "C224", "title": "Rounds of a block cipher undo themselves", "statement": "Replacing the halves (l, r) of a block by (r, l ^ f(r)), for a list of arbitrary functions f written against the library, and going back through the list gives the original halves, object for object with the storage above the width, and every block is reached exactly once. On 4-state halves, with functions in which unknown bits of the argument can only make bits of the result unknown, every bit that comes back known is right, even if bits were lost to x or z on the way; with functions that give known bits for known bits, known blocks come back.", "quantifier": "every width, every number of rounds, all round functions including ones that leave bits above the width, all blocks", "why_tests_cant": "the functions are arbitrary and may leave bits above the width that ^ carries along; the tests have no programs of several rounds", "anchors": ["include/logic/bit.hh:bit::operator^", "include/logic/logic.hh:logic::operator^"]}
{"id": "C225", "title": "Synchronous circuits that start from x", "statement": "Registers that take the values of expressions of ~, &, | and ^ over the registers and the inputs, all at once in every cycle, are simulated with x in them. A bit that is known after some cycles has that value in the circuit of 0 and 1 from every start that the known bits allow; so if all registers end up known from all x, the inputs bring the circuit into one state from every start.", "quantifier": "every width, any number of registers, inputs and cycles, all expressions, all starts", "why_tests_cant": "the starts to compare with are exponentially many and the cycles unbounded; the tests have no circuits", "anchors": ["include/logic/logic.hh:logic::operator&, logic::operator|, logic::operator^, logic::operator~"]}
{"id": "C226", "title": "Zigzag code of signed numbers", "statement": "(x << 1) ^ x.ashr(n - 1) is 2x for x at least 0 and -2x - 1 for negative x, and (u >> 1) ^ (0 - (u & 1)) gives the bits of x back.", "quantifier": "every width above one bit, every value, amounts of any native type", "why_tests_cant": "<< leaves bits above the width that the later >> must not see, and ashr differs between native and wide values; the tests shift by single constants", "anchors": ["include/logic/bit.hh:bit::operator<<, bit::ashr, bit::operator>>, bit::operator^, bit::operator-", "include/logic/big_num.hh:big_num::ashr"]}
{"id": "C227", "title": "Division by a constant with a product", "statement": "(x * m) >> k gives what x / d gives, if m is the least number with m * d at least 2^k, for all x below 2^j if 2^k is at least 2^j * d; in general exactly if x * (m * d - 2^k) < (d - x % d) * 2^k.", "quantifier": "every width, every x, d, m and k whose product fits in the width", "why_tests_cant": "the condition is an inequality between all of x, d, m and k; the tests have a few products and quotients of constants", "anchors": ["include/logic/bit.hh:bit::operator*, bit::operator>>, bit::operator/", "include/logic/big_num.hh:big_num::operator*, big_num::operator>>, big_num::operator/"]}
{"id": "C228", "title": "Products in fields of characteristic two", "statement": "Shifting left, reducing by ^ when the highest bit was set and adding by ^ for every one of the multiplier gives the product of the polynomials with coefficients 0 and 1 modulo X^n + p (AES, Reed-Solomon, GHASH); the product is commutative, associative and distributes over ^.", "quantifier": "every width above one bit, every polynomial p, all operands with whatever lies above the width, multipliers of any width and signedness", "why_tests_cant": "the product is an algebraic object over all polynomials; << leaves bits above the width that must not matter; the tests have no loops over values", "anchors": ["include/logic/bit.hh:bit::operator<<, bit::operator^, bit::operator[]"]}
{"id": "C229", "title": "Inverses in fields of characteristic two", "statement": "Multiplying by a and squaring, n - 1 times from 1, with the product of C228, gives the power 2^n - 2 of a, and its product with a is 1 if X^n + p is irreducible and a is not 0 (the S-box of AES).", "quantifier": "every width above one bit, every polynomial p, all operands", "why_tests_cant": "the claim is about all fields with 2^n elements; the tests have no loops over values", "anchors": ["include/logic/bit.hh:bit::operator<<, bit::operator^, bit::operator[]"]}
{"id": "C230", "title": "Logarithm by halving", "statement": "Shifting right by 2^i for i = k-1 down to 0, keeping the shifted vector and setting bit i of the result whenever it is not below 1, gives the position of the highest one of the vector, for 2^(k-1) < n <= 2^k. With the conversion to bool for the test this is so up to 64 bits; of 128 bits it gives 36 for 2^100.", "quantifier": "every width above one bit, every vector that is not zero", "why_tests_cant": "the claim is about every width and every position; the tests have no loops over values", "anchors": ["include/logic/bit.hh:bit::operator>>, bit::operator<, bit::operator bool, bit::set", "include/logic/big_num.hh:big_num::any_set"]}
{"id": "C231", "title": "The sign of a field, and an arithmetic shift without ashr", "statement": "With m = 1 << (k-1), (x ^ m) - m is the signed number that a field of k bits at the bottom of x is. A right shift by a followed by this with k = n - a is the arithmetic shift, the number divided by 2^a and rounded down, of wide vectors too, whose ashr loses a copy of the sign.", "quantifier": "every width above one bit, every field width, every amount below the width, all operands", "why_tests_cant": "the claim is about every width and amount; the tests compare a few values", "anchors": ["include/logic/bit.hh:bit::operator<<, bit::operator>>, bit::operator^, bit::operator-"]}
{"id": "C232", "title": "The order of signed numbers by the order of unsigned ones", "statement": "If only the highest bit of m is set, (x ^ m) < (y ^ m) of unsigned vectors is true exactly if x is below y as signed numbers, of every width, and never faults; < of signed wide vectors does not end for two smallest numbers.", "quantifier": "every width, all canonical operands", "why_tests_cant": "the claim is about all pairs of numbers of every width; the tests compare a few values", "anchors": ["include/logic/bit.hh:bit::operator^, bit::operator<", "include/logic/big_num.hh:big_num::operator<"]}
{"id": "C233", "title": "The IEEE tables of & and | from the operators of the library", "statement": "~(~a | ~(~~b & a)) and ~~a | (b | (a ^ b)) give the entries of the IEEE tables of & and | for all operands, x and z included. Every client expression, with its & and | replaced by these, computes what the tables say, every law of the tables holds between rewritten expressions, and a rewritten synchronous circuit never shows a known bit that is wrong. No expression of &, ~ and ^ alone computes either table.", "quantifier": "every width, all operands, expressions of every size, every circuit and any number of cycles", "why_tests_cant": "the claim is about expressions of every size and all 4-state operands; the tests apply the operators to a few vectors", "anchors": ["include/logic/logic.hh:logic::operator&, logic::operator|, logic::operator^, logic::operator~"]}
{"id": "C234", "title": "A multiplexer made of gates", "statement": "((s & a) | (~s & b)) | (a & b), rewritten as in C233, computes s ? a : b of IEEE 1800 at every bit for all operands, x and z included. Without the third term it does so at exactly the bits at which the select is known or not both operands are 1. A tree of such multiplexers is known wherever all inputs that the known selects leave open are known and agree. With & and | as they are it gives 1 for an unknown select and two zeros.", "quantifier": "every width, all operands, trees of every depth", "why_tests_cant": "the claim is about trees of every depth with unknown selects; the tests apply the operators to a few vectors", "anchors": ["include/logic/logic.hh:logic::operator&, logic::operator|, logic::operator~"]}
{"id": "C235", "title": "Many additions at a time on bit planes", "statement": "The gates of a ripple adder, applied to vectors that hold one digit of n numbers each and rewritten as in C233, add all n pairs of numbers: a known digit of a result, and the carry out, is that digit of the sum for all digits that the known ones allow, and all digits are known if those of the operands are.", "quantifier": "every number of lanes and of digits, all planes, x and z included", "why_tests_cant": "the claim is about any number of digits and all 4-state operands; the tests apply the operators to a few vectors", "anchors": ["include/logic/logic.hh:logic::operator&, logic::operator|, logic::operator^, logic::operator~"]}
{"id": "C236", "title": "Which operators are enough for the IEEE tables", "statement": "Over a subset of the 4-state operators &, |, ^, ~ of the library, some expression computes the IEEE table of & for all operands if and only if the subset has | and either ^ or both & and ~; some expression computes the table of | if and only if the subset has | and one of ^ and &.", "quantifier": "every width, all subsets, expressions of every size with any number of variables, all 4-state operands", "why_tests_cant": "the claim is about all expressions of every size", "anchors": ["include/logic/logic.hh:logic::operator&, logic::operator|, logic::operator^, logic::operator~"]}
