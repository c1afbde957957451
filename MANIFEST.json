{
 "claims": [
  {
   "property": "C01",
   "status": "proved",
   "theorems": [
    "Verif.C01_read",
    "Verif.C01_write_read",
    "Verif.C01_history"
   ],
   "note": "C01_read: `operator[]` of a `bit<n-1,0>` never faults in range and reads bit `i`. This is what makes `Bits.bv` the observable content of a 2-state object. | C01_write_read: C01. On `bit<n-1,0>`: after `set(i, v)` (with a `bool` or a `bit<0>`), index `i` reads `v` and every other index reads what it read before; nothing faults. | C01_history: C01, histories. After any sequence of in-range writes every index reads the last value written there, or its initial value."
  },
  {
   "property": "C02",
   "status": "partial",
   "theorems": [
    "Verif.C02_read_exact",
    "Verif.C02_read_ok",
    "Verif.C02_write_read_partial",
    "Verif.C02_read_refuted"
   ],
   "note": "C02_read_exact: C02, exact reads. `operator[]` of a `logic<n-1,0>` reads the 4-state bit at `i`, except that an x or z at an index of 64 or more is a shift beyond the width of `uint64_t` (the result object is one bit wide but is written at index `i`). | C02_read_ok: Reading at all indices is safe for values of at most 64 bits and for values without x/z above index 63. | C02_write_read_partial: C02, writes. `set(i, v)`, `set_x(i)`, `set_z(i)` and `set(i, w)` never fault; position `i` then holds `v`, x, z, `w` and every other position what it held. Together with `C02_read_exact` this is the property for every read the code defines; missing: reads of x/z at indices of 64 and more, which are undefined behaviour. | C02_read_refuted: C02 is false of the code. For every width above 64 there is a value and an in-range index whose read is undefined behaviour: after `set_x(64)`, reading index 64."
  },
  {
   "property": "C03",
   "status": "partial",
   "theorems": [
    "Verif.C03_ascending_bit",
    "Verif.C03_ascending_logic_partial",
    "Verif.C03_logic_refuted"
   ],
   "note": "C03_ascending_bit: C03, 2-state. On `bit<0,n-1>` a write at `i` is read back at `i` and changes the reading at no other index. | C03_ascending_logic_partial: C03, 4-state. On `logic<0,n-1>`, `set(i, w)` is read back at `i` and changes the reading at no other index. Missing: reading back an x or z at an index of 64 and more, which is undefined (`C03_logic_refuted`). | C03_logic_refuted: C03 is false for 4-state values of more than 64 bits: on `logic<0, n-1>`, after `set_x(i)` or `set_z(i)` with `i` of 64 and more, reading index `i` is undefined behaviour, whatever the value was."
  },
  {
   "property": "C04",
   "status": "partial",
   "theorems": [
    "Verif.C04_base_bit_partial",
    "Verif.C04_base_logic_partial",
    "Verif.C04_base_refuted",
    "Verif.C04_base_refuted_all",
    "Verif.C04_base_iff",
    "Verif.C04_logic_iff"
   ],
   "note": "C04_base_bit_partial: C04, 2-state, ranges that contain 0 as lower bound. The write at `i` is read back at `i` and at no other index. Missing: ranges with another low bound, for which the property is false (`C04_base_refuted`). | C04_base_logic_partial: 4-state write and read-back on any range that starts at 0. Missing: ranges with another low bound, for which it is false (`C04_logic_iff`), and reading back an x or z at an index of 64 and more, which is undefined (`C02_read_refuted`). | C04_base_refuted: C04 is false of the code. On `bit<4,1>` a write at index 2 is read back at index 1, not at index 2; on `bit<1,4>` a write at 3 is not read back either. | C04_base_refuted_all: C04, every range with another low bound. Whatever the bounds, if the low bound is not 0 there is a declared index at which writing 1 into the zero value is not read back as 1. | C04_base_iff: C04, exactly. A 2-state range with `int` bounds reads back every write, and nothing else changes, if and only if its low bound is 0. | C04_logic_iff: C04, 4-state, exactly. A `logic` of a range with `int` bounds reads back every known bit that is written, if and only if its low bound is 0."
  },
  {
   "property": "C05",
   "status": "proved",
   "theorems": [
    "Verif.C05_read_out_of_range"
   ],
   "note": "C05_read_out_of_range: C05. Reading a `logic` of any range outside its bounds yields a single x and never faults."
  },
  {
   "property": "C06",
   "status": "partial",
   "theorems": [
    "Verif.C06_write_out_of_range_partial",
    "Verif.C06_native_refuted",
    "Verif.C06_ascending_refuted",
    "Verif.C06_native_exact",
    "Verif.C06_native_iff",
    "Verif.C06_one_bit",
    "Verif.C06_logic_wide_partial",
    "Verif.C06_logic_native_exact"
   ],
   "note": "C06_write_out_of_range_partial: C06 for wide values. On every descending range, and on every range with low bound 0, an out-of-range `set` leaves the whole object unchanged. Missing: native values (`C06_native_refuted`) and ascending ranges with another low bound (`C06_ascending_refuted`). | C06_native_refuted: C06 is false for native values. On `bit<3,0>`, `set(5, true)` makes the value unequal to what it was although all its bits are unchanged; on `bit<0,0>` it changes bit 0; at index 64 it is undefined. | C06_ascending_refuted: C06 is false for ascending ranges with a non-zero low bound. On `bit<1,100>` a write at index 0 changes bit 99. | C06_native_exact: C06, native values of `[n-1:0]`, every index outside the range. A negative index or one from 64 on is an undefined shift. An index beyond the storage is ignored. An index in the padding of the storage changes that padding bit and nothing else, so the declared bits keep their values. | C06_native_iff: C06, which native widths are safe. For a native width above 1, every write to a canonical value at an index from the width to 63 is ignored if and only if the width is 8, 16, 32 or 64. | C06_one_bit: C06, one-bit values. Writing 1 at any index from 1 to 63 sets the single bit; writing 0 there is ignored. | C06_logic_wide_partial: C06, 4-state, wide. On every descending range, and on every range with low bound 0, `set`, `set_x`, `set_z` and `set` of a `logic<0>` at an index outside the range leave the whole object unchanged. Missing: native values, where it is false (`C06_logic_native_exact` says what happens), and ascending ranges with another low bound (`C06_ascending_refuted`). | C06_logic_native_exact: C06, 4-state, native `[n-1:0]`, every index outside the range. A negative index or one from 64 on is an undefined shift, one beyond the storage is ignored, one in the padding of the storage leaves the declared bits as they are, and changes that padding bit of both planes."
  },
  {
   "property": "C07",
   "status": "partial",
   "theorems": [
    "Verif.C07_default_partial",
    "Verif.C07_refuted"
   ],
   "note": "C07_default_partial: C07, partial. A default-constructed `bit` reads 0 at every index, a default-constructed `logic` holds x in every bit and reads x at every index below 64; its text is `n` times `x` unless `n` is a multiple of 64 above 64. Missing: the reads from index 64 on, which are undefined, and the text at multiples of 64 above 64, which is wrong (`C07_refuted`). | C07_refuted: C07, refuted. Reading a default-constructed wide `logic` at any index from 64 up shifts out of range; at multiples of 64 above 64 its text starts with 64 zeros."
  },
  {
   "property": "C08",
   "status": "proved",
   "theorems": [
    "Verif.C08_xor_table"
   ],
   "note": "C08_xor_table: C08. `a ^ b` on equal widths never faults and every bit is given by the IEEE xor table."
  },
  {
   "property": "C09",
   "status": "proved",
   "theorems": [
    "Verif.C09_not_table"
   ],
   "note": "C09_not_table: C09. `~a` never faults and every bit is given by the IEEE table."
  },
  {
   "property": "C10",
   "status": "partial",
   "theorems": [
    "Verif.C10_and_table_partial",
    "Verif.C10_and_table_refuted"
   ],
   "note": "C10_and_table_partial: C10, exact behaviour. `a & b` never faults; every bit is the IEEE table entry except for the three operand pairs listed in `andDeviation`. Missing: the table entries at those three pairs, which the code gets wrong (`C10_and_table_refuted`). | C10_and_table_refuted: C10 is false of the code. At every width there are operands for which some bit of `a & b` is not the table entry: `x & 0` gives x instead of 0."
  },
  {
   "property": "C11",
   "status": "partial",
   "theorems": [
    "Verif.C11_or_table_partial",
    "Verif.C11_or_table_refuted"
   ],
   "note": "C11_or_table_partial: C11, exact behaviour. `a | b` never faults; every bit is the IEEE table entry except for the two operand pairs listed in `orDeviation`. Missing: the table entries at those two pairs, which the code gets wrong (`C11_or_table_refuted`). | C11_or_table_refuted: C11 is false of the code. At every width, `x | 0` gives 1 instead of x."
  },
  {
   "property": "C12",
   "status": "partial",
   "theorems": [
    "Verif.C12_xor_mixed_partial",
    "Verif.C12_disjoint_partial",
    "Verif.C12_refuted"
   ],
   "note": "C12_xor_mixed_partial: C12, exact behaviour. `a ^ b` on different widths computes `|`. Missing: the table of `^`, which the code does not compute (`C12_refuted`). Not canonical operands are extended with their stored bits (C47); wide signed operands, which the property leaves out, are extended with ones (C48). | C12_disjoint_partial: C12 under the extra hypothesis that at no position both extended operands are 1 and none is x/z: there `|` and `^` agree. Missing: all other operands, where the result is that of `|` (`C12_xor_mixed_partial`, `C12_refuted`). | C12_refuted: C12 is false of the code for all pairs of widths: 1 ^ 1 gives 1."
  },
  {
   "property": "C13",
   "status": "partial",
   "theorems": [
    "Verif.C13_mixed_partial",
    "Verif.C13_known",
    "Verif.C13_refuted",
    "Verif.C13_x_asymmetric"
   ],
   "note": "C13_mixed_partial: C13, exact behaviour. `a & b` and `a | b` on different widths never fault and apply the tables of C10/C11 (with the same deviations) to the extended operands. A signed operand has to be native, because wide sign extension is broken (C48). Missing: the entries of `andDeviation` and `orDeviation`, where the code is wrong (`C13_x_asymmetric`), and operands that are not canonical (`C13_refuted`). | C13_known: C13 for operands without x/z: the tables hold without exception and the operators commute. | C13_refuted: C13 is false of the code for an operand that is not canonical: the low four bits of `logic<3, 0>(255)` are 15, but its conjunction with the 8-bit value 240 is 240. | C13_x_asymmetric: With an x operand the mixed-width `&` neither follows the table nor commutes."
  },
  {
   "property": "C14",
   "status": "proved",
   "theorems": [
    "Verif.C14_bitwise"
   ],
   "note": "C14_bitwise: C14. The 2-state operators `& | ^ ~` compute the boolean function on every bit, and the compound assignments never fault and compute the same."
  },
  {
   "property": "C15",
   "status": "partial",
   "theorems": [
    "Verif.C15_refuted_all",
    "Verif.C15_bitwise",
    "Verif.C15_shift",
    "Verif.C15_arith_partial",
    "Verif.C15_compare",
    "Verif.C15_refuted"
   ],
   "note": "C15_refuted_all: C15 is false at every wide width: dividing a known number by the known number `2^32` gives all x although the 2-state quotient is defined. | C15_bitwise: C15, bitwise operators. | C15_shift: C15, shifts. Whenever the 2-state shift is defined, the 4-state shift is defined, free of x/z and has its bits. | C15_arith_partial: C15, arithmetic. Whenever the 2-state operator is defined, so is the 4-state one, with a result free of x/z and the same value. For `/` and `%` the divisor has to pass the library's emptiness test. Missing: wide divisors that are not zero and fail that test, which give x (`C15_refuted_all`). | C15_compare: C15, comparison: the statement of C43 for operands without x/z. | C15_refuted: C15 is false of the code for division: dividing a known 70-bit number by the known number `2^32` gives all x although the 2-state quotient is defined."
  },
  {
   "property": "C16",
   "status": "partial",
   "theorems": [
    "Verif.C16_mul_wide_iff",
    "Verif.C16_across_widths_partial",
    "Verif.C16_reached_iff",
    "Verif.C16_reached_logic_iff",
    "Verif.C16_across_widths_logic_partial",
    "Verif.C16_signed_bitwise",
    "Verif.C16_signed_arith",
    "Verif.C16_signed_sum_iff",
    "Verif.C16_wide_iff",
    "Verif.C16_wide_cancel",
    "Verif.C16_full_widths",
    "Verif.C16_histories_partial",
    "Verif.C16_histories_logic_partial",
    "Verif.C16_refuted",
    "Verif.C16_add_iff",
    "Verif.C16_sub_iff",
    "Verif.C16_not_iff",
    "Verif.C16_shl_iff",
    "Verif.C16_expr_iff",
    "Verif.C16_refuted_all"
   ],
   "note": "C16_mul_wide_iff: C16 for wide `*`, exactly, for all signednesses. If the product of two canonical values is defined, it is canonical if and only if the number that the code computes (the product of the lowest 64 bits if both pass `fit_in_64()`, the product otherwise, `C30_wide_exact`) is below `2^n`. | C16_across_widths_partial: C16 for histories across widths, partial. Every object of a history over any widths is canonical, so two objects that read the same at every index are the same object and compare equal. Missing: `~`, sums that carry, differences that borrow, products, left shifts and assignments that leave the width; when they are canonical is `C16_not_iff`, `C16_add_iff`, `C16_sub_iff`, `C16_expr_iff`, `C16_mul_wide_iff`, `C16_shl_iff` and `C93_clean_iff`, that they need not be `C16_refuted_all`. | C16_reached_iff: C16, the canonical 2-state objects are the ones that histories make, at every width. | C16_reached_logic_iff: C16, the canonical 4-state objects are the ones that histories make, at every width. | C16_across_widths_logic_partial: C16 for 4-state histories across widths, partial. Both planes of every object of a history over any widths are canonical, so two objects with the same 4-state bits are the same object and match (`===`). Missing: sums, differences, products and left shifts of known values that leave the width (`C16_refuted`), and assignments. | C16_signed_bitwise: C16 for the bitwise operators on signed native objects, exactly. `& | ^` of two signed operands are canonical. With an unsigned right operand, whose result is unsigned, `&` is canonical, and `|` and `^` are if and only if the signed operand is not negative or the width is that of a C++ type. `~`, whose result is unsigned, is canonical if and only if the operand is negative or the width is that of a C++ type. | C16_signed_arith: C16 for `+ - * /` on signed native objects, exactly. Where the operation is defined, its result is canonical if and only if the exact result, reduced to the C++ type (8, 16, 32 or 64 bits), fits the width. | C16_signed_sum_iff: C16 for sums and differences of signed native objects, exactly. Where they are defined, they are canonical if and only if they do not overflow the width or the width is that of a C++ type. | C16_wide_iff: C16 for wide `+`, `-` and `~`, exactly, for all signednesses. | C16_wide_cancel: C16 is false for every wide signed sum that cancels: at every width that is no multiple of 64, the sum of a negative canonical number and its opposite reads 0 at every index and is not canonical, so it is not the object 0; its truth value (`any_set`) is true if the carry lies in the lower half of its limb. | C16_full_widths: C16 for the widths without spare storage bits (1, 8, 16, 32, 64 and the multiples of 64): every object whatsoever is canonical, so after any operations two objects with equal bits are the same object. | C16_histories_partial: C16 for histories of the operations above, at every width: every object is canonical, and two objects that read the same at every index are equal (`==`) and the same object. Missing: the operations that are not steps of `Reach2` because they leave bits above the width; when they do is `C16_add_iff`, `C16_sub_iff`, `C16_not_iff`, `C16_shl_iff` and `C16_expr_iff`. | C16_histories_logic_partial: C16, 4-state histories at every width: both planes stay canonical, and two objects with the same 4-state bits match (`match`, `===`). Missing: the operations that are not steps of `Reach4` because they leave bits above the width (`C16_refuted`, `C16_refuted_all`). | C16_refuted: C16 is false of the code. The 4-bit sum 15 + 1 reads 0 at every index but is not equal to 0; the 70-bit complement of all-ones reads 0 at every index but is not equal to 0 either; neither is the 4-bit `8 << 1`. | C16_add_iff: C16 for `+`, exactly. | C16_sub_iff: C16 for `-`, exactly. | C16_not_iff: C16 for `~`, exactly: the complement is canonical only in the widths without spare storage bits, whatever the vector. | C16_shl_iff: C16 for `<<`, exactly. Wide results are always canonical; a native one, shifted within the defined amounts, if and only if the product with `2^k`, cut to the holder (8, 16, 32 or 64 bits), fits the width. | C16_expr_iff: C16 for whole expressions over `+ - * & | ^ ~`, native widths: the value is canonical if and only if the expression, computed modulo the holder size, fits the width. | C16_refuted_all: C16 is false at every other width: `1 + (2^n - 1)` is not canonical, reads 0 and differs from 0, and no complement is canonical."
  },
  {
   "property": "C17",
   "status": "partial",
   "theorems": [
    "Verif.C17_and_partial",
    "Verif.C17_and_known",
    "Verif.C17_refuted",
    "Verif.C17_ascending_refuted"
   ],
   "note": "C17_and_partial: C17, exact. `r_and()` never faults (any descending range, or one that starts at 0) and it is the specified reduction exactly when no x/z bit, visited before any 0, has a 0 behind it: lines 488-496 return x at the first x/z. Missing: the values of the excepted shape, which give x instead of 0 (`C17_refuted`), and ascending ranges with a positive low bound (`C17_ascending_refuted`). | C17_and_known: C17 for values without x/z, and for values without 0: the specified answer. | C17_refuted: C17 is false of the code at every width above one: with an x in bit 0 and zeros above, the reduction must be 0 but the code says x. | C17_ascending_refuted: C17 is false on every ascending range with a positive low bound (canonical unsigned vectors). If the high bound is not below the width of the promoted type (32 or 64 bits; native vectors) `r_and` shifts by too much, which is undefined. Otherwise it is 0 whatever the vector holds."
  },
  {
   "property": "C18",
   "status": "partial",
   "theorems": [
    "Verif.C18_or_partial",
    "Verif.C18_or_known",
    "Verif.C18_refuted",
    "Verif.C18_ascending_refuted"
   ],
   "note": "C18_or_partial: C18, exact. `r_or()` is the specified reduction exactly when no x/z bit, visited before any 1, has a 1 behind it. Missing: the values of the excepted shape, which give x instead of 1 (`C18_refuted`), and ascending ranges with a positive low bound (`C18_ascending_refuted`). | C18_or_known: C18 for values without x/z, and for values without 1. | C18_refuted: C18 is false of the code at every width above one. | C18_ascending_refuted: C18, exactly, on ascending ranges with a positive low bound (canonical unsigned vectors). `r_or` shifts by too much as `r_and` does, or it sees only the positions from the low bound on: it is 0 if these are, otherwise the highest of them that is not 0 decides. A one below the low bound is missed."
  },
  {
   "property": "C19",
   "status": "partial",
   "theorems": [
    "Verif.C19_xor_partial",
    "Verif.C19_xor_even",
    "Verif.C19_refuted"
   ],
   "note": "C19_xor_partial: C19, exact. `r_xor()` of an unsigned native value of more than one bit (the other instantiations do not compile): x if any bit is x/z; otherwise line 526 gives the parity of the number of *zeros*. Missing: the parity of the ones at odd widths, where the two differ (`C19_refuted`); at even widths they agree (`C19_xor_even`). | C19_xor_even: C19 for even widths: the specified reduction. | C19_refuted: C19 is false of the code at every odd width, for every value without x/z: the result is the negated parity."
  },
  {
   "property": "C20",
   "status": "proved",
   "theorems": [
    "Verif.C20_complement"
   ],
   "note": "C20_complement: C20. `r_nand`, `r_nor`, `r_xnor` are the 4-state negations of `r_and`, `r_or`, `r_xor`, at every width and range, for all contents."
  },
  {
   "property": "C21",
   "status": "partial",
   "theorems": [
    "Verif.C21_and_partial",
    "Verif.C21_one_bit_refuted",
    "Verif.C21_signed_refuted",
    "Verif.C21_wide_refuted"
   ],
   "note": "C21_and_partial: C21 for unsigned native widths above one.. Missing: one-bit, signed native and wide values, for which it is false (`C21_one_bit_refuted`, `C21_signed_refuted`, `C21_wide_refuted`). | C21_one_bit_refuted: C21 is false for one-bit values (both signednesses): line 462 compares with `1 >> 7`, so the answer is inverted. | C21_signed_refuted: C21 is false for signed native values: the answer is true exactly for the greatest number (0 followed by ones), never for all ones. | C21_wide_refuted: C21 is false for wide values: line 465 computes the parity. At every width above 64 there is a value for which that differs."
  },
  {
   "property": "C22",
   "status": "partial",
   "theorems": [
    "Verif.C22_bool_native",
    "Verif.C22_bool_partial",
    "Verif.C22_refuted"
   ],
   "note": "C22_bool_native: C22, native widths. The conversion to `bool` is true exactly when no bit is x/z and some bit is 1. | C22_bool_partial: C22, exact behaviour at every width: only the bits that are seen count. Missing: the unseen bits, the upper halves of the limbs of a wide value (`C22_refuted`). Every bit of a native value is seen (`C22_bool_native`). | C22_refuted: C22 is false of the code at every wide width: the known value `2^32` converts to `false`, and a value with an x at bit 32 and a 1 at bit 0 to `true`."
  },
  {
   "property": "C23",
   "status": "partial",
   "theorems": [
    "Verif.C23_not_native",
    "Verif.C23_not_partial",
    "Verif.C23_refuted"
   ],
   "note": "C23_not_native: C23, native widths. `!l` is x if some bit is x/z, otherwise 0 if some bit is 1 and 1 if all bits are 0. | C23_not_partial: C23, exact behaviour at every width: only the bits that are seen count. Missing: the unseen bits, the upper halves of the limbs of a wide value (`C23_refuted`). Every bit of a native value is seen (`C23_not_native`). | C23_refuted: C23 is false of the code at every wide width: `!l` is 1 for the non-zero known value `2^32`, and known for a value that has an x at bit 32."
  },
  {
   "property": "C24",
   "status": "partial",
   "theorems": [
    "Verif.C24_shr_partial",
    "Verif.C24_native_shift_ge",
    "Verif.C24_refuted",
    "Verif.C24_shr_logic_partial",
    "Verif.C24_native_iff",
    "Verif.C24_refuted_all"
   ],
   "note": "C24_shr_partial: C24, partial. Holds for wide values with every amount, and for native values with amounts below the width. Missing: native values with an amount of at least the width, where the code has undefined behaviour (`C24_native_shift_ge`). | C24_native_shift_ge: C24, the excluded case. Every native shift by at least the width is undefined behaviour (the result mask is built by shifting a 64-bit constant by 64 or more). | C24_refuted: C24 is false as stated: an 8-bit value shifted right by 8. | C24_shr_logic_partial: C24 for 4-state values without x/z: bit `i` of the result is bit `i + k` of the operand, or 0. Missing: native amounts of at least the width, which are undefined (`C24_native_shift_ge`), and wide amounts of native values, which do not compile. | C24_native_iff: C24, native, exactly. A native right shift of at least two bits is defined if and only if the amount is below the width and not negative; `C24_shr_partial` gives the result there. Compare `C24_native_shift_ge`. | C24_refuted_all: C24 is false at every native width above one: any amount of at least the width, however large, is undefined behaviour instead of giving 0."
  },
  {
   "property": "C25",
   "status": "partial",
   "theorems": [
    "Verif.C25_shl_partial",
    "Verif.C25_native_shift_ge",
    "Verif.C25_one_bit_refuted",
    "Verif.C25_refuted",
    "Verif.C25_shl_logic_partial",
    "Verif.C25_native_exact",
    "Verif.C25_wrap_refuted",
    "Verif.C25_one_bit_exact"
   ],
   "note": "C25_shl_partial: C25, partial. Holds for wide values with every amount and for native values of at least two bits with an amount below 32 (widths up to 32) or 64. Missing: larger amounts (undefined behaviour, `C25_native_shift_ge`) and one bit values (`C25_one_bit_refuted`). | C25_native_shift_ge: C25, an excluded case. A native left shift by at least the width of the promoted holder is undefined behaviour (shown up to 127, beyond which the amount is first truncated to the holder type). The same holds for `ashr`. | C25_one_bit_refuted: C25 is false for one bit values: `1 << 1` is 1. | C25_refuted: C25 is false as stated: the shifted value is truncated to 32 bits, an 8-bit amount of 255 in a 16-bit value is undefined behaviour. | C25_shl_logic_partial: C25 for 4-state values without x/z. Missing: native amounts outside the promoted type (`C25_native_exact`) and one-bit values (`C25_one_bit_exact`), for which it is false. | C25_native_exact: C25, native, every amount. If the converted amount is in the range of the promoted type the value is shifted by it; otherwise the shift is undefined behaviour. | C25_wrap_refuted: C25 is false of narrow values with wide amounts: an amount that is a multiple of the holder size's modulus, such as 256 for eight bits, leaves the value as it is instead of giving 0. | C25_one_bit_exact: C25 and C26 for one-bit values. The amount is converted to `bool`. A left shift returns the value itself whatever the amount; a right shift by any amount but 0 gives 0, also for the arithmetic one."
  },
  {
   "property": "C26",
   "status": "partial",
   "theorems": [
    "Verif.C26_ashr_partial",
    "Verif.C26_wide_signed_exact",
    "Verif.C26_wide_refuted",
    "Verif.C26_native_exact"
   ],
   "note": "C26_ashr_partial: C26, partial. Holds for native canonical values of at least two bits with amounts below 32 (64), and for unsigned wide values with every amount. Missing: signed wide values (`C26_wide_signed_exact`, `C26_wide_refuted`) and larger native amounts (`C25_native_shift_ge`). | C26_wide_signed_exact: C26, exact behaviour of signed wide values. Every bit is right except the bit at `n - 1 - k`, which is never written and reads 0. | C26_wide_refuted: C26 is false for every signed wide value that is negative: any amount below the width loses the sign bit copy. | C26_native_exact: C26, native, every amount."
  },
  {
   "property": "C27",
   "status": "partial",
   "theorems": [
    "Verif.C27_unseen_exact",
    "Verif.C27_wide_refuted_all",
    "Verif.C27_shift_x_partial",
    "Verif.C27_shift_x_native",
    "Verif.C27_wide_refuted"
   ],
   "note": "C27_unseen_exact: C27, the unseen x/z bits of a wide value. When the emptiness test sees no x/z in value and amount, a right shift moves the 4-state bits down and a left shift moves them up, x and z included, with zeros shifted in. | C27_wide_refuted_all: C27 is false at every wide width: a vector with an x at bit 40 shifted by any known amount below the width keeps known bits. | C27_shift_x_partial: C27, partial. If the value or the amount has an x/z bit at a position that the emptiness test looks at (any position up to 64 bits), all four shifts give all x. Missing: x/z only in the upper halves of limbs of a wide operand (`C27_wide_refuted`). | C27_shift_x_native: C27 holds for native operands without restriction. | C27_wide_refuted: C27 is false for wide values: x at bit 40 only, shifted by 1; bit 0 of the result is a known 0."
  },
  {
   "property": "C28",
   "status": "partial",
   "theorems": [
    "Verif.C28_add_partial",
    "Verif.C28_signed_overflow",
    "Verif.C28_one_bit",
    "Verif.C28_refuted",
    "Verif.C28_add_logic_partial",
    "Verif.C28_add_iff"
   ],
   "note": "C28_add_partial: C28, partial. All widths of at least two bits, every mix of signedness, and no assumption on the operands except when both are signed and wider than 16 bits: then they have to be clean, and at 32 and 64 bits the sum must be representable. Missing: signed overflow at 32 and 64 bits, which is undefined behaviour (`C28_signed_overflow`), and one bit values (`C28_one_bit`). | C28_signed_overflow: C28, an excluded case. At 32 and 64 bits a signed sum that is not representable is undefined behaviour. | C28_one_bit: C28, an excluded case. One bit addition is a disjunction: `1 + 1` is 1. | C28_refuted: C28 is false as stated: one bit `1 + 1`. | C28_add_logic_partial: C28 for 4-state values without x/z. Missing: one-bit sums (`C28_one_bit`) and signed overflow at 32 and 64 bits, which is undefined (`C28_signed_overflow`). | C28_add_iff: C28, exactly. `a + b` of canonical operands is right if and only if it is not the one bit sum `1 + 1` and does not overflow a signed sum of 32 or 64 bits."
  },
  {
   "property": "C29",
   "status": "partial",
   "theorems": [
    "Verif.C29_sub_partial",
    "Verif.C29_signed_overflow",
    "Verif.C29_refuted",
    "Verif.C29_sub_logic_partial",
    "Verif.C29_sub_iff"
   ],
   "note": "C29_sub_partial: C29, partial. As C28, and including one bit values. Missing: signed overflow at 32 and 64 bits (`C29_signed_overflow`). | C29_signed_overflow: C29, the excluded case. | C29_refuted: C29 is false as stated: `INT_MIN - 1`. | C29_sub_logic_partial: C29 for 4-state values without x/z. Missing: signed overflow at 32 and 64 bits, which is undefined (`C29_signed_overflow`). | C29_sub_iff: C29, exactly. `a - b` of canonical operands is right if and only if it does not overflow a signed difference of 32 or 64 bits."
  },
  {
   "property": "C30",
   "status": "partial",
   "theorems": [
    "Verif.C30_mul_partial",
    "Verif.C30_u16_overflow",
    "Verif.C30_wide_oob",
    "Verif.C30_refuted",
    "Verif.C30_wide_refuted",
    "Verif.C30_mul_logic_partial",
    "Verif.C30_wide_exact",
    "Verif.C30_wide_refuted_all",
    "Verif.C30_signed_overflow",
    "Verif.C30_wide_negative_oob"
   ],
   "note": "C30_mul_partial: C30, partial. Native widths: the product must not overflow the type in which C++ multiplies, which concerns unsigned operands of 9 to 16 bits (they are multiplied as `int`) and signed ones wider than 16 bits. Wide: the operands are clean, every non-zero 64-bit chunk of them has a one in its lower half, and they occupy `a` and `b` chunks with `a + b` chunks available. Missing: the products that overflow (`C30_u16_overflow`, undefined behaviour) and the wide products that need more chunks (`C30_wide_oob`, a write outside the array). | C30_u16_overflow: C30, an excluded case. Two unsigned values of 9 to 16 bits are multiplied as signed `int`s: a product of `2^31` or more is undefined behaviour. | C30_wide_oob: C30, an excluded case. A wide product whose top chunk does not exist is written outside the array: at 128 bits, every product of a value of `2^64` or more with a non-zero value. | C30_refuted: C30 is false as stated: `65535 * 65535` in 16 bits. | C30_wide_refuted: C30 is false without the condition on the lower halves: a chunk that is only set in its upper half is overlooked, `(2^96 + 3) * 2` gives 6. | C30_mul_logic_partial: C30 for 4-state values without x/z. Missing: products that overflow `int` or `int64_t` (`C30_u16_overflow`, `C30_signed_overflow`), and wide products that are wrong or out of bounds (`C30_wide_exact`). | C30_wide_exact: C30, wide, every canonical operand. If both operands pass `fit_in_64()` their lowest 64 bits are multiplied. Otherwise, if two one bits lie in chunks whose product reaches beyond the array, the write is out of bounds. Otherwise the product is right. | C30_wide_refuted_all: C30 is false at every width above 97: `(2^96 + 3) * 2` gives 6. | C30_signed_overflow: C30, an excluded case. Two signed values of 17 to 64 bits whose product does not fit `int` (up to 32 bits) or `int64_t`: undefined behaviour. | C30_wide_negative_oob: C30 is false for every negative signed wide factor: the product with any non-zero value writes outside the array."
  },
  {
   "property": "C31",
   "status": "partial",
   "theorems": [
    "Verif.C31_div_partial",
    "Verif.C31_wide_refuted",
    "Verif.C31_div_logic_partial",
    "Verif.C31_wide_exact",
    "Verif.C31_wide_refuted_all"
   ],
   "note": "C31_div_partial: C31, partial. Quotient and remainder of clean unsigned operands; for wide ones every non-zero 64-bit chunk must have a one in its lower half. The results are clean. Missing: wide operands with a chunk that is only set in its upper half (`C31_wide_refuted`). | C31_wide_refuted: C31 is false for some wide values: `5 / 2^40` gives 0 remainder 0. | C31_div_logic_partial: C31 for 4-state values without x/z. Missing: wide operands that the library's tests misjudge (`C31_wide_exact`, `C15_refuted_all`). | C31_wide_exact: C31, wide, every canonical operand. A divisor that fails `any_set()` gives 0 and 0. A divisor whose lowest 64 bits are 1 and that passes `fit_in_64()` acts as 1. A dividend above the divisor, both passing `fit_in_64()`, is divided in the lowest 64 bits. In every other case quotient and remainder are right. | C31_wide_refuted_all: C31 is false at every wide width: every dividend divided by `2^k`, `k` in the upper half of a chunk, gives 0 remainder 0."
  },
  {
   "property": "C32",
   "status": "proved",
   "theorems": [
    "Verif.C32_div_zero_logic",
    "Verif.C32_div_zero_wide",
    "Verif.C32_div_zero_native"
   ],
   "note": "C32_div_zero_logic: C32. 4-state division by zero is all x, whatever the dividend. | C32_div_zero_wide: C32. 2-state limb-based division by zero gives 0. | C32_div_zero_native: Outside C32: 2-state native division by zero is undefined behaviour."
  },
  {
   "property": "C33",
   "status": "partial",
   "theorems": [
    "Verif.C33_arith_x_partial",
    "Verif.C33_arith_x_native",
    "Verif.C33_wide_refuted",
    "Verif.C33_arith_x_iff",
    "Verif.C33_unseen_exact",
    "Verif.C33_wide_refuted_all"
   ],
   "note": "C33_arith_x_partial: C33, partial. An x/z bit that the emptiness test sees, in either operand, makes every bit of the result x. Missing: x/z only in the upper halves of chunks of a wide operand (`C33_wide_refuted`). | C33_arith_x_native: C33 for native widths, without restriction on where the x/z bit is. | C33_wide_refuted: C33 is false for wide values: bit 40 of a 70-bit operand is x, the sum has no x. | C33_arith_x_iff: C33, exactly. A sum, difference or product of two vectors is all x if and only if an operand has an x or z that the emptiness test sees: anywhere in a native value, in the lower half of a 64-bit chunk of a wide one. | C33_unseen_exact: C33, the unseen x/z bits. When the emptiness test sees no x/z, the x/z bits are dropped: the result is the 2-state result on the value planes, without x/z. | C33_wide_refuted_all: C33 is false at every wide width, whatever the value planes: an x at bit 40 disappears in the sum."
  },
  {
   "property": "C34",
   "status": "partial",
   "theorems": [
    "Verif.C34_div_partial",
    "Verif.C34_refuted",
    "Verif.C34_div_logic_partial",
    "Verif.C34_min_overflow",
    "Verif.C34_div_iff"
   ],
   "note": "C34_div_partial: C34, partial. For clean signed native operands and a non-zero divisor, except `INT_MIN / -1` at 32 and 64 bits: the bits of the quotient are those of the quotient truncated toward zero (`Int.tdiv`), the remainder is the one with the sign of the dividend (`Int.tmod`). Missing: `INT_MIN / -1`, undefined behaviour (`C34_refuted`). | C34_refuted: C34 is false as stated: `INT_MIN / -1`. | C34_div_logic_partial: C34 for 4-state values without x/z. Missing: the least number divided by -1, which is undefined at 32 and 64 bits (`C34_min_overflow`). | C34_min_overflow: C34, the excluded case. At 32 and 64 bits the most negative number divided by -1 is undefined behaviour, for the quotient and for the remainder. | C34_div_iff: C34, exactly. The quotient and the remainder of canonical signed native operands, the divisor not zero, are right if and only if it is not the least number of 32 or 64 bits divided by -1."
  },
  {
   "property": "C35",
   "status": "partial",
   "theorems": [
    "Verif.C35_neg_partial",
    "Verif.C35_add_neg_partial",
    "Verif.C35_min_overflow",
    "Verif.C35_refuted",
    "Verif.C35_neg_logic_partial",
    "Verif.C35_neg_iff"
   ],
   "note": "C35_neg_partial: C35, partial. Unary minus on native values and `negate()` on all values. Signed values wider than 16 bits have to be clean and must not be the most negative 32 or 64-bit number, whose negation is undefined behaviour (`C35_min_overflow`). Missing: that number; `C35_neg_iff` is the exact statement. | C35_add_neg_partial: C35. `a + (-a)` reads 0, for native values of at least two bits. Missing: the least number of 32 and 64 bits (`C35_min_overflow`), one bit, where `1 + 1` is 1 (`C28_one_bit`), and wide values, whose unary minus does not compile. | C35_min_overflow: C35, the excluded case. The negation of the most negative signed 32 or 64-bit number is undefined behaviour. | C35_refuted: C35 is false as stated: `-INT_MIN`. | C35_neg_logic_partial: C35 for 4-state values without x/z. Missing: the least number of 32 and 64 bits (`C35_min_overflow`), and wide values, whose unary minus does not compile. | C35_neg_iff: C35, exactly. Unary minus on canonical native operands and `negate()` on all canonical operands are right if and only if the operand is not the least signed number of 32 or 64 bits."
  },
  {
   "property": "C36",
   "status": "partial",
   "theorems": [
    "Verif.C36_inc_partial",
    "Verif.C36_dec",
    "Verif.C36_one_bit",
    "Verif.C36_inc_dec_logic_partial",
    "Verif.C36_inc_iff"
   ],
   "note": "C36_inc_partial: C36, increment, partial. Prefix and postfix `++` on values of at least two bits. Missing: one bit values, where `++` always gives 1 (`C36_one_bit`). | C36_dec: C36, decrement. Prefix and postfix `--` on every value. | C36_one_bit: C36, the excluded case. One bit `++` gives 1 from 0 and from 1. | C36_inc_dec_logic_partial: C36 for 4-state values without x/z. Missing: `++` on one bit, which is wrong (`C36_one_bit`). | C36_inc_iff: C36, exactly. `++` is right if and only if the operand is not the one bit 1."
  },
  {
   "property": "C37",
   "status": "partial",
   "theorems": [
    "Verif.C37_add_sub_mixed",
    "Verif.C37_mul_mixed_partial",
    "Verif.C37_mixed_logic",
    "Verif.C37_wide_refuted",
    "Verif.C37_mul_wide_exact",
    "Verif.C37_wide_refuted_all",
    "Verif.C37_mul_logic"
   ],
   "note": "C37_add_sub_mixed: C37, addition and subtraction. Clean unsigned operands of any two widths, not both one bit wide. | C37_mul_mixed_partial: C37, multiplication, partial. Different widths; if one is above 64, the operands must have their chunks set in the lower half and there must be enough chunks for the product. Missing: the other wide products (`C37_wide_refuted`). | C37_mixed_logic: C37 for 4-state values without x/z: the operation on the extended planes. | C37_wide_refuted: C37 is false for some wide products: 128 by 70 bits, `2^64 * 1` writes outside the array. | C37_mul_wide_exact: C37, wide products, every pair of canonical operands: as `C30_wide_exact`, on the numbers of the operands. | C37_wide_refuted_all: C37 is false at every pair of different widths of which one is above 97: the product of `2^96 + 3` and 2 is 6. | C37_mul_logic: C37, 4-state products of values without x/z: the 2-state product of the value planes."
  },
  {
   "property": "C38",
   "status": "partial",
   "theorems": [
    "Verif.C38_eq_partial",
    "Verif.C38_eq_same_sign",
    "Verif.C38_refuted",
    "Verif.C38_refuted_all"
   ],
   "note": "C38_eq_partial: C38, partial; the exact answer of `==`. Equally wide clean operands are equal exactly when their bits agree, except that operands of different signedness whose width is not that of a C++ integer type and whose sign bit is set never compare equal (`C38_refuted`). Two signed wide operands of one width do not compile. | C38_eq_same_sign: C38 without exception for operands of the same signedness. | C38_refuted: C38 is false as stated: the 4-bit patterns 1111 of a signed and an unsigned object are not equal. | C38_refuted_all: C38 and C44 are false at every native width that is not that of a C++ type: a signed and an unsigned vector with the same bits, the top one set, are not equal and do not match, either way round."
  },
  {
   "property": "C39",
   "status": "partial",
   "theorems": [
    "Verif.C39_eq_native_partial",
    "Verif.C39_eq_native_exact",
    "Verif.C39_eq_wide_native",
    "Verif.C39_eq_wide_partial",
    "Verif.C39_refuted",
    "Verif.C39_wide_refuted",
    "Verif.C39_wide_exact",
    "Verif.C39_wide_refuted_all"
   ],
   "note": "C39_eq_native_partial: C39, partial. Native operands: the right operand is first reduced to the holder type of the left one, so `==` is numeric equality when the right number fits. Missing: numbers that do not fit, for which it is false (`C39_eq_native_exact`, `C39_refuted`). | C39_eq_native_exact: C39, the exact native answer: reduction modulo the holder for more than one bit, conversion to `bool` for one bit. | C39_eq_wide_native: C39 for a wide and a native operand, in both orders. | C39_eq_wide_partial: C39, partial. Two wide operands: numeric equality when the limb counts agree, or when every non-zero limb has a one in its lower half. Missing: other contents, for which it is false (`C39_wide_exact`, `C39_wide_refuted_all`). | C39_refuted: C39 is false as stated: the 8-bit 1 equals the 16-bit 257, but not the other way round. | C39_wide_refuted: C39 is false for wide operands: 2^160 in 161 bits equals 0 in 65 bits. | C39_wide_exact: C39, two wide operands, exactly. `==` compares all bits of the 64-bit chunks that both operands have, and of the surplus chunks of the longer one only the lower halves. | C39_wide_refuted_all: C39 is false for all wide width pairs with a surplus upper half: `2^k` equals 0 in both orders."
  },
  {
   "property": "C40",
   "status": "partial",
   "theorems": [
    "Verif.C40_gt_lt",
    "Verif.C40_ge_le_partial",
    "Verif.C40_refuted",
    "Verif.C40_mixed_storage",
    "Verif.C40_ge_le_exact",
    "Verif.C40_refuted_all"
   ],
   "note": "C40_gt_lt: C40 for `>` and `<`: all clean unsigned operands stored alike. | C40_ge_le_partial: C40 for `>=` and `<=`, partial. Missing: wide operands of different limb counts with a non-zero limb whose lower half is zero (`C40_refuted`). | C40_refuted: C40 is false as stated: 2^160 <= 0. | C40_mixed_storage: Between a native left and a wide right operand every order operator flows off the end of its function. | C40_ge_le_exact: C40 for `>=` and `<=`, two wide operands, exactly. | C40_refuted_all: C40 is false for the same width pairs: `2^k <= 0`."
  },
  {
   "property": "C41",
   "status": "proved",
   "theorems": [
    "Verif.C41_signed_order"
   ],
   "note": "C41_signed_order: C41."
  },
  {
   "property": "C42",
   "status": "partial",
   "theorems": [
    "Verif.C42_signed_wide_partial",
    "Verif.C42_least",
    "Verif.C42_refuted"
   ],
   "note": "C42_signed_wide_partial: C42, partial. Holds unless both operands are negative and one of them is the least number. Missing: those cases, where the answer is wrong or the comparison does not end (`C42_least`). | C42_least: C42, the excluded cases, for every wide width: the least number is reported greater than every other negative number, no negative number is reported greater than it, and comparing it with itself recurses for ever (with any amount of fuel). | C42_refuted: C42 is false as stated."
  },
  {
   "property": "C43",
   "status": "partial",
   "theorems": [
    "Verif.C43_rel_x_iff",
    "Verif.C43_wide_refuted_all",
    "Verif.C43_rel_known",
    "Verif.C43_rel_x_partial",
    "Verif.C43_rel_x_native",
    "Verif.C43_wide_refuted"
   ],
   "note": "C43_rel_x_iff: C43, exactly. Each of the six relational operators answers x if and only if an operand has an x or z that the emptiness test sees. | C43_wide_refuted_all: C43 is false at every wide width: a vector with an x at bit 40 compares equal to its own value plane. | C43_rel_known: C43, known operands: the 2-state answer as a known bit. | C43_rel_x_partial: C43, x/z operands, partial. A single x when an operand holds x/z at a position that the emptiness test sees. Missing: wide operands whose x/z bits all lie in upper halves of limbs (`C43_wide_refuted`). | C43_rel_x_native: C43 for native operands: any x/z bit makes all six operators x. | C43_wide_refuted: C43 is false for wide operands: an x at bit 40 of 70 is not noticed, the comparison answers 1."
  },
  {
   "property": "C44",
   "status": "partial",
   "theorems": [
    "Verif.C44_match_partial",
    "Verif.C44_refuted",
    "Verif.C44_refuted_all"
   ],
   "note": "C44_match_partial: C44, partial; the exact answer. Missing: operands of different signedness in a width that is not that of a C++ integer type, with the sign bit of the value plane set (`C44_refuted`). | C44_refuted: C44 is false as stated for a signed against an unsigned 4-bit value. | C44_refuted_all: C44 is false at every native width that is not that of a C++ type: a signed 4-state vector whose top value bit is set matches no unsigned one, not even one with the same bits."
  },
  {
   "property": "C45",
   "status": "partial",
   "theorems": [
    "Verif.C45_bit_logic_partial",
    "Verif.C45_mixed_exact",
    "Verif.C45_refuted",
    "Verif.C45_refuted_all"
   ],
   "note": "C45_bit_logic_partial: C45, partial. Holds for operands of the same signedness. Missing: a signed 2-state operand against an unsigned 4-state one (`C45_refuted`, `C45_mixed_exact`). The fourth combination does not compile. | C45_mixed_exact: C45, mixed signedness, exactly. A signed 2-state operand meets an unsigned 4-state one as its sign extension to the storage width, read without sign. | C45_refuted: C45 is false for mixed signedness: the signed `-1` and the unsigned 15 have the same four bits and -1 is the smaller number, but `-1 > 15`. | C45_refuted_all: C45 is false at every native width: every negative 2-state number is reported greater than every known 4-state number below `2^(n-1)`."
  },
  {
   "property": "C46",
   "status": "partial",
   "theorems": [
    "Verif.C46_trichotomy_partial",
    "Verif.C46_mixed",
    "Verif.C46_refuted",
    "Verif.C46_iff"
   ],
   "note": "C46_trichotomy_partial: C46, partial: the same signedness, the right operand not wider. Missing: different signedness (`C46_refuted`, `C46_mixed`) and a wider right operand (`C39_refuted`). | C46_mixed: C46 for different signedness, equal widths: exactly one answer, except in the widths 8, 16 and 32 for equal bits with the sign bit set, where `==` and one of `<`, `>` are both true. | C46_refuted: C46 is false as stated: the signed 8-bit -1 is both equal to and greater than the unsigned 255. | C46_iff: C46, exactly. For native operands, exactly one of `<`, `==`, `>` is true of all pairs of values if and only if: the signs agree and the right operand is not wider than the C++ type that holds the left one; or the signs differ and the left operand is wider than 32 bits, or it is signed and the right one narrower than its C++ type, or it is unsigned and the right one has one bit, or it is unsigned and narrower than its C++ type and the right one not wider than that type. A left operand of one bit needs a right operand of one bit."
  },
  {
   "property": "C47",
   "status": "partial",
   "theorems": [
    "Verif.C47_zero_extend_partial",
    "Verif.C47_zero_extend_logic_partial",
    "Verif.C47_refuted",
    "Verif.C47_iff",
    "Verif.C47_refuted_all"
   ],
   "note": "C47_zero_extend_partial: C47. Zero extension of a canonical unsigned object keeps the low `n` bits and clears the new ones; the result is canonical. Missing: objects that are not canonical, for which it is false (`C47_iff`, `C47_refuted_all`). | C47_zero_extend_logic_partial: C47, 4-state.. Missing: objects that are not canonical, for which it is false (`C47_iff`). | C47_refuted: C47 is false of the code without canonicity: `bit<3, 0>(255)` stores 255 and its extension to 8 bits is 255, although its low four bits are 15. | C47_iff: C47, exactly. The extension of an unsigned object is the zero extension of its value and canonical if and only if the object was canonical. | C47_refuted_all: C47 is false for every width whose holder has spare bits: `bit<n-1, 0>(2^n)` is the zero vector, and its extension to any larger width is not."
  },
  {
   "property": "C48",
   "status": "partial",
   "theorems": [
    "Verif.C48_sign_extend_partial",
    "Verif.C48_wide_exact",
    "Verif.C48_refuted"
   ],
   "note": "C48_sign_extend_partial: C48, native sources. Sign extension of a canonical object of at most 64 bits keeps the denoted number, whatever the target width. Missing: wide sources, for which it is false unless the number is negative (`C48_wide_exact`, `C48_refuted`). | C48_wide_exact: C48, exact behaviour of wide sources: the new bits are always ones, so that the number is kept exactly when it is negative. | C48_refuted: C48 is false of the code for every wide source: the extension of 5 is negative."
  },
  {
   "property": "C49",
   "status": "proved",
   "theorems": [
    "Verif.C49_slice",
    "Verif.C49_65_bits",
    "Verif.C49_slice_logic"
   ],
   "note": "C49_slice: C49, 2-state. `slice<a,b>()` of an unsigned `[n-1:0]` value never faults, is canonical, and its bit `i` is bit `min(a,b)+i` of the source. A slice of exactly 65 bits does not compile (`C49_65_bits`). | C49_65_bits: C49, 65 bits. Constant slices of exactly 65 bits do not compile, whatever the value: the constraint of the small slice admits them and its body does not. | C49_slice_logic: C49, 4-state."
  },
  {
   "property": "C50",
   "status": "partial",
   "theorems": [
    "Verif.C50_slice_wide",
    "Verif.C50_slice_partial",
    "Verif.C50_one_bit",
    "Verif.C50_refuted"
   ],
   "note": "C50_slice_wide: C50, wide values: exact and canonical. | C50_slice_partial: C50, native values, exact. For slices of more than one bit that do not reach the top of the holder, the selected bits are right; the result is canonical exactly when its holder has no spare bit or the bit above the slice is 0 (the mask of line 1139 reaches one bit too far). Missing: slices that reach the top of the holder, which are undefined (`C50_refuted`), and one-bit slices (`C50_one_bit`). | C50_one_bit: C50, one-bit slices of native signed values: the code returns the *or* of the selected bit and the one above it. | C50_refuted: C50 is false of the code. A signed slice that reaches the top bit of the holder shifts by a huge amount (undefined behaviour), for every value of those widths; a one-bit slice of the 4-bit signed value 0010 at index 0 is 1; the slice `[1:0]` of the 4-bit signed 0101 is not canonical."
  },
  {
   "property": "C51",
   "status": "partial",
   "theorems": [
    "Verif.C51_slice_partial",
    "Verif.C51_slice_logic_partial",
    "Verif.C51_base_partial",
    "Verif.C51_refuted",
    "Verif.C51_canonical_iff"
   ],
   "note": "C51_slice_partial: C51, exact. `slice<k>(a, b)` with `|a-b|+1 = k` in range, of any value wider than one bit: the k selected bits are right. The result is canonical except when a signed native source is negative and the slice reaches the top of its holder. Missing: one-bit values, for which it is false (`C51_refuted`); `C51_canonical_iff` says exactly when the result is canonical. | C51_slice_logic_partial: C51, 4-state run-time slices of unsigned values wider than one bit: exact and canonical. Missing: one-bit values, for which it is false (`C51_refuted`), and signed values, whose planes are as in `C51_slice_partial`. | C51_base_partial: C51, `slice<k, increase>(base)`: upwards the bits `base .. base+k-1`, downwards `base-k+1 .. base`. Missing: one-bit values, for which it is false (`C51_refuted`). | C51_refuted: C51 is false of the code for one-bit values: the run-time slice `[0:0]` of every one-bit value is 0. For a signed 8-bit -1, `slice<4>(7,4)` is not canonical and is not equal to 15. | C51_canonical_iff: C51, when the result is canonical. The run-time slice of a value wider than one bit has the right bits, and it is canonical unless the source is a negative native signed value without spare bits (8, 16, 32 or 64 bits), the slice includes its top bit, has more than one bit, and is shorter than its own holder."
  },
  {
   "property": "C52",
   "status": "partial",
   "theorems": [
    "Verif.C52_concat_exact",
    "Verif.C52_concat_partial",
    "Verif.C52_concat_logic_partial",
    "Verif.C52_refuted",
    "Verif.C52_truncated_exact",
    "Verif.C52_truncated_refuted"
   ],
   "note": "C52_concat_exact: C52, exact, for a total width that fits the promoted type of the left operand (32 bits, or 64 when the left operand is wider than 32): the low bits are the right operand; the high bits are the left operand, all ones if the right operand is a negative signed value. | C52_concat_partial: C52 for unsigned operands whose total width fits the promoted type of the left one: canonical, low bits `y`, high bits `x`. Missing: other widths (`C52_truncated_exact`, `C52_refuted`) and signed operands (`C52_concat_exact`). | C52_concat_logic_partial: C52, 4-state (unsigned operands, same widths as above). Missing: other widths and a negative right operand, for which it is false (`C52_refuted`). | C52_refuted: C52 is false of the code. 1. With a left operand of at most 32 bits and a right one of 32 or more, the shift is undefined behaviour for all values. 2. 20 bits with 20 bits loses the high bits of the left operand: all ones with 0 gives zeros above bit 31. 3. A negative signed right operand overwrites the left one: 4-bit 0 with 4-bit signed -1 gives 11111111. 4. `logic.concat(bit)` does not shift the x/z plane: 2-bit xx with 2-bit 11 gives 00zz. | C52_truncated_exact: C52, the truncating case, exactly. With a left operand of at most 32 bits, a right operand below 32 bits and more than 32 bits in total, the lower 32 bits are those of the concatenation and the others copy bit 31 if both promoted operands are signed (they are up to 16 bits, whatever their declared sign), and are 0 otherwise. | C52_truncated_refuted: C52 is false for every such pair of widths: the concatenation of an unsigned value that has its top bits set and others not with 0 loses them."
  },
  {
   "property": "C53",
   "status": "partial",
   "theorems": [
    "Verif.C53_unpack_partial",
    "Verif.C53_refuted",
    "Verif.C53_signed_refuted",
    "Verif.C53_signed_exact",
    "Verif.C53_excess",
    "Verif.C53_no_bits"
   ],
   "note": "C53_unpack_partial: C53 for descending `[n-1:0]` values, unsigned of any width or signed and wider than 64: argument `j` receives the bits from the total width of the arguments after it. Arguments of 65 bits do not compile (`C49_65_bits`). Missing: ascending ranges (`C53_refuted`) and native signed values (`C53_signed_exact`, `C53_signed_refuted`); more bits asked for than there are is `C53_excess`. | C53_refuted: C53 is false of the code for native signed values whose top field reaches the top of the holder (undefined shift, for every value), and for ascending ranges: a value declared `[0:7]` starts at its low bound 7 and the second field does not compile. | C53_signed_refuted: C53 is false for every native signed value without spare bits (8, 16, 32 or 64 bits): unpacking it completely is undefined behaviour, whatever the fields and the value. | C53_signed_exact: C53, native signed values, exactly: when the fields stay below the top of the holder, a field of more than one bit receives its bits; a one-bit field receives the *or* of its value bit and the stored bit above it. | C53_excess: C53, more bits asked for than there are. If the arguments after the first take `p < n` bits of an unsigned `[n-1:0]` vector and the first is a native variable of more than `n - p` bits, it receives the bits that are left, zero extended whatever its sign; the others are as in `C53_unpack_partial`. | C53_no_bits: C53, with nothing left. Arguments after the first that already take all bits: the first does not compile."
  },
  {
   "property": "C54",
   "status": "proved",
   "theorems": [
    "Verif.C54_unpack_concat",
    "Verif.C54_concat_unpack"
   ],
   "note": "C54_unpack_concat: C54. Unpacking a concatenation of unsigned values gives the values back, as the same objects, x and z included; for total widths up to 32, and up to 63 when the left operand is wider than 32. | C54_concat_unpack: The other direction: concatenating the two fields gives the value back."
  },
  {
   "property": "C55",
   "status": "partial",
   "theorems": [
    "Verif.C55_update_range_partial",
    "Verif.C55_update_partial",
    "Verif.C55_fault",
    "Verif.C55_refuted",
    "Verif.C55_exact",
    "Verif.C55_direction_refuted"
   ],
   "note": "C55_update_range_partial: C55 for any two ranges with low bound 0 and the same direction, in terms of the declared indices: index `lo + k` of the target receives operand index `k`, or 0 when the operand has no such index; all other stored bits are unchanged. The operand must have no x or z at an index from 64 on. Missing: such operands (`C55_fault`), operands of the other direction (`C55_direction_refuted`) and other low bounds (`C55_exact`). | C55_update_partial: C55. `l.update<a, b>(v)` on `[n-1:0]` and `[m-1:0]` values: bit `lo + j` becomes bit `j` of `v`, 0 when `v` is too short; the rest is unchanged. The operand must have no x or z at an index from 64 on that is read. Missing: such operands, for which the update is undefined (`C55_fault`); other ranges are `C55_exact`. | C55_fault: C55, the excluded case: an x or z of the operand at an index from 64 on that is read makes the update undefined behaviour. | C55_refuted: C55 is false of the code: updating a 100-bit value with a 100-bit all-x value is undefined behaviour, for every value; and an operand declared in the other direction loses its bits when the low bound is not 0: writing the ascending 4-bit 1111 to `[7:4]` of zero stores 0000. | C55_exact: C55, exactly. A target of either direction with low bound 0, or descending with any low bound from 0 on, and an operand of either direction with low bound 0: target index `i` of the slice with lower bound `lo` receives operand index `i - lo` when the directions agree, and `hi - i - lo`, with `hi` the highest index of the operand, when they differ; zero when there is no such index. The update is undefined exactly when one of the operand indices read is 64 or more and holds x or z. | C55_direction_refuted: C55, refuted for all operands of the other direction. Writing an ascending `[0:m-1]` operand to a slice of a descending target whose lower bound `lo` is not 0 stores bit `2 lo + j` of the operand, not bit `j`, in bit `lo + j`: zeros from bit `m - 2 lo` on."
  },
  {
   "property": "C56",
   "status": "proved",
   "theorems": [
    "Verif.C56_update_rt",
    "Verif.C56_update_swap",
    "Verif.C56_update_rt_bits"
   ],
   "note": "C56_update_rt: C56. The run-time update is the constant one: for all ranges, bounds and values. | C56_update_swap: C56, both orders of the bounds do the same. | C56_update_rt_bits: C56, in bits"
  },
  {
   "property": "C57",
   "status": "partial",
   "theorems": [
    "Verif.C57_update_rt_partial",
    "Verif.C57_update_exact",
    "Verif.C57_update_partial",
    "Verif.C57_refuted",
    "Verif.C57_direction_exact",
    "Verif.C57_rt_native_exact",
    "Verif.C57_native_exact",
    "Verif.C57_native_refuted"
   ],
   "note": "C57_update_rt_partial: C57, run-time bounds. `b.update(hi, lo, v)` on `[n-1:0]` values: bit `lo + j` becomes bit `j` of `v` (0 past its end if `v` is wider than 64 bits); the rest is unchanged. A native operand must be as long as the slice. Missing: shorter native operands (`C57_rt_native_exact`) and operands of the other direction (`C57_direction_exact`). | C57_update_exact: C57, constant bounds, exact: the operand is read at the *target* index, so bit `i` of the slice becomes bit `i` of `v`, not bit `i - lo`. | C57_update_partial: C57, constant bounds with low bound 0: correct. Missing: other low bounds of the slice, for which it is false (`C57_update_exact`, `C57_native_refuted`), and shorter native operands (`C57_native_exact`). | C57_refuted: C57 is false of the code. 1. `update<hi, lo>` with `lo > 0` stores the wrong bits: for every wide operand whose bit `lo` differs from its bit 0, bit `lo` of the result is not bit 0 of the operand. 2. Writing the 4-bit 1111 to `[7:4]` of an 8-bit zero leaves it zero. 3. A native operand read past its holder is undefined behaviour: a 33-bit update of a 64-bit value with an 8-bit operand. | C57_direction_exact: C57, operands of the other direction, exactly. Both low bounds 0 and one range ascending, the other descending: target index `i` receives operand index `hi - i` in the form with constant bounds and `hi - i - lo` in the form with run-time bounds, where `hi` is the highest index of the operand and `lo` the lower bound of the slice, as long as all of these indices exist. | C57_rt_native_exact: C57, run-time bounds, native operands, exactly. The operand is extended by its sign to the 32 or 64 bits of its promoted type: within that the slice receives it, beyond it the update is undefined behaviour. | C57_native_exact: C57, constant bounds, native operands, exactly. Bit `i` of the slice receives bit `i` of the operand extended by its sign, not bit `i - lo`; when the slice reaches past the promoted type of the operand the update is undefined behaviour. | C57_native_refuted: C57 is false for every native unsigned operand and every slice that starts above it: the slice of the target is cleared, whatever the operand is."
  },
  {
   "property": "C58",
   "status": "partial",
   "theorems": [
    "Verif.C58_bits",
    "Verif.C58_bits_logic",
    "Verif.C58_round_trip",
    "Verif.C58_signed_partial",
    "Verif.C58_refuted"
   ],
   "note": "C58_bits: C58. Signedness casts keep every bit, stored bits above the width included. | C58_bits_logic | C58_round_trip: C58. Casting to the other signedness and back is the identity. | C58_signed_partial: C58, the signed number, exact: the cast of a canonical unsigned value denotes its two's complement number exactly for the widths of the C++ integer types (2-bit and wider) and for values whose top bit is 0; otherwise it is the unsigned number and the object is not canonical. Missing: the number of a value with a set top bit at the other widths, which is wrong (`C58_refuted`). | C58_refuted: C58 is false of the code for every native width that is not that of a C++ integer type: the signed view of the pattern with only the top bit set is positive."
  },
  {
   "property": "C59",
   "status": "partial",
   "theorems": [
    "Verif.C59_num",
    "Verif.C59_uint64",
    "Verif.C59_logic_partial",
    "Verif.C59_logic_native",
    "Verif.C59_refuted",
    "Verif.C59_logic_exact"
   ],
   "note": "C59_num: C59, 2-state. `to_num()` of a canonical native value is the denoted number. | C59_uint64: C59, 2-state. `to_uint64()` of a canonical native value is the denoted number modulo 2^64; of a wide value it is the low 64 bits. | C59_logic_partial: C59, 4-state. A value with an x or z at a position the emptiness test looks at (every position of a native value) converts to 0, a known value to its number. Missing: wide values whose only x and z are at positions that test does not look at (`C59_logic_exact`, `C59_refuted`). | C59_logic_native: C59, native 4-state values, as stated. | C59_refuted: C59 is false of the code for wide 4-state values: an x at bit 40 is not seen. | C59_logic_exact: C59, exactly. A 4-state object converts to 0 if it has an x or z that the emptiness test sees, and otherwise to the number of its value plane."
  },
  {
   "property": "C60",
   "status": "partial",
   "theorems": [
    "Verif.C60_bits",
    "Verif.C60_one_bit",
    "Verif.C60_clean_iff",
    "Verif.C60_congr_partial",
    "Verif.C60_wide",
    "Verif.C60_refuted"
   ],
   "note": "C60_bits: C60, the bits. Native widths from 2 on: the low `n` bits of the integer. | C60_one_bit: C60, one bit: the holder is a `bool`, any non-zero integer gives 1. | C60_clean_iff: C60, canonical form: the constructed value is canonical exactly when the integer (converted to the holder type) is a number of the declared width and sign. | C60_congr_partial: C60, congruent integers, for the widths of the C++ types: the same object. Missing: the other widths, for which it is false (`C60_refuted`); the bits are right there too (`C60_bits`). | C60_wide: C60, wide values, exact: the low limb is set, all higher bits are 0. | C60_refuted: C60 is false of the code. For every native width that is not that of a C++ type, `2^n` and 0 give different values (`==` is false); the one bit value made from 2 is 1; a wide value made from -1 has bit 64 clear."
  },
  {
   "property": "C61",
   "status": "partial",
   "theorems": [
    "Verif.C61_binary_iff",
    "Verif.C61_binary_exact",
    "Verif.C61_binary_partial",
    "Verif.C61_refuted"
   ],
   "note": "C61_binary_iff: C61, exactly. A native binary literal of at most `n` digits is read right if and only if no x or z digit is at position 32 or above; otherwise the constructor is undefined. | C61_binary_exact: C61, exactly. A native binary literal over `0 1 x z _`, of any length: if no `1` or `z` is at position 64 or above and no x or z is at position 32 or above, every bit of the object is that of its digit; otherwise the constructor of `logic` shifts by the width of the word or more. | C61_binary_partial: C61, partial. A native binary literal of at most `n` digits sets bit `i` from the `i`-th digit from the right, in both planes, and no other bit. Not covered: x/z digits at positions 32 and above, see `C61_refuted`. | C61_refuted: C61, refuted. Any literal with an x or z digit at position 32 or above makes the constructor shift a 32-bit one by 32 or more."
  },
  {
   "property": "C62",
   "status": "partial",
   "theorems": [
    "Verif.C62_hex_exact",
    "Verif.C62_hex_partial",
    "Verif.C62_refuted",
    "Verif.C62_underscore_refuted",
    "Verif.C62_lower_exact"
   ],
   "note": "C62_hex_exact: C62, exactly. A native hexadecimal literal of digits `0` to `9`, `A` to `F`, x, z and underscores, of any length: with at most sixteen digits, and no leading underscore before sixteen, every bit of the object is that of its digit; otherwise the constructor shifts a 64-bit word by 64 or more. | C62_hex_partial: C62, partial. A native hexadecimal literal with upper case digits that fits 64 bits: every digit gives four bits, x/z digits mark four bits, and without x/z digits the value is the denoted number (modulo `2^n`). Not covered: lower case digits (`C62_refuted`) and a leading underscore before sixteen digits (`C62_underscore_refuted`). | C62_refuted: C62, refuted. A lower case hexadecimal digit is read ten too small (`util.cc` 100: `c - 'a'`). | C62_underscore_refuted: C62, refuted for underscores. A leading underscore before sixteen digits is shifted by 64 (`util.cc` 91-106 treats it as a zero digit before skipping it). | C62_lower_exact: C62, C67 and C69, exactly, hexadecimal. Every hexadecimal literal, of any characters, is read as the literal with the lower case digits `a` to `f` replaced by `0` to `5`."
  },
  {
   "property": "C63",
   "status": "partial",
   "theorems": [
    "Verif.C63_octal_exact",
    "Verif.C63_octal_partial",
    "Verif.C63_one_bit_refuted",
    "Verif.C63_octal_64"
   ],
   "note": "C63_octal_exact: C63, exactly. A native octal literal of digits, x, z and underscores, of any length: with at most 22 digits, and no leading underscore before 22, every bit of the object is that of its digit; otherwise the constructor shifts a 64-bit word by 64 or more. | C63_octal_partial: C63, partial. A native octal literal of at most 21 digits: every digit gives three bits, x/z digits mark three bits, and without x/z digits the value is the denoted number (modulo `2^n`). Missing: one bit objects and digits above the lowest bit (`C63_one_bit_refuted`). Wide objects are C68. | C63_one_bit_refuted: C63 is false of one bit: the holder is a `bool`, so the even digits 2, 4 and 6 give 1. | C63_octal_64: C63, all 64 bits. An octal literal of up to 22 characters: every bit of the object is that of its digit, the first of 22 digits giving one bit."
  },
  {
   "property": "C64",
   "status": "partial",
   "theorems": [
    "Verif.C64_decimal",
    "Verif.C64_decimal_one",
    "Verif.C64_wide_exact",
    "Verif.C64_wide_partial",
    "Verif.C64_refuted"
   ],
   "note": "C64_decimal: C64, native. A decimal literal of any length is the denoted number modulo `2^64` (then modulo `2^n`); characters that are not digits are skipped. | C64_decimal_one: C64, one bit. The object holds a `bool`: a number that fits one bit is stored. | C64_wide_exact: C64, wide, exact. Each batch of 64 characters is a number of its own. | C64_wide_partial: C64, wide, partial. Up to 64 characters a wide decimal literal is the number modulo `2^64` as well. Longer ones are not, see `C64_refuted`. | C64_refuted: C64, refuted. The number 10^64, which is 0 modulo 2^64, sets bit 64 of every wide object."
  },
  {
   "property": "C65",
   "status": "partial",
   "theorems": [
    "Verif.C65_raw_partial",
    "Verif.C65_one_bit",
    "Verif.C65_one_bit_refuted",
    "Verif.C65_raw_wide"
   ],
   "note": "C65_raw_partial: C65, native, partial. A string without a quote is stored as its last eight bytes, the last character in the low byte, with no x/z bit. Missing: one bit (`C65_one_bit`, `C65_one_bit_refuted`). | C65_one_bit: C65, one bit, exactly. A one bit object is 1 exactly if some of the last eight bytes is not zero. | C65_one_bit_refuted: C65 is false of one bit: the letter `b` ends in a zero bit and is stored as 1. | C65_raw_wide: C65, wide. The same with eight bytes per limb, so every byte lands at its place."
  },
  {
   "property": "C66",
   "status": "proved",
   "theorems": [
    "Verif.C66_prefix",
    "Verif.C66_size"
   ],
   "note": "C66_prefix: C66. The base letter is the first non-digit after the first quote; what is parsed are the base letter and the characters after it, whatever the size prefix. | C66_size: C66, objects. Two literals that differ in the size prefix only denote the same object (and fault alike)."
  },
  {
   "property": "C67",
   "status": "partial",
   "theorems": [
    "Verif.C67_wide_partial",
    "Verif.C67_refuted"
   ],
   "note": "C67_wide_partial: C67, partial. A wide binary or hexadecimal literal of known (upper case) digits without underscores is the denoted number (modulo `2^n`), whatever its length. Not covered: lower case hexadecimal digits, see `C67_refuted`. | C67_refuted: C67, refuted. Lower case hexadecimal digits are ten too small in wide literals too."
  },
  {
   "property": "C68",
   "status": "partial",
   "theorems": [
    "Verif.C68_octal_exact",
    "Verif.C68_octal_partial",
    "Verif.C68_refuted"
   ],
   "note": "C68_octal_exact: C68, exact. A wide octal literal without underscores puts 21 digits into each limb: bit 63 of every limb is zero and the digits above are displaced by one bit per limb. | C68_octal_partial: C68, partial. Up to 21 digits a wide octal literal denotes what a narrow one does. Longer ones do not, see `C68_refuted`. | C68_refuted: C68, refuted. The octal literal 8^21 = 2^63 sets bit 64 instead of bit 63 of every wide object."
  },
  {
   "property": "C69",
   "status": "partial",
   "theorems": [
    "Verif.C69_exact",
    "Verif.C69_xz_partial",
    "Verif.C69_short_partial",
    "Verif.C69_refuted",
    "Verif.C69_underscore_refuted"
   ],
   "note": "C69_exact: C67, C68 and C69, exactly. A wide binary, octal or hexadecimal literal with underscores anywhere: limb `k` is read from the `k`-th group of 64, 21 or 16 characters from the right, its bits being those of the digits of that group. Only a binary x or z at position 32 or above of its group makes the constructor undefined. | C69_xz_partial: C69, partial. In a wide binary or hexadecimal literal without underscores the digit at position `i` sets exactly its bits, x/z digits included. Not covered: underscores (`C69_underscore_refuted`) and binary x/z digits in the upper half of a limb (`C69_refuted`). | C69_short_partial: C69, short literals. A literal that fits one batch may contain underscores. Missing: longer literals with underscores, for which it is false (`C69_underscore_refuted`, `C69_exact`). | C69_refuted: C69, refuted. A binary x or z digit in the upper half of any limb of a wide object makes the constructor shift a 32-bit one by 32 or more. | C69_underscore_refuted: C69, refuted for underscores. Batches are counted in characters, so an underscore moves the digits left of it into the next limb: the digit at position 63 sets bit 64."
  },
  {
   "property": "C70",
   "status": "partial",
   "theorems": [
    "Verif.C70_native",
    "Verif.C70_native_2state",
    "Verif.C70_wide_exact",
    "Verif.C70_wide_partial",
    "Verif.C70_refuted",
    "Verif.C70_2state_exact",
    "Verif.C70_2state_refuted"
   ],
   "note": "C70_native: C70, native 4-state. `str(\"b\")` is `n` characters, character `n-1-i` showing bit `i`. | C70_native_2state: C70, native 2-state. | C70_wide_exact: C70, wide, exact. When `n` is not a multiple of 64 the text has `n` characters, character `n-1-i` showing bit `i`; when it is, the first 64 characters are zeros and the others show bits `n-65 .. 0`. | C70_wide_partial: C70, partial, wide. Not covered: widths that are multiples of 64. There it is false (`C70_wide_exact`, `C70_refuted`). Wide 2-state text is `C70_2state_exact`. | C70_refuted: C70, refuted. At every multiple of 64 above 64, an object whose top bit is not 0 is shown with a leading 0. | C70_2state_exact: C70, exact, wide 2-state. Each 64-bit limb is written in reverse: character `i` from the right of a full limb shows the mirrored bit of that limb; a full last limb is shown as zeros. | C70_2state_refuted: C70, refuted, wide 2-state. The last character shows bit 63 and not bit 0."
  },
  {
   "property": "C71",
   "status": "partial",
   "theorems": [
    "Verif.C71_exact",
    "Verif.C71_digits_partial",
    "Verif.C71_refuted"
   ],
   "note": "C71_exact: C71, exact. For a known value the digits denote the stored word, cut to the digits. | C71_digits_partial: C71, partial. `str(\"h\")` and `str(\"o\")` of a known native value have `ceil(n/4)` and `ceil(n/3)` digits, most significant first, denoting the value. Not covered: negative signed values whose width is not a multiple of the digit size, see `C71_refuted`. | C71_refuted: C71, refuted. A negative signed value whose width is not a multiple of the digit size shows its sign extension in the top digit, so the digits denote another number."
  },
  {
   "property": "C72",
   "status": "partial",
   "theorems": [
    "Verif.C72_exact",
    "Verif.C72_single_partial",
    "Verif.C72_refuted"
   ],
   "note": "C72_exact: C72, exact. `bit::str(\"h\")`/`str(\"o\")` print the digits of the stored word least significant first, behind the padding zeros. | C72_single_partial: C72, partial. Values of a single digit are printed right (padded to the width). Not covered: every value with two or more different digits, see `C72_refuted`. | C72_refuted: C72, refuted. At every width of at least two digits the value `2^st` prints as `0..01`, which denotes 1."
  },
  {
   "property": "C73",
   "status": "partial",
   "theorems": [
    "Verif.C73_decimal_partial",
    "Verif.C73_refuted"
   ],
   "note": "C73_decimal_partial: C73, partial. `str(\"0d\")` of a known native value is the shortest decimal numeral of the number, with a leading `-` when negative. Not covered: the most negative value of 32 and 64 bits, see `C73_refuted`. | C73_refuted: C73, refuted. Printing the most negative 32 or 64 bit value computes `~x + 1` in the signed type: signed overflow."
  },
  {
   "property": "C74",
   "status": "proved",
   "theorems": [
    "Verif.C74_digits"
   ],
   "note": "C74_digits: C74. `str(\"h\")` and `str(\"o\")`: digit `k` from the right is the digit of bits `st*k .. st*k+st-1`, x/z digits included; widths that are a multiple of the digit size, or unsigned values with clean storage (whose missing bits read 0)."
  },
  {
   "property": "C75",
   "status": "partial",
   "theorems": [
    "Verif.C75_exact",
    "Verif.C75_padding_partial",
    "Verif.C75_huge_refuted",
    "Verif.C75_2state_exact",
    "Verif.C75_padding_2state_partial",
    "Verif.C75_bounds_partial",
    "Verif.C75_refuted",
    "Verif.C75_empty_refuted",
    "Verif.C75_wide_2state_refuted"
   ],
   "note": "C75_exact: C75, 4-state, exact. Any width, any letter, any requested width `N` of 64 bits: `str(\"0b\u2026\")` is the bare text, `str(\"Nb\u2026\")` pads it to the larger of `N` and the natural width, `N = 0` not at all. The padding loop counts in 32 bits: it does not end when `2^32` characters or more are missing. Excluded: decimal text of exactly 128 bits, see `C75_refuted`. | C75_padding_partial: C75, partial, 4-state. Any width, any letter: `str(\"0b\u2026\")` is the bare text, `str(\"b\u2026\")` pads it to the natural width and `str(\"Nb\u2026\")` to the larger of `N` and the natural width, `N = 0` not at all; the minus sign is not counted. Missing: decimal text of exactly 128 bits, see `C75_refuted`, and requests of `2^32` characters and more, see `C75_huge_refuted`. | C75_huge_refuted: C75, refuted. A request for `2^32` characters more than the bare text has is never answered: the 32-bit counter of the padding loop never reaches the number of missing characters. | C75_2state_exact: C75, native 2-state, exact. | C75_padding_2state_partial: C75, partial, native 2-state.. Missing: wide values, where it is false (`C75_wide_2state_refuted`), the empty format (`C75_empty_refuted`) and requests of `2^32` characters and more (`C75_2state_exact`). | C75_bounds_partial: C75, partial. The padded text ends in the bare text, has only padding characters in front, and is at least as long as `N` and as the natural width. Missing: decimal text of 128 bits (`C75_refuted`) and requests of `2^32` characters and more (`C75_huge_refuted`). | C75_refuted: C75, refuted. No decimal text of a 128-bit object can be produced: the table of decimal widths has 128 entries and is read at index 128. | C75_empty_refuted: C75, refuted. An empty format throws. | C75_wide_2state_refuted: C75, refuted, wide 2-state. Each limb is padded to the requested width: `str(\"Nb\")` with `64 \u2264 N` has `N` characters per limb."
  },
  {
   "property": "C76",
   "status": "partial",
   "theorems": [
    "Verif.C76_hex_exact",
    "Verif.C76_hex_partial",
    "Verif.C76_hex_refuted",
    "Verif.C76_octal_partial",
    "Verif.C76_octal_oob_refuted",
    "Verif.C76_octal_refuted",
    "Verif.C76_decimal_exact",
    "Verif.C76_decimal_partial",
    "Verif.C76_decimal_refuted"
   ],
   "note": "C76_hex_exact: C76, exact, hexadecimal (and binary). | C76_hex_partial: C76, partial, hexadecimal and binary. Every digit of a clean value whose width is not a multiple of 64 shows its bits, x/z digits included. Missing: multiples of 64, for which it is false (`C76_hex_exact`, `C76_hex_refuted`). | C76_hex_refuted: C76, refuted, hexadecimal and binary. At every multiple of 64 above 64 the text does not depend on the top 64 bits. | C76_octal_partial: C76, partial, octal. For widths other than `192q+64`, `192q+127` and `192q+128`, the octal text has `\u2308n/3\u2309` digits, and every digit that lies within one 64-bit limb shows its bits. Missing: those widths, where formatting reads past the array (`C76_octal_oob_refuted`), and the digits that cross a limb (`C76_octal_refuted`). | C76_octal_oob_refuted: C76, refuted, octal. At widths `192q+64`, `192q+127`, `192q+128` every octal formatting reads past the end of the limb array. | C76_octal_refuted: C76, refuted, octal. In every width where octal formatting reads only the array there is a value whose text is wrong: for `2^64` the digit of bits 63, 64, 65 is printed as 1 and not as 2. | C76_decimal_exact: C76, exact, decimal. `str(\"0d\")` of a known wide value, other than 128 bits wide: only the low 128 bits are shown, zero as the empty text, and a negative value with the low 128 bits of the *unmasked* negation. | C76_decimal_partial: C76, partial, decimal. Covers nonzero known values that are not negative, are below `2^128` and not 128 bits wide. Missing: all others, for which the text is wrong or undefined (`C76_decimal_exact`, `C76_decimal_refuted`). | C76_decimal_refuted: C76, refuted, decimal. Zero is the empty text in every width, no 128-bit object can be printed, and every negative value of fewer than 128 bits is printed as another number."
  },
  {
   "property": "C77",
   "status": "partial",
   "theorems": [
    "Verif.C77_round_trip_partial",
    "Verif.C77_refuted",
    "Verif.C77_native_exact"
   ],
   "note": "C77_round_trip_partial: C77, partial. Parsing `'b` followed by `str()` gives the object back, for native unsigned objects whose x/z bits are all below position 32. Missing: objects with x or z from position 32 on, which cannot be read back (`C77_refuted`), and signed objects (`C77_native_exact`). | C77_refuted: C77, refuted. Any native object with an unknown bit at a position `i \u2265 32` prints to text that the parser cannot read back: `1u << i` is undefined. | C77_native_exact: C77, exactly. A canonical native object of either sign is read back from its binary text if and only if no bit at position 32 or above is x or z and, for a signed object whose width is not that of a C++ type, the top value bit is clear."
  },
  {
   "property": "C78",
   "status": "partial",
   "theorems": [
    "Verif.C78_read_partial",
    "Verif.C78_update_exact",
    "Verif.C78_update_partial",
    "Verif.C78_one_bit",
    "Verif.C78_refuted"
   ],
   "note": "C78_read_partial: C78, reading. Element `i` of a packed array: the `w` bits read are right, except that on a native array the element must not end the holder and must be wider than one bit. Missing: those elements; `C79_native_exact` and `C78_one_bit` say what is read, `C78_refuted` that it can be undefined. | C78_update_exact: C78, writing, exact. `update(i, v)` writes `v` to element `i` and also clears the lowest bit of element `i + 1`. | C78_update_partial: C78. After `update(i, v)` element `i` reads `v`; every element other than `i` and `i + 1` reads as before; so do all bits but the lowest of element `i + 1`. When `i` is the last element every other element is unchanged. Missing: the lowest bit of element `i + 1`, which is cleared (`C78_update_exact`, `C78_refuted`). | C78_one_bit: C78, one-bit elements of a native unsigned array. Reading element `i` gives on each plane the disjunction of the bits `i` and `i + 1`. | C78_refuted: C78 is false as stated. (1) Whenever element `i + 1` has a lowest bit other than 0, `update(i, v)` changes it. (2) Reading the last element of an array that fills its native holder has undefined behaviour. (3) So does writing the last element of a 64-bit array."
  },
  {
   "property": "C79",
   "status": "partial",
   "theorems": [
    "Verif.C79_out_of_range_partial",
    "Verif.C79_high_base",
    "Verif.C79_refuted",
    "Verif.C79_native_exact",
    "Verif.C79_write_wide_exact",
    "Verif.C79_write_native_exact"
   ],
   "note": "C79_out_of_range_partial: C79. An index with an x/z bit, a negative index, or an index not below the number of *bits* of the array reads all x, and a write there changes nothing. Missing: indices between the number of elements and the number of bits, for which it is false (`C79_refuted`, `C79_native_exact`, `C79_write_wide_exact`, `C79_write_native_exact`). | C79_high_base: C79, consequence. The guard compares the index with the number of bits before the low bound is subtracted: if the low bound of the array is at least the number of bits, every element reads x and every write is lost. | C79_refuted: C79 is false as stated. (1) In a wide array any index from the number of elements up to the number of bits reads known zeros, not x. (2) In a native array such a read can be undefined, and (3) such a write leaves an object that no longer equals itself before the write although no bit of it changed. | C79_native_exact: C78 and C79, native arrays, exactly. Let the index be known and pass the guard, that is `0 <= index < number of bits`, and let `i` be the index less the low bound. The read is undefined if `i < 0` or if the element, with the bit after it, does not fit the C++ integer that holds the array; otherwise it returns bits `i*w .. i*w+w-1` of the storage, in an array of one-bit elements their disjunction with the next bit. | C79_write_wide_exact: C79, writes, wide arrays, exactly. Let the index be known and pass the guard, that is `0 <= index < number of bits`, and let `i` be the index less the low bound, inside the array or not. The bits `i*w .. i*w+w` of the array, as far as they exist, receive those of the value, 0 past its end; the others keep theirs. So an index from the number of elements on writes nothing, and the index -1 (of an array whose low bound is positive) overwrites the lowest bit of element 0. | C79_write_native_exact: C79, writes, native arrays, exactly. As for wide arrays, but if the bits `i*w .. i*w+w` lie in the 64 bits of the largest holder all of them that the storage has are written, also those above the array; otherwise the write is undefined."
  },
  {
   "property": "C80",
   "status": "partial",
   "theorems": [
    "Verif.C80_slice_partial",
    "Verif.C80_update_partial",
    "Verif.C80_refuted",
    "Verif.C80_refuted_all"
   ],
   "note": "C80_slice_partial: C80, reading. `slice_array<hi, lo>()` of an unsigned packed array: element `e` of the slice is element `min hi lo - base + e` of the array. Slices of 65 bits in all do not compile (`C49_65_bits`). Missing: signed arrays, for which it can be undefined (`C80_refuted_all`). | C80_update_partial: C80, writing. `update<hi, lo>(v)` with a value as wide as the addressed elements: element `lo + e` receives bits `e*w ..` of `v`, all other elements are unchanged. Missing: values of another width, and values with an x or z from bit 64 on, for which the update is undefined (`C55_fault`). | C80_refuted: C80 is false for signed native arrays: slicing off the top of an array of signed elements that fills its holder is undefined. | C80_refuted_all: C80 is false for all native signed arrays without spare bits: a slice that includes the last element is undefined behaviour, for every array and every value."
  },
  {
   "property": "C81",
   "status": "partial",
   "theorems": [
    "Verif.C81_get",
    "Verif.C81_update_exact",
    "Verif.C81_update_partial",
    "Verif.C81_history_partial",
    "Verif.C81_refuted"
   ],
   "note": "C81_get: C81, reading. An in-range index reads its element, any other the default value. | C81_update_exact: C81, writing, exact. `update<idx>(v)` with an in-range index takes effect exactly when `0 \u2264 idx < size`; otherwise it is dropped. | C81_update_partial: C81, arrays that start at index 0: after `update<i>(v)`, `arr[i]` is `v` and every other index reads as before; the default value outside the array. Missing: arrays that start elsewhere, which drop updates (`C81_update_exact`, `C81_refuted`). | C81_history_partial: C81, histories. After any sequence of in-range updates of an array that starts at index 0 every index reads the last value written there, or what it read before. Missing: arrays that start elsewhere, which drop updates (`C81_refuted`). | C81_refuted: C81 is false for arrays that do not start at 0: in every such array some in-range update is dropped."
  },
  {
   "property": "C82",
   "status": "partial",
   "theorems": [
    "Verif.C82_history_partial",
    "Verif.C82_fields_partial",
    "Verif.C82_refuted",
    "Verif.C82_2state_exact",
    "Verif.C82_2state_union_partial",
    "Verif.C82_refuted_all"
   ],
   "note": "C82_history_partial: C82, histories of field writes of a 4-state packed struct or union: every bit holds the last value written to it. Missing: 2-state structs, for which it is false (`C82_2state_exact`). | C82_fields_partial: C82. In any history of field writes, reading a field after a write to it and any number of writes to fields disjoint from it gives the value written; reading a field no write has touched gives what it held at the start. Fields of 65 bits do not compile (`C49_65_bits`). Missing: 2-state structs, for which it is false (`C82_refuted`, `C82_2state_exact`). | C82_refuted: C82 is false for 2-state structs: in `packed_struct<8, false>` writing 15 to the field `[7:4]` leaves the struct unchanged (the source is indexed with the destination position, C57). | C82_2state_exact: C82, 2-state, exactly. After any history of field writes every bit holds the bit of the last value written to it at its position in the struct, where it should be its position in the field. | C82_2state_union_partial: C82, 2-state, the fields at position 0: a struct whose fields all start at bit 0 (a union) holds what was written. Missing: fields at other positions, for which it is false (`C82_2state_exact`, `C82_refuted_all`). | C82_refuted_all: C82 is false of every 2-state struct with a field that starts above its own width: what is read back from the field is 0, whatever was written."
  },
  {
   "property": "C83",
   "status": "proved",
   "theorems": [
    "Verif.C83_order_independent",
    "Verif.C83_tests"
   ],
   "note": "C83_order_independent: C83. Every implementation of `std::reduce` that the standard allows returns the same `int` as the left fold of the model, for the disjunction and the conjunction of limbs; `any_set`, `is_one`, `fit_in_64`, `all_set` and the limb comparisons use nothing else of the reduction. | C83_tests: C83, the tests themselves: for every choice of evaluation trees the results of `any_set`, `fit_in_64` and `is_one` are those of the model."
  },
  {
   "property": "C84",
   "status": "partial",
   "theorems": [
    "Verif.C84_tests_partial",
    "Verif.C84_visible_partial",
    "Verif.C84_refuted"
   ],
   "note": "C84_tests_partial: C84, exact behaviour. The tests of a canonical wide value look at the lower half of every limb only (`is_one` also at the upper half of the lowest limb). Missing: the other bits, on which the tests do not depend (`C84_refuted`). | C84_visible_partial: C84 under the extra hypothesis that every non-zero 64-bit chunk has a one in its lower half: the tests decide what their names say. Missing: values with other chunks, for which it is false (`C84_tests_partial`, `C84_refuted`). | C84_refuted: C84 is false of the code. Flipping bit 32 of a canonical zero does not change `any_set`; from 97 bits on, flipping bit 96 of the value 1 changes neither `fit_in_64` nor `is_one`."
  },
  {
   "property": "C85",
   "status": "proved",
   "theorems": [
    "Verif.C85_bit",
    "Verif.C85_logic"
   ],
   "note": "C85_bit: C85. `k_bit` and `k_bit64`: the number modulo 2^32 or 2^64, canonical, signed. | C85_logic: C85. `k_logic` and `k_logic64`: the same number, no x or z."
  },
  {
   "property": "C86",
   "status": "partial",
   "theorems": [
    "Verif.C86_all_set_partial",
    "Verif.C86_refuted"
   ],
   "note": "C86_all_set_partial: C86, exact behaviour. `all_set()` of a wide value is always false. Missing: the value with every bit set, for which it is wrong (`C86_refuted`). | C86_refuted: C86 is false of the code at every wide width: the value with every bit set is not `all_set()`."
  },
  {
   "property": "C87",
   "status": "partial",
   "theorems": [
    "Verif.C87_mixed_partial",
    "Verif.C87_refuted",
    "Verif.C87_mixed_exact",
    "Verif.C87_refuted_all"
   ],
   "note": "C87_mixed_partial: C87. `&`, `|`, `^` of canonical 2-state operands of different widths never fault, give canonical unsigned results when one operand is unsigned, and compute the boolean function of the extended operands. Wide operands have to be unsigned (C48). Missing: wide signed operands, for which it is false unless they are negative (`C87_mixed_exact`, `C87_refuted_all`). | C87_refuted: C87 is false of the code for a wide signed operand: 5 & 2^100 has bit 100. | C87_mixed_exact: C87, exact. `&`, `|`, `^` of canonical 2-state operands of any two widths and signednesses never fault, leave no bit above the result width, and compute the boolean function of the operands as the code extends them (`codeBit`). | C87_refuted_all: C87 is false for every wide signed operand that is not negative: at every position above its width `x & y` is the bit of `y` and `x | y` is 1, although the extension of `x` has zeros there."
  },
  {
   "property": "C88",
   "status": "partial",
   "theorems": [
    "Verif.C88_or_partial",
    "Verif.C88_xor_wide",
    "Verif.C88_refuted"
   ],
   "note": "C88_or_partial: C88, exact behaviour of `r_or` at every width. `r_or`/`r_nor` say whether some bit that is seen is 1 (every bit of a native value is), `r_nand` is the negation of `r_and`. Missing: the unseen bits, the upper halves of the limbs of a wide value (`C88_refuted`), and what `r_and` is (C21). | C88_xor_wide: C88: `r_xor`/`r_xnor` of wide values are exactly the parity and its negation (the native forms do not compile). | C88_refuted: C88 is false of `r_or` at every width above 64: a value whose only one is bit 40 gives false."
  },
  {
   "property": "C89",
   "status": "partial",
   "theorems": [
    "Verif.C89_wide_exact",
    "Verif.C89_refuted_all",
    "Verif.C89_slice_partial",
    "Verif.C89_refuted"
   ],
   "note": "C89_wide_exact: C89, wide values, exact. The wide constant slice does not use the declared range: bit `i` of `slice<a,b>()` is the stored bit `min(a,b) + i`, 0 above the value. | C89_refuted_all: C89 is false for every wide descending range with a positive low bound and every index that compiles (`idx < size`): the one written at `idx` is not in `slice<idx,idx>()`. | C89_slice_partial: C89, native unsigned values: `slice<a,b>()` of a value declared `[msb:lsb]`, `lsb \u2264 msb`, takes the bits that `set` writes at the indices `min(a,b) ..`. Missing: wide values, for which it is false (`C89_wide_exact`, `C89_refuted_all`), and native signed ones (C50). | C89_refuted: C89 is false of the code for wide values: on a `[80:8]` value, after writing a one at index 8, `slice<8,8>()` is 0, because the wide slice does not subtract the low bound."
  },
  {
   "property": "C90",
   "status": "partial",
   "theorems": [
    "Verif.C90_bit_static",
    "Verif.C90_logic_static_partial",
    "Verif.C90_refuted",
    "Verif.C90_set_descending"
   ],
   "note": "C90_bit_static: C90, 2-state. On a range that starts at 0, `set<i>(v)` writes the bit that `set(i, v)` writes and no other, and `get<i>()` (native only) reads it. | C90_logic_static_partial: C90, 4-state, partial. On a range that starts at 0, `get<i>()` of a native value gives the bit that `operator[](i)` gives, x and z included, and `set<i>(v)`, `set_x<i>()`, `set_z<i>()` have the effect of their run-time forms. Missing: ranges with another low bound (`C90_refuted`). | C90_refuted: C90 is false for ranges with a positive low bound. On every native descending range `get<i>()` of an index below the low bound compiles and gives the bit at position `i`, where `operator[](i)` gives x; an index that is in range but not below the size does not compile. | C90_set_descending: C90, writes on descending ranges. On a descending range with any low bound `set<i>(v)`, `set_x<i>()` and `set_z<i>()` of an index in range write the same bit as their run-time forms, the one named `i`, and no other."
  },
  {
   "property": "C91",
   "status": "proved",
   "theorems": [
    "Verif.C91_narrow"
   ],
   "note": "C91_narrow: C91. `extend<m>()` of an unsigned value to fewer bits keeps the low `m` bits; the result is canonical. `extend<65>()` does not compile (`C49_65_bits`)."
  },
  {
   "property": "C92",
   "status": "partial",
   "theorems": [
    "Verif.C92_assign_int_partial",
    "Verif.C92_one_bit",
    "Verif.C92_refuted",
    "Verif.C92_clean_iff"
   ],
   "note": "C92_assign_int_partial: C92, partial. From two bits on, `x = k` stores the low bits of `k` and clears x and z; if `k` is a number of the declared width and sign the result is canonical and denotes `k`. Missing: other integers (`C92_refuted`) and one bit targets (`C92_one_bit`). | C92_one_bit: C92, one bit: any non-zero integer stores 1. | C92_refuted: C92 is false for other integers: for every native width that is not that of a C++ type, after `x = 2^n` all bits of `x` are 0 but `x` is not equal to 0; and assigning 2 to one bit stores 1. | C92_clean_iff: C92, exactly. `x = k` leaves a canonical `x` if and only if `k` differs from the number that its low `n` bits denote by a multiple of `2^w`, `w` the width of the C++ type that holds `x`."
  },
  {
   "property": "C93",
   "status": "partial",
   "theorems": [
    "Verif.C93_assign_partial",
    "Verif.C93_assign_logic_partial",
    "Verif.C93_refuted",
    "Verif.C93_z_refuted",
    "Verif.C93_one_bit",
    "Verif.C93_clean_iff",
    "Verif.C93_narrow_refuted",
    "Verif.C93_assign_logic_exact",
    "Verif.C93_z_refuted_all"
   ],
   "note": "C93_assign_partial: C93, partial. `y = x` between native widths for a canonical `x` and a target of at least two bits: the target bits are those of the number `x` denotes, that is `x` truncated, zero extended (unsigned `x`) or sign extended (signed `x`); if the number is representable in the target the result is canonical and denotes the same number. Missing: one bit targets and canonical form of the others (`C93_refuted`), 4-state values with x/z (`C93_z_refuted`). | C93_assign_logic_partial: C93, 4-state, partial. The same without x/z: the value plane as above and no x or z in the target; x and z bits of an unsigned value are kept on widening. Missing: signed sources with x or z (`C93_assign_logic_exact`, `C93_z_refuted_all`), one-bit targets (`C93_one_bit`) and canonical form (`C93_clean_iff`). | C93_refuted: C93 is false as stated. A one bit target tests for non-zero instead of taking bit 0; narrowing leaves stored bits above the width, so the value 16 assigned to four bits has all bits 0 and differs from 0. | C93_z_refuted: C93 is false for signed values that start with z: widening a signed z gives ones. | C93_one_bit: C93, one bit targets, exact: the number is tested for non-zero. | C93_clean_iff: C93, canonical form, exact. The result of an assignment to two or more bits is canonical exactly when the number in the C++ type of the target and the number in its declared bits are the same. | C93_narrow_refuted: C93 is false for every pair of native widths that narrows to a width without a C++ type: `2^m` gives a value of `m` zero bits that is not equal to 0. | C93_assign_logic_exact: C93, 4-state, exact. The bits of the source are kept, x and z included; the bits above an unsigned or one bit source are 0 and those above a signed source repeat the *value bit* of its top position, without its x/z mark. | C93_z_refuted_all: C93 is false for every widening of a signed value that starts with z: the new bits are ones."
  },
  {
   "property": "C94",
   "status": "partial",
   "theorems": [
    "Verif.C94_concat_bits_partial",
    "Verif.C94_concat_logic_partial",
    "Verif.C94_refuted",
    "Verif.C94_fault",
    "Verif.C94_truncated_refuted",
    "Verif.C94_signed_refuted"
   ],
   "note": "C94_concat_bits_partial: C94, 2-state, partial. `concat(x, y0, y1, ...)` of unsigned values: the result has the total width, is canonical, has `x` on top and argument `j` above the total width of the arguments after it. Missing: a step from at most 32 to more than 32 bits and signed arguments (`C94_refuted`); a total width of 64 or more does not compile. | C94_concat_logic_partial: C94, 4-state, partial. The same for `logic`, x and z included. Missing: what `C94_concat_bits_partial` leaves out (`C94_fault`, `C94_truncated_refuted`, `C94_signed_refuted`). | C94_refuted: C94 is false as stated: `concat` of 16, 16 and 8 bits loses the top eight bits of the first argument, and a negative signed last argument sets all bits above it. | C94_fault: C94, an undefined case. If an argument of 32 bits or more follows arguments of at most 32 bits in all, the concatenation is undefined behaviour, whatever the values and the further arguments. | C94_truncated_refuted: C94 is false whenever the total passes from at most 32 to more than 32 bits with an argument below 32 bits: all bits from 32 up are 0. | C94_signed_refuted: C94 is false of every negative signed last argument after arguments that are not all ones: all bits above it are ones."
  },
  {
   "property": "C95",
   "status": "partial",
   "theorems": [
    "Verif.C95_ascending_exact",
    "Verif.C95_ascending_refuted_all",
    "Verif.C95_bit_vector_index_partial",
    "Verif.C95_ascending_refuted",
    "Verif.C95_logic_vector_index_partial",
    "Verif.C95_logic_refuted"
   ],
   "note": "C95_ascending_exact: C95, ascending ranges, exact, for the bit selected by the body of `bit::get(bit)` (no call compiles, because the body returns a `bit<0>` as `bool`). `get(op)` on an ascending range reads the bit declared at index `op - lo`, as long as there is one. | C95_ascending_refuted_all: C95 is false for every ascending range that does not start at 0 and every index for which the positions written and read exist: the one written at the index is not read there (`set` subtracts the low bound after mirroring the index, `get(op)` before). | C95_bit_vector_index_partial: C95, 2-state, partial. About the bit selected by the body of `bit::get(bit)`; no call compiles, because the body returns a `bit<0>` as `bool`. On every descending range, whatever its low bound, `get(op)` reads the bit that `set(i, v)` with `i` the number held by `op` writes: after `set(i, v)` it is `v`. Missing: ascending ranges with a low bound other than 0 (`C95_ascending_refuted`). | C95_ascending_refuted: C95, 2-state, is false for ascending ranges with another low bound (index arithmetic of the body, which has to be made to compile first): on `bit<1,4>` a one written at 3 is not read at 3. | C95_logic_vector_index_partial: C95, 4-state, partial. On a native range that starts at 0 `get(op)` gives the bit addressed by the number in `op`, x and z included. Missing: other low bounds (`C95_logic_refuted`); an index that is itself 4-state or wide does not compile. | C95_logic_refuted: C95, 4-state, is false for ranges with a positive low bound: every in-range index below twice the low bound reads x, because the rebased index is tested against the declared range."
  },
  {
   "property": "C96",
   "status": "partial",
   "theorems": [
    "Verif.C96_highest_bit_partial",
    "Verif.C96_negative",
    "Verif.C96_zero",
    "Verif.C96_refuted"
   ],
   "note": "C96_highest_bit_partial: C96, partial. `highest_bit()` of a canonical non-zero value is the position of its highest one: wide values, unsigned values, native signed values that are not negative, and 64 bit ones. Missing: negative signed values of fewer bits (`C96_negative`) and zero (`C96_zero`). | C96_negative: C96 is false for negative values of signed types of 2 to 63 bits: the answer is 63, which is no position. | C96_zero: C96 for zero: a native zero gives the width; a wide one gives the number of its limbs, which is the position of a bit. | C96_refuted: C96 is false as stated: -1 in twelve bits, and the 100 bit zero, which gives 2."
  },
  {
   "property": "C97",
   "status": "partial",
   "theorems": [
    "Verif.C97_negate_const_partial",
    "Verif.C97_negate_partial",
    "Verif.C97_refuted",
    "Verif.C97_wide_clean_iff",
    "Verif.C97_native_clean_iff"
   ],
   "note": "C97_negate_const_partial: C97, constant, partial. `negate()` of a constant object: the result is unsigned and has the bits of the two's complement, for all values except the least 32 and 64 bit signed numbers (`C35_min_overflow`); it is canonical for native widths and multiples of 64. Missing: the others (`C97_refuted`). | C97_negate_partial: C97, in place, partial. `x.negate()` on a variable: the bits are those of the two's complement, and the result is canonical for unsigned types, for the widths of the C++ types and when the negated number is not negative. Missing: negative results of other signed types (`C97_refuted`); the wide form does not compile. | C97_refuted: C97 is false as stated: `negate()` in place turns a four bit signed 1 into a value that compares greater than 0, although its bits read -1; the negation of a 70 bit 1 is not equal to the 70 bit value with the same bits. | C97_wide_clean_iff: C97, constant, exact. The result of `negate()` on a constant wide object is canonical exactly for multiples of 64 bits and for 0. | C97_native_clean_iff: C97, in place, exact. The result of `negate()` on a native variable is canonical exactly for unsigned and one bit types, for the widths of the C++ types and when the negated number is not negative."
  },
  {
   "property": "C98",
   "status": "partial",
   "theorems": [
    "Verif.C98_popcount_exact",
    "Verif.C98_popcount_partial",
    "Verif.C98_refuted"
   ],
   "note": "C98_popcount_exact: C98, exactly. `popcount()` counts the ones of the whole storage; it is the number of ones of the vector if and only if no stored bit above the width is set. | C98_popcount_partial: C98, partial. `popcount()` of a canonical unsigned native value is the number of its ones. Missing: values with stored bits above the width (`C98_refuted`); signed, one bit and wide types do not compile. | C98_refuted: C98 is false for results of `~`: for every native width that is not that of a C++ type the complement of 0 counts all the bits of the holder."
  },
  {
   "property": "C99",
   "status": "partial",
   "theorems": [
    "Verif.C99_exact",
    "Verif.C99_decimal_partial",
    "Verif.C99_refuted",
    "Verif.C99_wide_exact",
    "Verif.C99_wide_refuted"
   ],
   "note": "C99_exact: C99, native, exact. `str(\"0d\")` of a native object with unknown bits. Of a signed object whose stored value plane is negative (top bit 1 or z) the value plane is negated first. | C99_decimal_partial: C99, partial. The decimal text of a native object with unknown bits is the letter of IEEE 1800 21.2.1.3: `x` or `z` when all bits are x or z, `X` when some bit is x, else `Z`. Missing: wide objects and signed objects whose top bit is 1 or z (`C99_refuted`, `C99_wide_refuted`). | C99_refuted: C99 is false for signed native objects: at every width from 2 bits on, the object with all bits z is shown as `-X` and not as `z`. | C99_wide_exact: C99, wide, exact for objects whose value plane is not negative: only the low 128 bits count. Below 128 bits the letters `x` and `z` are never shown. Unknown bits above bit 127 alone do not show: the low 128 bits are printed as a number. | C99_wide_refuted: C99 is false for wide objects: (1) below 128 bits, an object with all bits x is shown as `X`, and with all bits z as `Z`; (2) above 128 bits, an object whose low 128 bits are all x is shown as `x` whatever the others are, and (3) unknown bits above bit 127 are ignored."
  },
  {
   "property": "C100",
   "status": "partial",
   "theorems": [
    "Verif.C100_native",
    "Verif.C100_wide_exact",
    "Verif.C100_round_trip_partial",
    "Verif.C100_wide_refuted",
    "Verif.C100_2state_refuted"
   ],
   "note": "C100_native: C100, native. `str(\"s\")` of an object of whole bytes shows its bytes as characters, the most significant first; unknown bits show as 0 (x) and 1 (z). | C100_wide_exact: C100, wide, exact. At a width that is a multiple of 64 the top limb is replaced by eight blanks. | C100_round_trip_partial: C100, round trip, partial. A text without a quote, of `n / 8` characters, given to an object of `n` bits prints back with `str(\"s\")`. Missing: widths that are multiples of 64 above 64 (`C100_wide_refuted`) and 2-state vectors (`C100_2state_refuted`). | C100_wide_refuted: C100 is false at multiples of 64 above 64: the text is shown with its first eight characters blanked. | C100_2state_refuted: C100 is false for 2-state vectors: of more than eight bits every one is undefined (the shift amount is scaled twice), and one byte is shown as its decimal code, backwards."
  },
  {
   "property": "C101",
   "status": "partial",
   "theorems": [
    "Verif.C101_decimal",
    "Verif.C101_octal",
    "Verif.C101_hex_partial",
    "Verif.C101_refuted",
    "Verif.C101_hex_iff"
   ],
   "note": "C101_decimal: C101, decimal. In every decimal format the text of a wide signed 2-state vector is that of the 4-state vector with the same bits. | C101_octal: C101, octal. The octal text of a wide signed 2-state vector, or its fault, is that of the 4-state vector with the same bits. | C101_hex_partial: C101, hexadecimal, partial. The texts agree when in every limb (64 bits, the top one what is left) all bits are zero or the top hexadecimal digit is not zero. Missing: other values, see `C101_refuted`. | C101_refuted: C101, refuted. When bits 60 to 63 are zero and the lowest hexadecimal digit is not, the hexadecimal text of a wide signed 2-state vector differs from that of the 4-state vector with the same bits: its digits come out mirrored within the limb. | C101_hex_iff: C101, hexadecimal, exactly. The hexadecimal text of a wide signed 2-state vector is that of the 4-state vector with the same bits if and only if each printed 64-bit limb is zero or its top hexadecimal digit is not zero; the last limb, when it is not full, in the digit positions it has."
  },
  {
   "property": "C102",
   "status": "partial",
   "theorems": [
    "Verif.C102_object",
    "Verif.C102_exact",
    "Verif.C102_partial",
    "Verif.C102_refuted"
   ],
   "note": "C102_object: C102, the object. A native literal without x/z digits of any positional base: the constructor from the text gives exactly the object that the constructor from the denoted integer gives. | C102_exact: C102, exact. Native widths from 2 on: the bits are the low `n` bits of the denoted number `N`; the numeric conversion is `N` reduced to the *holder* type (8, 16, 32 or 64 bits), not to the declared width; the value is canonical exactly when that reduction is the number that the bits denote in the declared width and sign. | C102_partial: C102, partial. A native literal whose number fits the declared width and sign (or any literal when the width is that of a C++ type) gives the canonical value, equal to every value of that number and convertible back to it. Not covered: literals with more digits than the width or with the sign bit set, where it is false, see `C102_refuted`. | C102_refuted: C102 is false of the code. At every native width that is not that of a C++ type the text `'b1...1` of `n` ones makes a signed value with all bits set that converts to `2^n - 1`, is not negative, and is not equal to -1; the text `'b10...0` with `n` zeros makes an unsigned value with all bits clear that is true as a condition and not equal to 0."
  },
  {
   "property": "C103",
   "status": "partial",
   "theorems": [
    "Verif.C103_read_partial",
    "Verif.C103_update_exact",
    "Verif.C103_update_partial",
    "Verif.C103_update_out",
    "Verif.C103_refuted",
    "Verif.C103_native_exact",
    "Verif.C103_write_wide_exact",
    "Verif.C103_write_native_exact"
   ],
   "note": "C103_read_partial: C103, reading, partial. Element `i` of a 2-state packed array, with the exception of C78: on a native array the element must not end the holder and must be wider than one bit. An index with x/z, negative or not below the number of bits of the array reads zero. Missing: those elements, and indices between the number of elements and the number of bits (`C103_native_exact`). | C103_update_exact: C103, writing, exact. `update(i, v)` of a canonical element of a width other than 32 and 64: element `i` becomes `v`, and the lowest bit of element `i + 1` is overwritten by the sign of `v`; all other bits are unchanged. | C103_update_partial: C103, writing, partial. After `update(i, v)` of an element of a width other than 32 and 64, element `i` reads `v` and every other element reads as before, but for the lowest bit of element `i + 1`. Missing: `C103_refuted`. | C103_update_out: a write outside the array (x/z index, negative, or not below the number of bits) is ignored | C103_refuted: C103 is false as stated. (1) Writing any element of a 2-state array with elements of 32 or 64 bits is undefined behaviour: the operand is read one bit past its end. (2) Writing the negative element -1 of four bits to element 0 of zeros sets the lowest bit of element 1. | C103_native_exact: C103, native arrays, exactly. The same for 2-state arrays. | C103_write_wide_exact: C103, writes, wide arrays, exactly. For a known index that passes the guard, inside the array or not: the bits `i*w .. i*w+w-1` of the array, as far as they exist, receive the element, and bit `i*w+w` its sign; the others keep theirs. Elements of 32 and 64 bits are excepted (`C103_refuted`). | C103_write_native_exact: C103, writes, native arrays, exactly. As for wide arrays; inside 64 bits all bits `i*w .. i*w+w` that the storage has are written, also those above the array; outside of them the write is undefined."
  },
  {
   "property": "C104",
   "status": "partial",
   "theorems": [
    "Verif.C104_of_big_partial",
    "Verif.C104_one_bit",
    "Verif.C104_refuted",
    "Verif.C104_clean_iff"
   ],
   "note": "C104_of_big_partial: C104, partial. `bit<n-1,0>(b)` of a `big_num` has the low `n` bits of the number stored in `b`, for `n` from 2 on; if that number is below `2^n` the unsigned result is canonical and denotes it. Missing: one bit (`C104_one_bit`) and canonical form for larger numbers (`C104_refuted`). | C104_one_bit: C104, one bit: the first limb is tested for non-zero. | C104_refuted: C104 is false as stated: the bits above the width are kept (the four bit value made from 16 has all bits 0 and is not equal to 0), and the one bit value made from 2 is 1. | C104_clean_iff: C104, exactly. The native value made from a `big_num` is canonical if and only if the number in its lowest limb differs from the number that its low `n` bits denote by a multiple of `2^w`, `w` the width of the C++ type that holds the result."
  },
  {
   "property": "C105",
   "status": "partial",
   "theorems": [
    "Verif.C105_x_iff",
    "Verif.C105_compare_partial",
    "Verif.C105_compare_x_partial",
    "Verif.C105_match_partial",
    "Verif.C105_arith_partial",
    "Verif.C105_arith_x_partial",
    "Verif.C105_div_zero",
    "Verif.C105_refuted"
   ],
   "note": "C105_x_iff: C105, exactly. With a 2-state right operand the six relational operators answer x, and sums, differences and products are all x, if and only if the 4-state operand has an x or z that the emptiness test sees. | C105_compare_partial: C105, comparisons, partial. A canonical 4-state value without x/z against a canonical 2-state value of the same type, native or unsigned: the six operators compare the numbers, and `match` compares the bits. Missing: operands of different signedness (`C105_refuted`; an unsigned `bit` with a signed `logic` does not compile); for wide signed values see C42. | C105_compare_x_partial: C105, comparisons with x/z, partial. An x or z of the 4-state operand, in a native value or in the lower half of a 64 bit chunk, makes the answer of the six operators x. Missing: x/z in upper halves only (`C43_wide_refuted`). | C105_match_partial: C105, case equality. `x.match(y)` holds exactly when every bit of `x` is known and equal to the bit of `y`. Missing: operands of different signs, for which it is false (`C105_refuted`); wide signed operands do not compile. | C105_arith_partial: C105, arithmetic, partial. On known unsigned values of two bits and more `+` and `-` are those of the numbers modulo 2^n, and `/` and `%` by a non-zero divisor are quotient and remainder (for wide values under the condition of C31). Missing: one bit sums (C28), wide division of values with chunks that are only set in their upper halves (C31); signed operands follow C28-C34 and products C30. | C105_arith_x_partial: C105, x/z in arithmetic, partial.. Missing: x and z that the emptiness test of a wide value does not see (`C105_x_iff`). | C105_div_zero: C105, division by a 2-state zero is x. | C105_refuted: C105 is false for a signed 2-state operand of an unsigned 4-state one: 15 and the four bit -1 have the same bits and do not match, and `15 < -1` is 1."
  },
  {
   "property": "C106",
   "status": "partial",
   "theorems": [
    "Verif.C106_native_exact",
    "Verif.C106_refuted_all",
    "Verif.C106_shift_assign_partial",
    "Verif.C106_shift_assign_logic_partial",
    "Verif.C106_refuted"
   ],
   "note": "C106_native_exact: C106, native, exactly. A sequence of `<<=` and `>>=` on a native variable is defined if and only if every statement's amount is in the range of the machine shift; then the bits are those of the same shifts. | C106_refuted_all: C106 is false at every native width above one: `x >>= k` with any amount from the width up is undefined behaviour. | C106_shift_assign_partial: C106, 2-state, partial. Any sequence of `<<=` and `>>=` on a variable leaves the bits of the same sequence of shifts. Missing: amounts and widths outside the domain of C24 and C25 (`C106_refuted`). | C106_shift_assign_logic_partial: C106, 4-state, partial. `<<=` and `>>=` of a known value by a known amount move the bits; an x or z in either operand, in a native value or in the lower half of a 64 bit chunk, makes the variable all x. Missing: as for C24, C25 and C27. | C106_refuted: C106 is false as stated: `x >>= 8` of an eight bit variable is undefined behaviour, and after `x <<= 1` on a four bit 15 the bits are those of 14 but `x == 14` is false."
  },
  {
   "property": "C107",
   "status": "partial",
   "theorems": [
    "Verif.C107_plus_exact",
    "Verif.C107_plus_partial",
    "Verif.C107_plus_native",
    "Verif.C107_refuted"
   ],
   "note": "C107_plus_exact: C107, exactly. `+x` is `x` itself unless it has an x or z that the emptiness test sees; then it is all x. | C107_plus_partial: C107, partial. `+x` is `x` itself when `x` has no x or z, and all x when it has one, in a native value or in the lower half of a 64 bit chunk. Missing: x/z in upper halves only (`C107_refuted`). | C107_plus_native: C107 for native widths, without restriction on where the x/z bit is. | C107_refuted: C107 is false for wide values: at every width above 64 there is a canonical value with an x whose `+x` is not all x."
  },
  {
   "property": "C108",
   "status": "partial",
   "theorems": [
    "Verif.C108_native_exact",
    "Verif.C108_dirty_all",
    "Verif.C108_bool_partial",
    "Verif.C108_refuted",
    "Verif.C108_dirty"
   ],
   "note": "C108_native_exact: C108, native values, exact. The truth value is that of the storage: a native value is true exactly when a stored bit is one, above its width or below. | C108_dirty_all: C108 is false at every native width without a C++ type: after `x = 2^n` all bits of `x` are 0 and `x` is true. | C108_bool_partial: C108, partial. A native canonical 2-state value is true exactly when it is not zero; a wide one when it has a one in the lower half of a 64 bit chunk; `!x` is the opposite. Missing: wide values with ones in upper halves only (`C108_refuted`), values that are not canonical (`C108_dirty`). | C108_refuted: C108 is false for wide values: at every width above 64 a value different from zero is false and its `!` is true. | C108_dirty: C108 is false for values that are not canonical: the four bit sum 15 + 1 has bits 0000 and is true."
  },
  {
   "property": "C109",
   "status": "partial",
   "theorems": [
    "Verif.C109_str_len_partial",
    "Verif.C109_str_len_refuted",
    "Verif.C109_copy_partial",
    "Verif.C109_copy_refuted",
    "Verif.C109_reverse_tuple"
   ],
   "note": "C109_str_len_partial: C109, `str_len`, partial. A format that starts with a letter leaves the natural length; one that starts with a number below `2^64` gives the larger of the two. Not covered: the empty format and numbers from `2^64` on, where the function throws, see `C109_str_len_refuted`. | C109_str_len_refuted: C109 is false of `str_len`. The empty format throws at every size, and so does every format whose number is `2^64` or more. | C109_copy_partial: C109, `copy`. For `start \u2264 end`, fewer than `2^32` bits apart: bit `i` of the destination becomes bit `start + i` of the source (0 past its end) for every `i \u2264 end - start` inside the destination, and no other bit changes. Missing: exchanged bounds, for which the loop does not end (`C109_copy_refuted`). | C109_copy_refuted: C109, `copy`, is false when the bounds are exchanged: the loop does not end. | C109_reverse_tuple: C109, `reverse_tuple`. It compiles for every number of arguments and gives the references in the opposite order, so that it is its own inverse. The model of `unpack` uses `List.reverse` for it."
  },
  {
   "property": "C110",
   "status": "partial",
   "theorems": [
    "Verif.C110_bitwise_add_partial",
    "Verif.C110_mul_partial",
    "Verif.C110_div_partial",
    "Verif.C110_signed",
    "Verif.C110_mul_one_limb",
    "Verif.C110_mul_exact",
    "Verif.C110_div_exact",
    "Verif.C110_div_signed",
    "Verif.C110_bitwise_add_exact"
   ],
   "note": "C110_bitwise_add_partial: C110, bitwise operators and sums, partial. On canonical operands of which the narrower one is unsigned or negative the result has the larger size and is the operator applied to the extended values (sign extended for signed operands); `& | ^` give canonical results. Missing: narrower signed operands that are not negative (`C110_signed`). | C110_mul_partial: C110, products, partial. Missing: as for C30 (chunks set only in their upper halves, products whose chunk count exceeds the result), a narrower signed operand, and operands of one limb (`C110_mul_one_limb`). | C110_div_partial: C110, quotient and remainder, partial. A zero divisor gives zero twice. Missing: as for C31, chunks set only in their upper halves, and a narrower signed divisor. | C110_signed: C110 is false for a narrower signed operand, whatever its value: it is extended with ones, so that `0 | 0` is not zero. General in both sizes. | C110_mul_one_limb: C110 is false for products of operands of one limb: the high half is written behind the array. | C110_mul_exact: C110, products, exact. Of canonical operands of any two sizes and signs, the narrower of which is continued with ones if it is signed: if both pass `fit_in_64()` the product of the low words; else an out-of-bounds write if two set bits lie so high that their limbs do not fit the result, and the product otherwise. | C110_div_exact: C110, quotient and remainder, exact. Of canonical operands of any two sizes; a narrower signed divisor is continued with ones and then read without sign. | C110_div_signed: C110 is false for quotients by a narrower signed divisor, whenever a visible bit above the first word is filled with a one: `x / 1` is 0 with remainder `x` for `x < 2^m`. | C110_bitwise_add_exact: C110, bitwise operators and sums, exact. On canonical operands of any two sizes and signs the result is the operator applied to the operands, the narrower of which is continued with ones if it is signed, whatever its sign."
  },
  {
   "property": "C111",
   "status": "partial",
   "theorems": [
    "Verif.C111_native_exact",
    "Verif.C111_part_select_partial",
    "Verif.C111_part_select_logic_partial",
    "Verif.C111_read_back",
    "Verif.C111_refuted"
   ],
   "note": "C111_native_exact: C111, native values, exact. `x[base +: k] = v` and `x[base -: k] = v` with a native canonical `v` of any width: a selection of at most 32 bits (64 for a `v` of more than 32) receives `v` extended by its sign; a longer one is undefined behaviour. | C111_part_select_partial: C111, 2-state, partial. `x[base +: k] = v` and `x[base -: k] = v` replace exactly the addressed bits by the low bits of `v` and keep an unsigned value canonical. Missing: a native `v` narrower than `k`, and selections that leave the vector (`C111_refuted`). | C111_part_select_logic_partial: C111, 4-state, partial. The same with x and z; a value narrower than the selection is extended with zeros. Missing: an x or z of `v` at position 64 or above, and selections that leave the vector (`C111_refuted`). | C111_read_back: `x[base +: k]` read back after `x[base +: k] = v` is `v` when `v` has `k` bits | C111_refuted: C111 is false as stated. `x[0 +: 33] = v` with an eight bit `v` is undefined behaviour. `x[3 +: 4] = 15` on five bits, whose upper two bits lie outside, leaves a value that differs from the five bit value with the same bits. `x[4 -: 6]`, which starts below bit 0, is undefined behaviour."
  },
  {
   "property": "C112",
   "status": "proved",
   "theorems": [
    "Verif.C112_concat",
    "Verif.C112_dirty"
   ],
   "note": "C112_concat: C112. `x.concat(y)` holds `y` in its low bits and `x` above, at any two sizes and for any stored values; it is canonical when `y` is. | C112_dirty: the condition of C112 on canonicity is needed: complementing 70 bits leaves ones above bit 69, and they stay in the concatenation."
  },
  {
   "property": "C113",
   "status": "partial",
   "theorems": [
    "Verif.C113_assign_partial",
    "Verif.C113_refuted",
    "Verif.C113_assign_exact"
   ],
   "note": "C113_assign_partial: C113, partial. Any sequence of `&=` and `^=` leaves the bits of the same sequence of operators, in canonical form from the first statement on. Missing: wider operands, `|=` and signed targets with unsigned operands, which do not compile; narrower signed operands (`C113_refuted`). | C113_refuted: C113 is false for a narrower signed operand: `x ^= 0` flips the bits of `x` above the operand. | C113_assign_exact: C113, exact for one statement. With an operand that is not wider, `x &= y` and `x ^= y` apply the operator to `y` continued with ones if it is narrower and signed."
  },
  {
   "property": "C114",
   "status": "proved",
   "theorems": [
    "Verif.C114_expr"
   ],
   "note": "C114_expr: C114. A well-formed expression over canonical objects, of any size and nesting: whenever its reference value is defined, the library evaluation does not fault and its result reads as the reference value; the result is canonical when the syntax says so."
  },
  {
   "property": "C115",
   "status": "proved",
   "theorems": [
    "Verif.C115_expr4"
   ],
   "note": "C115_expr4: C115. A well-formed 4-state expression over canonical objects, of any size and nesting: whenever its reference value is defined, the library evaluation does not fault and every bit of its result is the reference bit, x and z included."
  },
  {
   "property": "C116",
   "status": "proved",
   "theorems": [
    "Verif.C116_program",
    "Verif.C116_multiply"
   ],
   "note": "C116_program: C116. A well-formed program, run for any number of steps from canonical objects: whenever its reference execution on bit vectors ends (with nothing undefined), the library execution ends as well without a fault, in the same number of steps, and every variable of the final state is canonical and holds the reference value. | C116_multiply: C116 used: the client's multiplication loop, on library objects of any wide width, ends after at most `n` iterations with the product modulo `2^n` in `acc`, for all operands; the library's own wide `*` does not achieve this (`C30_refuted`)."
  },
  {
   "property": "C117",
   "status": "proved",
   "theorems": [
    "Verif.C117_program4",
    "Verif.C117_reverse"
   ],
   "note": "C117_program4: C117. A well-formed 4-state program, run for any number of steps from canonical objects: whenever its reference execution ends with nothing undefined, the library execution ends without a fault and every variable is canonical and holds the reference bits, x and z included. | C117_reverse: C117 used: the client's bit reversal, at every width, on every canonical 4-state object: bit `j` of the result is bit `n-1-j` of the operand, x and z included."
  },
  {
   "property": "C118",
   "status": "partial",
   "theorems": [
    "Verif.C118_wide_zero",
    "Verif.C118_native_zero_partial",
    "Verif.C118_native_fault_refuted",
    "Verif.C118_signed_refuted"
   ],
   "note": "C118_wide_zero: C118, wide values. Reading a wide 2-state value of `[n-1:0]` at any index outside the range yields 0, signed or not. | C118_native_zero_partial: C118, unsigned native values. Reading a canonical unsigned native value at any index from its width up to the width of the promoted holder yields 0. Missing: signed values (`C118_signed_refuted`), and negative and larger indices (`C118_native_fault_refuted`). | C118_native_fault_refuted: C118 is false for native values at other indices. A negative index, or an index from 32 (64 for more than 32 bits) on, is an undefined shift, for every native value. | C118_signed_refuted: C118 is false for signed native values. For every signed native width above 1 and every index from the width up to the width of the promoted holder the read yields the sign bit, so it yields 1 for every negative value."
  },
  {
   "property": "C119",
   "status": "partial",
   "theorems": [
    "Verif.C119_eq_signed_partial",
    "Verif.C119_native_exact",
    "Verif.C119_wide_native_exact",
    "Verif.C119_wide_exact",
    "Verif.C119_wide_native_refuted",
    "Verif.C119_wide_refuted"
   ],
   "note": "C119_eq_signed_partial: C119, partial. Native signed operands of at least two bits: `==` compares the numbers if the right one fits the holder of the left one, in particular if it is not wider. Missing: other native operands (`C119_native_exact`) and wide ones (`C119_wide_exact`, `C119_wide_native_exact`). | C119_native_exact: C119, native, exactly: the right number is reduced to the holder type of the left operand. | C119_wide_native_exact: C119, a wide and a native operand, exactly: the wide bit pattern read without sign is compared with the native number modulo `2^64`. | C119_wide_exact: C119, two wide operands, the right one wider, exactly: the left one is extended by ones, also when it is not negative. (The other order does not compile.) | C119_wide_native_refuted: C119 is false for every wide and native operand: a negative native number is never equal to the same wide number, but equal to a positive one. | C119_wide_refuted: C119 is false for every pair of wide widths: no non-negative number equals itself, and every non-negative `k` equals `k - 2^n`."
  },
  {
   "property": "C120",
   "status": "partial",
   "theorems": [
    "Verif.C120_div_mixed_partial",
    "Verif.C120_wide_exact",
    "Verif.C120_wide_refuted",
    "Verif.C120_div_zero",
    "Verif.C120_div_logic"
   ],
   "note": "C120_div_mixed_partial: C120, partial. Quotient and remainder of canonical unsigned operands of any two widths; for wide ones every non-zero 64-bit chunk must have a one in its lower half. Missing: the other wide operands (`C120_wide_exact`, `C120_wide_refuted`). | C120_wide_exact: C120, wide, every canonical operand: as `C31_wide_exact`, on the numbers of the operands. | C120_wide_refuted: C120 is false for every wide dividend width: `x / 2^40` by a 41-bit to 64-bit divisor, whose native division would be right, gives 0 remainder 0. | C120_div_zero: C120, zero divisors: undefined behaviour for two native operands, 0 and 0 if one is wide. | C120_div_logic: C120, 4-state values without x/z: the 2-state results when the divisor passes `any_set()`, all x when it is zero."
  },
  {
   "property": "C121",
   "status": "partial",
   "theorems": [
    "Verif.C121_mixed_x_iff",
    "Verif.C121_div_x_partial",
    "Verif.C121_wide_refuted"
   ],
   "note": "C121_mixed_x_iff: C121, exactly. Sum, difference and product of vectors of different widths are all x if and only if an operand has an x or z: anywhere if the larger width is native, in the lower half of a 64-bit chunk otherwise. | C121_div_x_partial: C121, quotient and remainder: all x for every such x/z. Missing: the x and z that the emptiness test of a wide result does not see (`C121_mixed_x_iff`, `C121_wide_refuted`). | C121_wide_refuted: C121 is false for every native operand of more than 40 bits that meets a wide one: an x at bit 40, which the operand itself reports, disappears in the sum."
  },
  {
   "property": "C122",
   "status": "partial",
   "theorems": [
    "Verif.C122_add_sub_partial",
    "Verif.C122_wide_exact",
    "Verif.C122_wide_refuted",
    "Verif.C122_overflow",
    "Verif.C122_mul_partial",
    "Verif.C122_mul_overflow",
    "Verif.C122_mul_wide_refuted",
    "Verif.C122_div_partial"
   ],
   "note": "C122_add_sub_partial: C122, sums and differences, partial. Operands of any signedness and different widths: the sum and the difference of their numbers modulo `2^max`. Narrower wide signed operands must be negative, and two signed operands must not overflow at 32 and 64 bits. Missing: narrower wide signed operands that are not negative (`C122_wide_exact`, `C122_wide_refuted`), and the overflows (undefined behaviour, `C122_overflow`). | C122_wide_exact: C122, wide results, exactly: a narrower operand of more than 64 bits that is signed contributes its bit pattern minus `2^n`, whatever its sign. | C122_wide_refuted: C122 is false for every pair of wide widths: a narrower signed value that is not negative gives a wrong sum with every other value. | C122_overflow: C122, the overflows: two signed native operands of different widths, the wider one of 32 or 64 bits; a sum that is not representable is undefined behaviour. | C122_mul_partial: C122, products, partial: signed native operands whose product fits the type in which C++ multiplies. Missing: the other native ones (`C122_mul_overflow`) and the wide ones (`C122_mul_wide_refuted`). | C122_mul_overflow: C122, products that do not fit: undefined behaviour. | C122_mul_wide_refuted: C122 is false for every product of a negative native operand with a non-zero wide one: it writes outside the array. | C122_div_partial: C122, quotients and remainders, partial: signed native operands, a non-zero divisor, not the most negative number by -1 at 32 and 64 bits. Missing: that case, which C34 shows to be undefined for equal widths, and wide signed division, which does not compile."
  },
  {
   "property": "C123",
   "status": "partial",
   "theorems": [
    "Verif.C123_add_sub_iff",
    "Verif.C123_add_sub_iff_right",
    "Verif.C123_div_exact",
    "Verif.C123_div_partial",
    "Verif.C123_div_refuted",
    "Verif.C123_order_exact",
    "Verif.C123_order_refuted",
    "Verif.C123_wide_div_exact",
    "Verif.C123_wide_div_refuted",
    "Verif.C123_wide_div_logic"
   ],
   "note": "C123_add_sub_iff: C123, sums and differences, exactly. A signed and an unsigned operand: the result is that of the bit patterns read as unsigned numbers if and only if the signed operand is not the narrower one, or is a native number that is not negative. | C123_add_sub_iff_right: C123, sums and differences, exactly, the signed operand on the right. | C123_div_exact: C123, quotients and remainders of equal native widths, exactly: up to 16 bits the numbers are divided with their signs, above that as unsigned numbers of the holder's size. | C123_div_partial: C123, quotients, partial: right when the signed operand is not negative, and always at 32 and 64 bits. Missing: negative operands at the other widths (`C123_div_exact`, `C123_div_refuted`). | C123_div_refuted: C123 is false at every native width except 32 and 64 (and 1): the signed -1 divided by the unsigned 2. | C123_order_exact: C123, the order of native operands, exactly: both numbers are taken modulo `2^64`. | C123_order_refuted: C123 is false for the order of every pair of native widths: a negative number of fewer than 64 bits is above every unsigned value of fewer than 64 bits. | C123_wide_div_exact: C123, wide quotient and remainder by a signed divisor, exactly. The divisor is first extended with its own sign, then its bits are read as an unsigned number; on that number the division is that of `C31_wide_exact`. Wide signed divisors narrower than the dividend are not meant here (`C122_wide_exact` shows what their extension gives). | C123_wide_div_refuted: C123 is false for every wide dividend by a native negative divisor: the divisor is sign-extended although the operation is unsigned; `(2^m - 1) / -1`, where SystemVerilog reads the divisor as `2^m - 1`, is 0 with the dividend as remainder. | C123_wide_div_logic: C123, 4-state wide quotient and remainder by a signed divisor: for operands without x/z whose divisor passes `any_set()`, the planes are those of the 2-state results."
  },
  {
   "property": "C124",
   "status": "partial",
   "theorems": [
    "Verif.C124_runtime_exact",
    "Verif.C124_runtime_partial",
    "Verif.C124_runtime_iff",
    "Verif.C124_runtime_refuted",
    "Verif.C124_constant_exact",
    "Verif.C124_logic_exact",
    "Verif.C124_logic_partial",
    "Verif.C124_logic_refuted"
   ],
   "note": "C124_runtime_exact: C124, 2-state run time form: what the code does at every range based at 0, for every value (canonical or not). With `st` the lower bound, index `st + k` receives what index `k % st` held, so the low `st` bits are repeated over the slice; with `st = 0` nothing changes. Every bit outside the slice, holder bits included, is kept. | C124_runtime_partial: C124, where it holds: the slice starts at 0, or is not longer than its offset, so that source and destination do not overlap. Missing: overlapping slices, for which it is false (`C124_runtime_iff`, `C124_runtime_refuted`), and the constant form (`C124_constant_exact`). | C124_runtime_iff: C124 is true of exactly the values whose low bits repeat with period `st` | C124_runtime_refuted: every overlapping slice of every range has a canonical value it gets wrong | C124_constant_exact: C124, 2-state constant form: the operand is read at the written index (C57), so the assignment changes nothing at all; it agrees with the property only at `lo = 0` | C124_logic_exact: C124, 4-state, both forms: the low `st` bits are repeated over the slice, x and z included, and nothing else changes; undefined behaviour exactly when an x or z is read at an index of 64 or more (C02) | C124_logic_partial: C124, 4-state, where it holds. Missing: overlapping slices, for which it is false (`C124_logic_exact`, `C124_logic_refuted`), and x or z at an index of 64 and more, which is undefined. | C124_logic_refuted: every overlapping slice of every range has a canonical value without x or z it gets wrong"
  },
  {
   "property": "C125",
   "status": "partial",
   "theorems": [
    "Verif.C125_expr_partial",
    "Verif.C125_refuted"
   ],
   "note": "C125_expr_partial: C125, partial. A well-formed expression over the integer types, of any size and nesting, over any objects: the library evaluation gives the reference value if that is defined, and faults if and only if it is not. Missing: mixed signedness in `/ %` below 32 bits and in `< <=` below 64 bits, and shift amounts of a wider type (`C125_refuted`). | C125_refuted: C125 is false of the code outside the well-formed expressions: with a signed and an unsigned byte `-1 <= 255` is false and `-1 / 2` is 0 (255 and 127 in unsigned arithmetic), and a byte shifted left by the 16-bit number 257 is shifted by 1."
  },
  {
   "property": "C126",
   "status": "partial",
   "theorems": [
    "Verif.C126_program_partial",
    "Verif.C126_euclid",
    "Verif.C126_refuted"
   ],
   "note": "C126_program_partial: C126, partial. Every well-formed program, every number of steps, every initial objects: the execution of the library and the reference execution agree, faults included. Missing: programs with expressions that are not well-formed (`C125_refuted`). | C126_euclid: C126, an application. Euclid's algorithm, written against the library at any of the unsigned integer types, terminates without undefined behaviour on all inputs, leaves the greatest common divisor in its first variable and touches only its three variables. | C126_refuted: C126 is false of programs that compare or divide mixed signednesses. `while (bit(-1) <= 255u) {}` on 8-bit objects never ends in SystemVerilog, where the comparison is unsigned and true; in the library it ends after one step and leaves every object as it was. `v = -1 / 2u` leaves 0 in `v` instead of 127."
  },
  {
   "property": "C127",
   "status": "partial",
   "theorems": [
    "Verif.C127_native_exact",
    "Verif.C127_wide_exact",
    "Verif.C127_slice_partial",
    "Verif.C127_logic_refuted",
    "Verif.C127_refuted"
   ],
   "note": "C127_native_exact: C127, native values, exact. The slice is defined if and only if both bounds are inside the holder of the value (8, 16, 32 or 64 bits); the bits outside the vector are then 0 for an unsigned, the sign for a signed value. | C127_wide_exact: C127, wide values, exact. Bounds from 0 up read the selected bits, 0 outside; two bounds below -1 read 0; a negative and a non-negative bound read the bits from the non-negative bound *upwards*; a bound of -1 is an endless loop. | C127_slice_partial: C127, 2-state unsigned values, partial. Bounds from 0 up, for a native value within its holder: the bits inside are right, those outside are 0. Missing: the other bounds (`C127_refuted`), 4-state vectors (`C127_logic_refuted`). | C127_logic_refuted: C127, 4-state, false of the code for every vector: a slice that leaves the vector at the top and is defined reads no x outside. | C127_refuted: C127 is false of the code for 2-state vectors: every native slice that reaches past the holder or below 0 is undefined; every wide slice down to -1 does not end; a wide slice from a lower bound below -1 up to bit 0 reads the lowest bit of the vector as its bit 0 (it is the top bit selected)."
  },
  {
   "property": "C128",
   "status": "partial",
   "theorems": [
    "Verif.C128_expr_partial",
    "Verif.C128_refuted"
   ],
   "note": "C128_expr_partial: C128, partial. A well-formed expression over the 4-state integer types, of any size and nesting, over any objects: the library evaluation gives the reference vector if that is defined, and faults if and only if it is not. Missing: as for C125 (`C128_refuted`). | C128_refuted: C128 is false of the code outside the well-formed expressions, as C125."
  },
  {
   "property": "C129",
   "status": "partial",
   "theorems": [
    "Verif.C129_program_partial",
    "Verif.C129_euclid",
    "Verif.C129_refuted"
   ],
   "note": "C129_program_partial: C129, partial. Every well-formed program, every number of steps, every initial objects: the execution of the library and the reference execution agree, faults included. Missing: programs with expressions that are not well-formed (`C128_refuted`). | C129_euclid: C129, an application. Euclid's algorithm, written against the library at any of the unsigned 4-state integer types, ends on all inputs without undefined behaviour and touches only its three variables. If both inputs are free of x and z it leaves their greatest common divisor in the first variable; if the second has an x or z it changes nothing; if only the first has one and the second is not 0, it leaves the second in the first variable. | C129_refuted: C129 is false of programs that compare mixed signednesses: the 4-state form of the loop of `C126_refuted`."
  },
  {
   "property": "C130",
   "status": "partial",
   "theorems": [
    "Verif.C130_native_exact",
    "Verif.C130_wide_exact",
    "Verif.C130_select_partial",
    "Verif.C130_base_mod",
    "Verif.C130_refuted"
   ],
   "note": "C130_native_exact: C130, native vectors, exact, for every base in the range of `int`: with `lo` and `hi` the bounds of the part-select, defined if and only if they are inside the holder. Bits outside the vector are 0 for an unsigned, the top bit for a signed vector. | C130_wide_exact: C130, wide vectors, exact: bits above the vector read 0, bits below it read 0 only if the whole part-select is below -1; a part-select that starts below -1 and ends inside reads from its *upper* bound upwards; one with a bound of -1 does not end. | C130_select_partial: C130, partial: an indexed part-select inside the vector reads the selected bits, x and z included, in both directions. Missing: part-selects that leave the vector and bases with an x or z (`C130_refuted`), one-bit vectors (C51). | C130_base_mod: the base is reduced modulo 2^32 | C130_refuted: C130 is false of the code for every vector: with a base that has an x or z, `[base +: k]` reads the bits from 0 (IEEE 1800 11.5.1: all x); with a 64-bit base of `2^32 + i` it reads from bit `i` (all outside: x, or 0 in 2-state); with a base that reaches above the vector it reads, if defined, no x; `[0 -: k]` for `k` of at least 2 is undefined on a native vector, and endless on a wide one if `k = 2`."
  },
  {
   "property": "C131",
   "status": "partial",
   "theorems": [
    "Verif.C131_history_exact",
    "Verif.C131_history_partial",
    "Verif.C131_refuted"
   ],
   "note": "C131_history_exact: C131, exact. Any sequence of `&= |= ^=` on an unsigned 4-state vector never faults, keeps it canonical, and folds the truth tables of the library over every bit. | C131_history_partial: C131, partial. If the vector and all operands are free of x and z, the sequence gives the IEEE 1800 result. Missing: x and z (`C131_refuted`). | C131_refuted: C131 is false of the code at every width: `x &= 0` on the default value leaves no 0."
  },
  {
   "property": "C132",
   "status": "partial",
   "theorems": [
    "Verif.C132_big",
    "Verif.C132_bit",
    "Verif.C132_bool_exact",
    "Verif.C132_refuted",
    "Verif.C132_array"
   ],
   "note": "C132_big: C132, `big_num`. `clear()` and `unmask()` leave the number 0 in canonical form, unary `+` keeps it, `ashl` shifts left by the denoted amount, the text constructor gives the value that of a `bit` of the width holds. | C132_bit: C132, `bit`. `clear()` leaves the number 0, equal to every other zero; unary `+` keeps the value | C132_bool_exact: C132, `bool(big_num)`, exact: only the lower 32 bits of each limb count | C132_refuted: C132 is false of `bool(big_num)` at every width above 32: the number `2^32` is not 0 but false. | C132_array: C132, 2-state packed arrays. `slice_array<hi, lo>()` of an unsigned native array: element `e` of the slice is element `min hi lo - base + e` of the array."
  },
  {
   "property": "C133",
   "status": "partial",
   "theorems": [
    "Verif.C133_expr_partial",
    "Verif.C133_program_partial",
    "Verif.C133_refuted_native",
    "Verif.C133_refuted_wide"
   ],
   "note": "C133_expr_partial: C133, expressions. A covered expression of any depth, over the variables `\u03c3`: unless it divides by zero, the version over `logic` has the outcome of the version over `bit`, the fault included. Missing: expressions that do not satisfy `Lifts`, for which it can be false (`C133_refuted_native`, `C133_refuted_wide`), and division by zero, which is x over `logic`. | C133_program_partial: C133, programs. A covered program from any state, for any number of steps: unless it divides by zero, the version over `logic` runs out of steps, faults or ends exactly as the version over `bit` does, with the same values in all variables. Missing: programs that do not satisfy `Lifts`, for which it can be false (`C133_refuted_native`, `C133_refuted_wide`), and division by zero, which is x over `logic`. | C133_refuted_native: C133 is false of the code at every native width with spare storage bits: with `x = 0`, `~x == 2^n - 1` is false for `bit` and true for `logic`. | C133_refuted_wide: C133 is false of the code at every wide width with spare storage bits: with `x = 0`, `~x == (~x & ~x)` is false for `bit` and true for `logic`."
  },
  {
   "property": "C134",
   "status": "partial",
   "theorems": [
    "Verif.C134_native_exact",
    "Verif.C134_wide_exact",
    "Verif.C134_iff_partial",
    "Verif.C134_refuted_all"
   ],
   "note": "C134_native_exact: C134, exactly, up to 64 bits: the new bits are 1 if the sign bit is 1 or z, and 0 if it is 0 or x. | C134_wide_exact: C134, exactly, above 64 bits: every new bit is 1. | C134_iff_partial: C134, partial. The extension is that of IEEE 1800 exactly when the sign bit is 0 or 1 (up to 64 bits), or 1 (above), or there are no new bits. Missing: the other sign bits, for which it is false (`C134_native_exact`, `C134_wide_exact`, `C134_refuted_all`). | C134_refuted_all: C134 is false of the code for every pair of widths: a signed vector of x extends to known bits."
  },
  {
   "property": "C135",
   "status": "partial",
   "theorems": [
    "Verif.C135_native_iff_partial",
    "Verif.C135_wide_iff_partial",
    "Verif.C135_refuted_all"
   ],
   "note": "C135_native_iff_partial: C135, native, partial. A binary, octal or hexadecimal literal that `C61` to `C63` cover has all the bits IEEE 1800 gives it if and only if no bit is left over or its leftmost digit is not x or z. Missing: the literals that do not satisfy this, for which it is false (`C135_refuted_all`). | C135_wide_iff_partial: C135, wide, partial: the same for the literals of `C69_xz_partial`. Missing: the literals that do not satisfy this (`C135_refuted_all`), octal ones, underscores, and a binary x or z in the upper half of a limb (`C69_exact`). | C135_refuted_all: C135 is false of the code at every width above four: the digit `x` alone, in each base, gives a vector whose top bit is 0."
  },
  {
   "property": "C136",
   "status": "partial",
   "theorems": [
    "Verif.C136_wide_bit",
    "Verif.C136_native_bit_exact",
    "Verif.C136_wide_logic_partial",
    "Verif.C136_native_logic_exact",
    "Verif.C136_native_refuted_all",
    "Verif.C136_base_refuted_all"
   ],
   "note": "C136_wide_bit: C136, 2-state, wide vectors: `x[base +: k] = v` and `x[base -: k] = v` with `lo` and `hi` the selected bounds, wherever they lie: the bits of the vector that are selected receive those of `v`, the others keep their value, and a canonical vector stays canonical. | C136_native_bit_exact: C136, 2-state, native vectors, exactly: inside 64 bits every selected bit of the storage is written, also those above the declared width; a selection that leaves the 64 bits on either side is undefined behaviour. | C136_wide_logic_partial: C136, 4-state, wide vectors, partial: the same with x and z; a `v` narrower than the selection is extended with 0. Missing: an x or z of `v` from position 64 on (`C55_fault`), and vectors of up to 64 bits. | C136_native_logic_exact: C136, 4-state, native vectors, exactly: as for 2-state vectors, in both planes. | C136_native_refuted_all: C136 is false of the code for every native width above one, 2-state: `x[n +: 1] = 1`, which selects no bit of the vector, is undefined behaviour at 64 bits; otherwise, if the storage has a spare bit, it makes an object of value 0 differ from 0. And `x[0 -: 2] = v`, whose upper half is inside, is undefined behaviour. | C136_base_refuted_all: C136 is false of the code for a base with an x or z (no write in IEEE 1800): the bits from 0 on are written, for every vector. With a 64-bit base of `2^32 + i`, outside every vector, the bits from `i` on are written."
  },
  {
   "property": "C137",
   "status": "partial",
   "theorems": [
    "Verif.C137_gt_exact",
    "Verif.C137_order_partial",
    "Verif.C137_refuted_same",
    "Verif.C137_refuted_chunks"
   ],
   "note": "C137_gt_exact: C137, exact. Two canonical signed operands of more than 64 bits and of any widths: `a > b` is right when not both are negative. Two negative operands other than the least numbers are compared by their magnitudes, each increased by the unused bits of its last chunk. The least number is greater than the others, and against a least number the comparison does not end. `a < b` is `b > a`. | C137_order_partial: C137, partial. `a > b` and `a < b` are the order of the numbers when one of them is not negative, and also for negative numbers when both widths are multiples of 64 and neither is the least number of its width. Missing: other negative operands (`C137_refuted_chunks`, `C137_refuted_same`, `C137_gt_exact`). | C137_refuted_same: C137 is false for negative operands of different widths within the same number of 64-bit chunks: the operand of the wider type is always reported the greater. | C137_refuted_chunks: C137 is false for negative operands with different numbers of 64-bit chunks, unless the width of the longer one is a multiple of 64: the shorter one is always reported the greater."
  },
  {
   "property": "C138",
   "status": "partial",
   "theorems": [
    "Verif.C138_wide_exact",
    "Verif.C138_known_partial",
    "Verif.C138_refuted",
    "Verif.C138_2state_exact"
   ],
   "note": "C138_wide_exact: C138, exactly. A canonical wide object is read back from its binary text if and only if no bit in the upper half of a limb is x or z and, when the width is a multiple of 64, the top 64 bits are zero. | C138_known_partial: C138, partial. Covers known objects whose width is not a multiple of 64. Missing: the other objects; which of them are read back is `C138_wide_exact`, that not all are `C138_refuted`. | C138_refuted: C138, refuted. In every wide width there is an object whose binary text cannot be read: bit 32 is x. At every multiple of 64 there is a known one that is read back as another. | C138_2state_exact: C138, wide 2-state, exactly. `bit::str(\"b\")` writes every limb in reverse, so a wide signed `bit` is read back if and only if every limb is its own mirror image (and, when the width is a multiple of 64, the top one is zero)."
  },
  {
   "property": "C139",
   "status": "partial",
   "theorems": [
    "Verif.C139_native_exact",
    "Verif.C139_wide_exact",
    "Verif.C139_known_partial",
    "Verif.C139_refuted",
    "Verif.C139_signed_exact",
    "Verif.C139_signed_refuted"
   ],
   "note": "C139_native_exact: C139, native, exactly. A canonical unsigned native object is read back from its hexadecimal text if and only if every digit (as far as the C++ type has bits for it) is all x, all z or all known, and none is one of 10 to 15. | C139_wide_exact: C139, wide, exactly. A canonical wide object of either sign is read back from its hexadecimal text if and only if every digit is all x, all z or all known, none is one of 10 to 15 and, when the width is a multiple of 64, the top 64 bits are zero. | C139_known_partial: C139, partial. Covers known objects without digits above 9: native unsigned ones, and wide ones whose width is not a multiple of 64. Missing: the other objects; which of them are read back is `C139_native_exact`, `C139_wide_exact` and `C139_signed_exact`, that not all are `C139_refuted`. | C139_refuted: C139, refuted. In every width of four bits or more the number 10 is printed as a text that is read as another object. | C139_signed_exact: C139, signed native, exactly. A canonical signed native object is read back from its hexadecimal text if and only if every digit, the top one filled up with copies of the sign bit, is all x, all z or all known, none is one of 10 to 15, and the sign bit is clear unless the digits fill the C++ type. | C139_signed_refuted: C139, signed, refuted. At every native width whose hexadecimal digits do not fill the C++ type (2 to 4, 9 to 12, 17 to 28 and 33 to 60 bits) no negative object is read back: the digits leave out the copies of the sign bit."
  },
  {
   "property": "C140",
   "status": "partial",
   "theorems": [
    "Verif.C140_octal_exact",
    "Verif.C140_known_partial",
    "Verif.C140_refuted",
    "Verif.C140_signed_exact",
    "Verif.C140_signed_refuted"
   ],
   "note": "C140_octal_exact: C140, exactly. A canonical unsigned native object is read back from its octal text if and only if every digit (as far as the C++ type has bits for it) is all x, all z or all known. | C140_known_partial: C140, partial. Covers known objects. Missing: the other unsigned objects (`C140_octal_exact`, `C140_refuted`) and signed ones (`C140_signed_exact`, `C140_signed_refuted`). | C140_refuted: C140, refuted. In every native width of two bits or more the object with one x in bit 0 and zeros above is read back as another. | C140_signed_exact: C140, signed, exactly. A canonical signed native object is read back from its octal text if and only if every digit (as far as the C++ type has bits for it, the top one filled up with copies of the sign bit) is all x, all z or all known, and the sign bit is clear unless the digits fill the C++ type. | C140_signed_refuted: C140, signed, refuted. At every native width whose octal digits do not fill the C++ type (2 to 6, 9 to 15, 17 to 30 and 33 to 63 bits) no negative object is read back."
  },
  {
   "property": "C141",
   "status": "partial",
   "theorems": [
    "Verif.C141_decimal_exact",
    "Verif.C141_known_partial",
    "Verif.C141_refuted"
   ],
   "note": "C141_decimal_exact: C141, exactly. A canonical native object is read back from its decimal text if and only if it is known and not negative, or is the most negative number of 8 or 16 bits. | C141_known_partial: C141, partial. Covers known native objects that are not negative. Missing: negative objects, which are not read back (`C141_decimal_exact`, `C141_refuted`). | C141_refuted: C141, refuted. Every known negative native object, apart from the most negative one of 8 or 16 bits, is not read back: the parser skips the minus sign."
  },
  {
   "property": "C142",
   "status": "partial",
   "theorems": [
    "Verif.C142_rewritten",
    "Verif.C142_xor_not",
    "Verif.C142_and_iff",
    "Verif.C142_or_iff",
    "Verif.C142_native",
    "Verif.C142_native_shift",
    "Verif.C142_reductions",
    "Verif.C142_structure",
    "Verif.C142_expr_partial",
    "Verif.C142_program_partial",
    "Verif.C142_refuted_bitwise",
    "Verif.C142_refuted_wide",
    "Verif.C142_refuted"
   ],
   "note": "C142_rewritten: C142, rewritten expressions. Of every width and for every expression: a bit of the result that is 0 or 1 stays what it is if unknown bits of the operands are replaced by anything. | C142_xor_not: C142, `^` and `~`: every width, sign and content. | C142_and_iff: C142, `&`, exactly. Sound for a pair of operands if and only if nowhere a z meets a 1 on its right. | C142_or_iff: C142, `|`, exactly. Sound for a pair of operands if and only if nowhere an x meets a 0 on its right. | C142_native: C142, native arithmetic, shifts and relational operators: all contents, including division by zero. (For the shifts the amount has its own width.) | C142_native_shift: C142, native shifts. | C142_reductions: C142, reductions: `r_and` and `r_or` at every width and range, all contents. Their answer is the specified one or x (C17, C18). | C142_structure: C142, slices, extension and concatenation of unsigned vectors. | C142_expr_partial: C142, expressions, partial. A covered expression over the 4-state integer types, of any size and nesting, over objects with any x and z: if it has the value `z'` when the unknown bits are filled in in some way, it has a value when they are unknown, and every known bit of that is a bit of `z'`. So an expression that faults with unknown bits faults for all contents. Missing: the expressions that are not covered (`C142_refuted`). | C142_program_partial: C142, programs, partial. A covered program with loops and branches, any number of steps, objects with any x and z outside of `K`: if it ends in `\u03c3\u2081'` when the unknown bits are filled in in some way, it ends in the same number of steps, without a fault, when they are unknown, and every known bit of every variable is the bit in `\u03c3\u2081'`; the variables in `K` stay known. Missing: programs that do not satisfy `XSafe`, for which it can be false (`C142_refuted_bitwise`, `C142_refuted_wide`, `C142_refuted`). | C142_refuted_bitwise: C142 is false of the code for `|` and `&` at every width: `x | 0` is 1 and `z & 1` is 1, also where the unknown bit is 0. | C142_refuted_wide: C142 is false of the code for arithmetic at every wide width: with an x at bit 40 and zeros elsewhere, `x + 0` is the number 0 at every bit; with a 1 at bit 40 it is not. | C142_refuted: C142 is false of the code for the conditional and the widening of signed vectors: `c ? 1 : 0` is 0 for an x, and a signed byte of x widens to 16 bits with zeros on top; with ones for the unknown bits the answers are 1."
  },
  {
   "property": "C143",
   "status": "partial",
   "theorems": [
    "Verif.C143_native_partial",
    "Verif.C143_bits",
    "Verif.C143_refuted",
    "Verif.C143_iff",
    "Verif.C143_wide_exact",
    "Verif.C143_wide_refuted"
   ],
   "note": "C143_native_partial: C143, native. Every identity of the storage width (8, 16, 32 or 64 bits), so every law that does not depend on the width, holds for native objects of any width above one and any contents, whatever is in the bits above the width: if both sides have a value, it is the same object, and `==` says so. Missing: identities of the declared width only, for which it is false (`C143_iff`, `C143_refuted`); wide objects are `C143_bits` and `C143_wide_exact`. | C143_bits: C143, the low bits. At every width above one, wide widths included, an expression without a product never faults, and the bits of its value are those of the bit vector expression, whatever is in the bits above the width. | C143_refuted: C143 is false at every other width: doubling 1 as often as the width has bits gives 0 in every bit, as `x - x` does, but the two do not compare equal, because the bit that was shifted out is still in the storage. | C143_iff: C143, exactly. For expressions without a product, all identities of `n` bit arithmetic hold with `==`, for all canonical objects, if and only if `n` is 8, 16, 32, 64 or a larger multiple of 64. | C143_wide_exact: C143, wide Boolean expressions, exactly. For all expressions over `& | ^ ~` and all canonical wide objects: `==` of the two values says that their bits agree and, if the width is not a multiple of 64, that the complements in the two expressions leave the same bit above the width. | C143_wide_refuted: C143 is false for Boolean laws at every wide width that is not a multiple of 64: `~x & ~x == ~x` fails for every `x`."
  },
  {
   "property": "C144",
   "status": "partial",
   "theorems": [
    "Verif.C144_slice_slice_partial",
    "Verif.C144_slice_slice_bit_partial",
    "Verif.C144_slice_const",
    "Verif.C144_bitwise_partial",
    "Verif.C144_refuted",
    "Verif.C144_not_refuted"
   ],
   "note": "C144_slice_slice_partial: C144, a slice of a slice. For 4-state vectors of any width, any contents: the slice `[c:d]` of the slice `[a:b]` is the slice `[lo+c : lo+d]` of the vector, the same object. Missing: an inner slice of one bit (`C144_refuted`). | C144_slice_slice_bit_partial: C144, 2-state unsigned vectors. Missing: an inner slice of one bit (`C144_refuted`). | C144_slice_const: C144, constant slices, 4-state vectors: the two results are canonical and have the same bits; the inner slice may have one bit. | C144_bitwise_partial: C144, slices of the bitwise operators. For 4-state vectors of any width, any contents: slicing the result of `& | ^ ~` is the operator on the slices, the same object. Missing: `~` of 2-state vectors (`C144_not_refuted`). | C144_refuted: C144 is false for run-time slices of one-bit slices: `x[a:a][0:0]` is 0 for every vector, also where bit `a` is 1. | C144_not_refuted: C144 is false for `~` of 2-state vectors, for every native vector and every slice of 2 to 63 bits other than 8, 16 and 32: `(~x)[a:b]` and `~(x[a:b])` have the same bits and compare different."
  },
  {
   "property": "C145",
   "status": "partial",
   "theorems": [
    "Verif.C145_put_get_partial",
    "Verif.C145_get_put_partial",
    "Verif.C145_put_put_partial",
    "Verif.C145_commute_partial",
    "Verif.C145_refuted"
   ],
   "note": "C145_put_get_partial: C145, what was assigned is read back: after `x.update<a, b>(v)` the slice `[a:b]` is `v`, the same object, for every canonical `v` of the width of the slice. Missing: an x or z from bit 64 of `v` on, which is undefined behaviour (`C145_refuted`). | C145_get_put_partial: C145, assigning a slice to itself changes nothing. Missing: a slice with an x or z from its bit 64 on (`C145_refuted`). | C145_put_put_partial: C145, the last assignment counts. Missing: operands with an x or z from bit 64 on (`C145_refuted`). | C145_commute_partial: C145, assignments to disjoint slices commute. Missing: operands with an x or z from bit 64 on (`C145_refuted`). | C145_refuted: C145 is false beyond 64 bits: a vector with an x from bit 64 on cannot be assigned to itself, for every such vector."
  },
  {
   "property": "C146",
   "status": "proved",
   "theorems": [
    "Verif.C146_extend_extend",
    "Verif.C146_slice_extend",
    "Verif.C146_extend_bitwise"
   ],
   "note": "C146_extend_extend: C146, extension in steps is extension: canonical unsigned 4-state vectors. | C146_slice_extend: C146, the low bits of an extension are the vector. | C146_extend_bitwise: C146, extension of `& | ^` is the operator on the extensions, for canonical operands with any x and z."
  },
  {
   "property": "C147",
   "status": "partial",
   "theorems": [
    "Verif.C147_shr_partial",
    "Verif.C147_shl_partial",
    "Verif.C147_back_partial",
    "Verif.C147_slice_shr_partial",
    "Verif.C147_refuted"
   ],
   "note": "C147_shr_partial: C147, right shifts in two steps, any contents: wide vectors with all amounts, native ones with a total below the width. Missing: larger native totals (`C147_refuted`). | C147_shl_partial: C147, left shifts in two steps, any contents: wide vectors with all amounts, native ones with a total below 32 (64 above 32 bits). Missing: larger native totals, for which the single shift is undefined behaviour (`C25_native_shift_ge`). | C147_back_partial: C147, left and back clears the upper `k` bits; right and back the lower ones. Any contents. Missing: native amounts of at least the width, undefined behaviour in `>>` (`C24_refuted_all`). | C147_slice_shr_partial: C147, a slice of a right shift is the slice `k` bits higher, the same object: known 4-state vectors. Missing: vectors with an x, for which `>>` gives all x (`C27_shift_x_native`). | C147_refuted: C147 is false natively beyond the width: for every value, two right shifts give 0 where the single one is undefined behaviour."
  },
  {
   "property": "C148",
   "status": "partial",
   "theorems": [
    "Verif.C148_assoc_partial",
    "Verif.C148_parts_partial",
    "Verif.C148_split_partial",
    "Verif.C148_refuted"
   ],
   "note": "C148_assoc_partial: C148, concatenation is associative: both results are canonical and have the same bits. Unsigned 4-state operands whose total width fits the promoted type (32 bits, or 64 when the first operand is wider than 32). Missing: larger totals (`C148_refuted`). | C148_parts_partial: C148, the parts of a concatenation are read back, the same objects. Missing: a left operand of at most 32 bits with a larger total (`C52_truncated_refuted`). | C148_split_partial: C148, the two parts of a vector concatenate to it, the same object. Missing: as above. | C148_refuted: C148 is false beyond 32 bits: for every three vectors with at most 32 bits in the first two, fewer than 32 in the third and 32 or more in the last two, grouping to the left gives a value and grouping to the right is undefined behaviour (2-state)."
  },
  {
   "property": "C149",
   "status": "partial",
   "theorems": [
    "Verif.C149_refl",
    "Verif.C149_symm_iff",
    "Verif.C149_symm_one_refuted",
    "Verif.C149_symm_wide_native",
    "Verif.C149_symm_wide",
    "Verif.C149_trans_partial",
    "Verif.C149_trans_iff",
    "Verif.C149_trans_wide_iff"
   ],
   "note": "C149_refl: C149, reflexivity, for every object whose comparison with itself compiles. | C149_symm_iff: C149, symmetry of native operands, exactly. `a == b` and `b == a` agree for all operands of two types, of any signedness, if and only if both types have holders of one size. | C149_symm_one_refuted: C149, symmetry fails for one-bit objects against every wider native one: `1 == 2`. | C149_symm_wide_native: C149, symmetry of a wide and a native object: always, whatever they hold. | C149_symm_wide: C149, symmetry of two wide objects, not both signed (those do not compile in both orders). | C149_trans_partial: C149, transitivity of native operands, partial. `a == b` and `b == c` imply `a == c` when the holder of the middle type is not smaller than that of the first, for any signedness. Missing: the other types (`C149_trans_iff`). | C149_trans_iff: C149, transitivity of native operands of one signedness, exactly. Equality of three types is transitive if and only if the holder of the middle one can hold the first or the last one. | C149_trans_wide_iff: C149, transitivity of wide unsigned operands, exactly: if and only if the middle type has all 64-bit chunks of the first or of the last one, or both of them end before the upper half of the first chunk that it lacks."
  },
  {
   "property": "C150",
   "status": "partial",
   "theorems": [
    "Verif.C150_trans_iff",
    "Verif.C150_trans_wide",
    "Verif.C150_le_refuted",
    "Verif.C150_trans_wide_signed"
   ],
   "note": "C150_trans_iff: C150, native operands, exactly. `<` and `<=` on three types are transitive if and only if not exactly two of the types are signed. | C150_trans_wide: C150 for wide unsigned operands: `<` is transitive. | C150_le_refuted: C150 is false for `<=` on wide unsigned operands when the first type has an upper half of a chunk that the middle one lacks: `2^k <= 0` and `0 <= 1`, but not `2^k <= 1`. | C150_trans_wide_signed: C150 for wide signed operands: `<` is transitive, also where it is not the order of the numbers (`C137_gt_exact`): whenever `a < b` and `b < c` answer true, so does `a < c`."
  },
  {
   "property": "C151",
   "status": "partial",
   "theorems": [
    "Verif.C151_ripple",
    "Verif.C151_add_iff_partial",
    "Verif.C151_reverse",
    "Verif.C151_count",
    "Verif.C151_gray"
   ],
   "note": "C151_ripple: C151, the adder. A ripple-carry adder of single-bit reads and writes, at every width and signedness and whatever the result object held before, gives the sum modulo `2^n` and the carry. | C151_add_iff_partial: C151, the adder against `+`, exactly. On canonical operands `a + b` reads at every index like the ripple-carry adder if and only if it is not the one bit sum `1 + 1` and does not overflow a signed sum of 32 or 64 bits. Missing: those two cases, in which `+` does not give the sum (`C28_one_bit`, `C28_signed_overflow`). | C151_reverse: C151, the reversal: bit `i` of the copy is bit `n-1-i`, and a second reversal restores every bit, whatever the targets held before. | C151_count: C151, the count: never faults and counts the ones, at every width. | C151_gray: C151, the Gray code: `x ^ (x >> 1)`, as the library computes it, is turned back into `x` by a loop over its bits."
  },
  {
   "property": "C152",
   "status": "partial",
   "theorems": [
    "Verif.C152_exact",
    "Verif.C152_known_partial",
    "Verif.C152_refuted"
   ],
   "note": "C152_exact: C152, exactly. The gates never fault if x and z lie below position 64 only (above, the reads are undefined behaviour, `C02_read_exact`); the carry is that of the tables of `&` and `|` as the code has them. | C152_known_partial: C152, partial. Every result bit up to the first x or z of the operands is the bit of the sum, whatever lies above; the carry is right if there is no x and z. Missing: bits above an x or z, of which some are known and wrong (`C152_refuted`). | C152_refuted: C152 is false at every native width above one: with an x in bit 0 of the first operand and a second operand of 1, bit 1 of the result is a known 1, although it is 0 if the x turns out to be 0."
  },
  {
   "property": "C153",
   "status": "partial",
   "theorems": [
    "Verif.C153_runs_exact",
    "Verif.C153_last_partial",
    "Verif.C153_last_iff",
    "Verif.C153_refuted",
    "Verif.C153_2state_exact"
   ],
   "note": "C153_runs_exact: C153, exactly. After any sequence of writes, bit `j` of element `i` is that of the last write that concerned it; a write concerns its element and the lowest bit of the next one, which it clears. | C153_last_partial: C153, partial. The last value written to an element is what it holds, if the element below is not written after it. Missing: elements whose lower neighbour is written later (`C153_last_iff`, `C153_refuted`), and 2-state elements (`C153_2state_exact`). | C153_last_iff: C153, the last write, exactly. The last value written to an element is what it holds at the end if and only if its lowest bit is 0 or the element below is not written after it. | C153_refuted: C153, refuted. In every array, element 1 written with ones and then element 0 with anything leaves element 1 with the lowest bit 0. | C153_2state_exact: C153, 2-state, exactly. The same for elements of `bit` of a width other than 32 and 64, but the lowest bit of the next element receives the sign of the value."
  },
  {
   "property": "C154",
   "status": "partial",
   "theorems": [
    "Verif.C154_fill_up",
    "Verif.C154_fill_down_exact",
    "Verif.C154_refuted",
    "Verif.C154_copy_partial"
   ],
   "note": "C154_fill_up: C154, upwards: every element holds its value, whatever the array held before. | C154_fill_down_exact: C154, downwards, exactly: every element but the first loses its lowest bit. | C154_refuted: C154, refuted. In every array of two elements or more there are values that the downward loop does not leave in the array. | C154_copy_partial: C154, copying. Copying element by element copies every bit, to an array of either signedness and with any content, if elements can be read at all (`C78_read_partial`). Missing: arrays whose last element cannot be read (`C78_refuted`); the downward loop is `C154_fill_down_exact`."
  },
  {
   "property": "C155",
   "status": "partial",
   "theorems": [
    "Verif.C155_count_partial",
    "Verif.C155_back",
    "Verif.C155_period_iff",
    "Verif.C155_wrap_iff",
    "Verif.C155_one_bit",
    "Verif.C155_logic"
   ],
   "note": "C155_count_partial: C155, counting, partial. `k` increments add `k` modulo `2^n` and `k` decrements subtract it, whatever the signedness, and never fault. Missing: increments of one bit (`C155_one_bit`). | C155_back: C155, there and back. `k` decrements after `k` increments, and `k` increments after `k` decrements, give back the object itself, with all its storage. | C155_period_iff: C155, the period, exactly. After `i` and after `j` increments the counter is the same object if and only if `i` and `j` agree modulo the size of the storage: `2^8`, `2^16`, `2^32` or `2^64` for native widths, a power of `2^64` for wide ones; the declared width does not matter otherwise. | C155_wrap_iff: C155, wrapping, exactly. A counter incremented `2^n` times compares equal to its start if and only if the width has no spare storage bits: 8, 16, 32, 64 and the multiples of 64. | C155_one_bit: C155, one bit. An incremented one-bit counter stays at 1. | C155_logic: C155, 4-state counters. Without x/z they count as the 2-state ones do, for every width."
  },
  {
   "property": "C156",
   "status": "partial",
   "theorems": [
    "Verif.C156_unsigned",
    "Verif.C156_ends_iff",
    "Verif.C156_refuted",
    "Verif.C156_signed_native",
    "Verif.C156_signed_wide_partial",
    "Verif.C156_wide_refuted",
    "Verif.C156_least_refuted",
    "Verif.C156_logic",
    "Verif.C156_unknown_partial"
   ],
   "note": "C156_unsigned: C156, unsigned loops with a bound that fits. For every width and every bound of the same kind of storage that is a value of the type of the loop variable: the body is executed for `a`, `a + 1`, ..., `c - 1` in this order, and `i` is `c` at the end. | C156_ends_iff: C156, any bound, exactly. An unsigned loop of more than one bit ends if and only if the start is not below the bound or the bound is below the size of the storage. | C156_refuted: C156, refuted. At every width with spare storage bits a loop whose bound is the first number that its variable cannot hold ends, after `2^n - a` iterations; it should not. | C156_signed_native: C156, signed native loops. | C156_signed_wide_partial: C156, signed wide loops, partial. Loops over non-negative numbers, over negative numbers other than the least, and, at multiples of 64 bits, from a negative number other than the least to any non-negative one. Missing: the cases below. | C156_wide_refuted: C156, refuted for signed wide loops. At every wide width that is not a multiple of 64, a loop from a negative number to a positive bound stops at zero: the increment of -1 leaves a carry above the width, which makes the variable compare greater than every bound. | C156_least_refuted: C156, refuted for the least number. A signed wide loop from the least number to another negative number is not executed at all. | C156_logic: C156, 4-state loops without x/z run as the 2-state ones do. | C156_unknown_partial: C156, unknown bounds, partial. If the start or the bound has an x/z bit that the emptiness test looks at (any, up to 64 bits), the loop is not executed. Missing: x/z in the upper halves of the limbs of wide objects, which `<` does not see (`C43_wide_refuted`)."
  },
  {
   "property": "C157",
   "status": "proved",
   "theorems": [
    "Verif.C157_multiply"
   ],
   "note": "C157_multiply: C157. Multiplying by shifting and adding gives the product modulo `2^n` at every width, and never faults; compare `operator*` (`C30_u16_overflow`, `C30_wide_exact`)."
  },
  {
   "property": "C158",
   "status": "partial",
   "theorems": [
    "Verif.C158_gcd_partial",
    "Verif.C158_terminates",
    "Verif.C158_refuted"
   ],
   "note": "C158_gcd_partial: C158, partial. Euclid's algorithm ends with the greatest common divisor, for native operands and for wide ones below `2^32`. Missing: other wide operands (`C158_refuted`). | C158_terminates: C158: at every width the loop ends after at most `b + 1` tests, also where the result is wrong: the remainder is always below the divisor. | C158_refuted: C158, refuted. At every wide width, with `b = 2^k` for any `k` in the upper half of a 64-bit chunk, the loop ends at once with `a`, whatever `a` is."
  },
  {
   "property": "C159",
   "status": "partial",
   "theorems": [
    "Verif.C159_rotate_partial",
    "Verif.C159_zero_refuted",
    "Verif.C159_wide_zero"
   ],
   "note": "C159_rotate_partial: C159, partial. Rotation by an amount between 0 and the width, both excluded. Missing: the amount 0 of native vectors (`C159_zero_refuted`). | C159_zero_refuted: C159, refuted. Rotation of a native vector of more than one bit by 0 is undefined behaviour. | C159_wide_zero: C159, wide vectors rotate by 0 as well."
  },
  {
   "property": "C160",
   "status": "partial",
   "theorems": [
    "Verif.C160_ones_exact",
    "Verif.C160_ones_partial",
    "Verif.C160_refuted"
   ],
   "note": "C160_ones_exact: C160, exactly. The loop counts the ones up to the highest one that `any_set()` looks at, which for native vectors is every one, for wide ones every one in the lower half of a 64-bit chunk. | C160_ones_partial: C160, partial. For native vectors, and for wide ones whose highest one is in the lower half of its 64-bit chunk, the loop counts the ones. Missing: the other wide vectors (`C160_refuted`). | C160_refuted: C160, refuted. A wide vector whose only one is in the upper half of a 64-bit chunk is counted as without ones."
  },
  {
   "property": "C161",
   "status": "partial",
   "theorems": [
    "Verif.C161_xor",
    "Verif.C161_add_partial",
    "Verif.C161_one_bit_refuted"
   ],
   "note": "C161_xor: C161, with `^`. At every width the two objects are exchanged, with all their storage. | C161_add_partial: C161, with `+` and `-`, partial. The same at every width above one. Missing: one bit (`C161_one_bit_refuted`). | C161_one_bit_refuted: C161, refuted for one bit: two ones become a one and a zero."
  },
  {
   "property": "C162",
   "status": "partial",
   "theorems": [
    "Verif.C162_proxies_partial",
    "Verif.C162_others",
    "Verif.C162_last_partial",
    "Verif.C162_constant_refuted",
    "Verif.C162_self_refuted"
   ],
   "note": "C162_proxies_partial: C162, partial. Every program of proxy declarations and assignments ends, and each object holds what the program means. Missing: the assignments that C55, C57 and C124 exclude (`RStmt.Ok`). | C162_others: C162, other objects. A program that ends leaves every object without a proxy as it was, storage included, whatever the bounds and operands are. | C162_last_partial: C162, the last assignment, partial. After any sequence of assignments of temporaries to any proxies of any objects, a bit is the one the last assignment that covers it has for it, or the original one. Missing: what `RStmt.Ok` leaves out, constant 2-state proxies (`C162_constant_refuted`) and operands with an x or z from bit 64 on; objects assigned to themselves are `C162_self_refuted`. | C162_constant_refuted: C162, refuted for constant 2-state proxies. `auto p = x.slice_ref<hi, lo>(); p = v;` with a slice that begins above the bits of `v` clears the slice, for all `x` and `v`. | C162_self_refuted: C162, refuted for an object assigned to a slice of itself: at every width and for every slice that overlaps the bits it is assigned, there is an object that does not end with the meaning of `p = x`."
  },
  {
   "property": "C163",
   "status": "partial",
   "theorems": [
    "Verif.C163_chunks_partial",
    "Verif.C163_twice_partial",
    "Verif.C163_refuted"
   ],
   "note": "C163_chunks_partial: C163, partial. Chunk `i` of the result is chunk `p(i)` of the operand, for every `p`, all widths and contents, and whatever the result object held. Missing: chunks with an x or z from their bit 64 on (`C163_refuted`). | C163_twice_partial: C163, twice. A permutation of the chunks followed by its inverse gives the operand back, the same object; for `p(i) = k - 1 - i` this is reversing the bytes of a word twice. Missing: chunks with an x or z from bit 64 on, for which the loop is undefined (`C163_refuted`), and one-bit vectors (`C51_refuted`). | C163_refuted: C163 is false for chunks wider than 64 bits: an x or z from bit 64 of the first chunk that is read is undefined behaviour."
  },
  {
   "property": "C164",
   "status": "partial",
   "theorems": [
    "Verif.C164_binary_exact",
    "Verif.C164_binary_iff",
    "Verif.C164_digits_partial",
    "Verif.C164_hex_wide_partial",
    "Verif.C164_hex_wide_refuted",
    "Verif.C164_decimal_partial",
    "Verif.C164_unknown_refuted"
   ],
   "note": "C164_binary_exact: C164, binary, bit by bit. Two objects have the same binary text if and only if they have the same bits, but at wide multiples of 64 the top 64 bits do not count. | C164_binary_iff: C164, binary. Different canonical objects have different binary texts, at exactly the widths that are native or no multiple of 64. | C164_digits_partial: C164, octal and hexadecimal, native. Different canonical known objects have different texts, of either sign. Missing: objects with unknown bits (`C164_unknown_refuted`). | C164_hex_wide_partial: C164, hexadecimal, wide. The same for known objects whose width is no multiple of 64 (`C164_hex_wide_refuted`). | C164_hex_wide_refuted: C164, refuted at wide multiples of 64: 0 and the top bit have the same hexadecimal text. | C164_decimal_partial: C164, decimal, native. Different canonical known objects have different decimal texts. Missing: the least number of 32 and 64 bits, which has no text (C73), and objects with unknown bits (`C164_unknown_refuted`). | C164_unknown_refuted: C164, refuted for unknown bits. In every width of two bits or more there are different canonical objects with the same hexadecimal text: bit 0 is x in both, bit 1 is 0 in one and 1 in the other."
  },
  {
   "property": "C165",
   "status": "partial",
   "theorems": [
    "Verif.C165_native_iff",
    "Verif.C165_wide_iff",
    "Verif.C165_refuted",
    "Verif.C165_partial"
   ],
   "note": "C165_native_iff: C165, native, exactly. A binary text of `n` digits is printed as it was read if and only if it has no x or z at position 32 or above; otherwise it cannot be read. | C165_wide_iff: C165, wide, exactly. No x or z may be in the upper half of a 64-bit chunk, and at multiples of 64 the first 64 digits have to be 0. | C165_refuted: C165, refuted: in every width above 32 there is a binary text that cannot be printed after reading. | C165_partial: C165, partial. Texts without x and z, and texts of at most 32 digits: native, and wide widths that are no multiple of 64. Missing: the other texts; which of them are printed as written is `C165_native_iff` and `C165_wide_iff`, that not all are `C165_refuted`."
  },
  {
   "property": "C166",
   "status": "partial",
   "theorems": [
    "Verif.C166_sort_partial",
    "Verif.C166_signed_wide_exact",
    "Verif.C166_refuted"
   ],
   "note": "C166_sort_partial: C166, partial. Sorting any number of canonical objects with `<` ends with the same objects in ascending order of their numbers: unsigned objects of every width and signed native ones. Missing: signed wide objects (`C166_signed_wide_exact`, `C166_refuted`). | C166_signed_wide_exact: C166, signed wide objects, exactly. With the least number at most once, sorting ends with the same objects in ascending order, but with the least number between the negative and the non-negative ones. | C166_refuted: C166 fails for signed wide objects. At every wide width: two objects holding the least number cannot be sorted, the comparison does not end; and a negative number and the least one stay, or come, in descending order, whatever order they are given in."
  },
  {
   "property": "C167",
   "status": "partial",
   "theorems": [
    "Verif.C167_in_range_partial",
    "Verif.C167_written_partial",
    "Verif.C167_outside_refuted",
    "Verif.C167_low_refuted"
   ],
   "note": "C167_in_range_partial: C167, partial. On a range that starts at 0 and for every index of it, `x_set` says whether the bit is x and `z_set` whether it is z, so that neither of them holds exactly for the known bits; the forms with a constant index say the same. Missing: ranges with another low bound and other indices (`C167_low_refuted`, `C167_outside_refuted`). | C167_written_partial: C167, partial. `x_set` and `z_set` after a write of x, z or a known bit, at the same and at any other index of a range that starts at 0. Missing: ranges with another low bound and indices outside the range, for which it is false (`C167_low_refuted`, `C167_outside_refuted`). | C167_outside_refuted: C167 fails at indices outside the range, where `operator[]` gives x: on `logic<n-1, 0>` a wide value, and a canonical native one at the indices its promoted holder has, answers that the bit is neither x nor z; at the other indices a native value shifts by a negative or too large amount. | C167_low_refuted: C167 fails on descending ranges with a positive low bound: the answers at index `i` are about the bit of index `i + lo`."
  },
  {
   "property": "C168",
   "status": "partial",
   "theorems": [
    "Verif.Big.C168_get",
    "Verif.Big.C168_set",
    "Verif.Big.C168_negative",
    "Verif.Big.C168_slice",
    "Verif.Big.C168_slice_rt",
    "Verif.Big.C168_extend",
    "Verif.Big.C168_concat",
    "Verif.Big.C168_mask_off",
    "Verif.Big.C168_not",
    "Verif.Big.C168_and",
    "Verif.Big.C168_xor",
    "Verif.Big.C168_or",
    "Verif.Big.C168_r_xor",
    "Verif.Big.C168_shr",
    "Verif.Big.C168_shl",
    "Verif.Big.C168_shift_amount",
    "Verif.Big.C168_shr_big",
    "Verif.Big.C168_shl_big",
    "Verif.Big.C168_mask",
    "Verif.Big.C168_ashr",
    "Verif.Big.C168_ashr_big",
    "Verif.Big.C168_eq",
    "Verif.Big.C168_eq_num",
    "Verif.Big.C168_gt_mag",
    "Verif.Big.C168_add",
    "Verif.Big.C168_negate",
    "Verif.Big.C168_sub",
    "Verif.Big.C168_gt",
    "Verif.Big.C168_ge",
    "Verif.Big.C168_all_set",
    "Verif.Big.C168_is_one",
    "Verif.Big.C168_fit",
    "Verif.Big.C168_mul",
    "Verif.Big.C168_highest_bit",
    "Verif.Big.C168_div_mod_unsigned",
    "Verif.Big.C168_div_mod",
    "Verif.Big.C168_to_uint64",
    "Verif.Big.C168_mul_iff",
    "Verif.Big.C168_mul_one_limb",
    "Verif.Big.C168_refuted"
   ],
   "note": "C168_get: C168, reading a bit at any index | C168_set: C168, writing a bit at any index | C168_negative: C168, the sign bit | C168_slice: C168, slices with constant bounds | C168_slice_rt: C168, slices with bounds given at run time: bounds past the size are not an access out of bounds | C168_extend: C168, extension | C168_concat: C168, concatenation | C168_mask_off: C168, the masking of the top limb | C168_not: C168, bitwise negation | C168_and: C168, bitwise and | C168_xor: C168, bitwise exclusive or | C168_or: C168, bitwise or | C168_r_xor: C168, the exclusive or of all bits | C168_shr: C168, shifting right by a number | C168_shl: C168, shifting left by a number | C168_shift_amount: C168, the scan of a wide shift amount for bits above the first limb stays inside the amount | C168_shr_big: C168, shifting right by a wide amount | C168_shl_big: C168, shifting left by a wide amount | C168_mask: C168, setting every bit | C168_ashr: C168, arithmetic shift right by a number | C168_ashr_big: C168, arithmetic shift right by a wide amount | C168_eq: C168, equality of wide values of any two sizes; with two signed operands only a wider right operand compiles | C168_eq_num: C168, equality with a number | C168_gt_mag: C168, the magnitude comparison of any two sizes | C168_add: C168, addition | C168_negate: C168, arithmetic negation | C168_sub: C168, subtraction | C168_gt: C168, `operator>` on any two operands | C168_ge: C168, `operator>=` where it compiles | C168_all_set: C168, all bits set | C168_is_one: C168, comparison with one | C168_fit: C168, the test for a single limb: `values.begin() + 1` is a valid iterator of a non-empty array | C168_mul: C168, multiplication: the checked function agrees with the model of C33, including the writes past the end of the array that the guards of lines 653 and 658 let through | C168_highest_bit: C168, the highest set bit; `clz` is never applied to zero | C168_div_mod_unsigned: C168, unsigned division: the only fault is a division by zero, and it is the model's | C168_div_mod: C168, division and remainder | C168_to_uint64: C168, the conversion to `uint64_t` | C168_mul_iff: C168, multiplication of more than 64 bits: an access out of bounds happens exactly when one operand fails `fit_in_64()` and two non-zero limbs have a product that reaches past the array; in all other cases there is a result | C168_mul_one_limb: C168, multiplication of one limb: writing `values[1]` is always out of bounds (no vector is stored this way; `big_num` can be used alone) | C168_refuted: C168 is false as stated: `2^64 * 1` in 128 bits is written past the end of the array."
  },
  {
   "property": "C169",
   "status": "partial",
   "theorems": [
    "Verif.C169_crc_partial",
    "Verif.C169_check",
    "Verif.C169_burst",
    "Verif.C169_one_bit_refuted"
   ],
   "note": "C169_crc_partial: C169. After any message the register holds the remainder of `r\u00b7X^k + M\u00b7X^n` modulo `X^n + p`, where `r` is the initial register, `M` the message and `k` its length; in particular `M\u00b7X^n mod (X^n + p)` when the register starts at zero. Missing: one bit, for which it is false (`C169_one_bit_refuted`). | C169_check: C169, checking a received word. A message followed by its own check bits, highest first, leaves the register at zero, whatever the register started with. | C169_burst: C169, burst errors. When bit 0 of `p` is set, two messages that differ only inside a window of at most `n` bits have different check bits; a single wrong bit is the window of length one. | C169_one_bit_refuted: C169 is false for one bit: `r << 1` keeps the bit, and the register does not return to zero."
  },
  {
   "property": "C170",
   "status": "proved",
   "theorems": [
    "Verif.C170_code",
    "Verif.C170_decode",
    "Verif.C170_neighbours"
   ],
   "note": "C170_code: C170, the code. Bit `i` of the code is the exclusive or of the bits `i` and `i + 1`, and the highest bit is kept. | C170_decode: C170, decoding. The decoder gives back the bits of the vector that was encoded. | C170_neighbours: C170, neighbours. The codes of `x` and of its successor `x + 1` differ in exactly one bit, also when the addition wraps from all ones to zero."
  },
  {
   "property": "C171",
   "status": "proved",
   "theorems": [
    "Verif.C171_long_division",
    "Verif.C171_operator_differs"
   ],
   "note": "C171_long_division: C171. Long division gives the quotient and the remainder, both canonical, at every width and for every canonical divisor; a zero divisor gives all ones and the dividend. It never faults. | C171_operator_differs: C171, compared with the operators. At every wide width and for every dividend of at least `2^k`, `k` in the upper half of a chunk, `operator/` by `2^k` gives zero and long division the quotient."
  },
  {
   "property": "C172",
   "status": "partial",
   "theorems": [
    "Verif.C172_case",
    "Verif.C172_signed_exact",
    "Verif.C172_signed_refuted",
    "Verif.C172_unknown_exact",
    "Verif.C172_unknown_refuted",
    "Verif.C172_unbased_exact",
    "Verif.C172_unbased_refuted",
    "Verif.C172_size_refuted"
   ],
   "note": "C172_case: C172, case. Upper and lower case base letters denote the same object and fault alike. | C172_signed_exact: C172, the sign letter, exactly. A literal with `s` or `S` after the quote is read as text: the characters after that letter, base letter included, are stored byte by byte. | C172_signed_refuted: C172 is false for signed literals at every width above four: `'sh0` is not zero, its low byte is the code of the character `0`. | C172_unknown_exact: C172, other letters, exactly. A letter that is none of `b o d h s`, in either case, denotes the value 0 without x/z, whatever follows it: nothing is reported. | C172_unknown_refuted: C172 is false for `'x` and `'z` at every width: these fill the vector with x and z, but the library makes both the known value 0. The letter `x`, which `get_stride` lists beside `h`, is no hexadecimal base either: all of `'xF` is 0. | C172_unbased_exact: C172, literals without a base letter, exactly. The whole literal is read in binary: bit `i` is set exactly if character `i` from the right is a `1`, the quote and the size included. At native widths a literal of up to 64 characters; at wide ones any. | C172_unbased_refuted: C172 is false for `'1` at every width above one: it is the number 1, not all ones. | C172_size_refuted: C172: the size prefix becomes part of the number: `16'1` is 9 at every width above three."
  },
  {
   "property": "C173",
   "status": "proved",
   "theorems": [
    "Verif.C173_sqrt"
   ],
   "note": "C173_sqrt: C173. At every width the loop ends with the integer square root of the operand and the remainder, both canonical."
  },
  {
   "property": "C174",
   "status": "partial",
   "theorems": [
    "Verif.C174_return_iff",
    "Verif.C174_nonzero",
    "Verif.C174_periodic",
    "Verif.C174_maximal",
    "Verif.C174_one_bit_refuted"
   ],
   "note": "C174_return_iff: C174, exactly when the register returns. After `k` steps the register holds its first value again exactly if `X^n + p` divides `(X^k - 1) * r`. | C174_nonzero: C174, no lock-up. When bit 0 of `p` is set, a register that is not zero never becomes zero. | C174_periodic: C174, the run is a cycle. When bit 0 of `p` is set, every register returns to its value after at most `2^n` steps. | C174_maximal: C174, maximal length. When `X^n + p` is irreducible and divides no `X^k - 1` for `k` below `2^n - 1`, a register that is not zero runs through every value but zero. | C174_one_bit_refuted: C174 is false for one bit: `<<` keeps a one-bit vector as it is (C25), so the register with `p = 1` goes from 1 to 0 and stays there."
  },
  {
   "property": "C175",
   "status": "partial",
   "theorems": [
    "Verif.C175_carry_exact",
    "Verif.C175_carry_partial",
    "Verif.C175_carry_refuted",
    "Verif.C175_borrow",
    "Verif.C175_saturate_exact"
   ],
   "note": "C175_carry_exact: C175, exactly. The carry test finds a carry only at the widths without spare storage bits: 8, 16, 32, 64 and the multiples of 64; elsewhere it is always false, because the sum is stored with its carry. | C175_carry_partial: C175, partial. At the widths without spare storage bits the test is right. Missing: the other widths (`C175_carry_refuted`). | C175_carry_refuted: C175 is false at every other width: no pair of numbers with a carry passes the test. | C175_borrow: C175, borrow. The borrow test is right at every width above one. | C175_saturate_exact: C175, saturation, exactly. Saturating addition gives the smaller of the sum and the greatest number at the widths without spare storage bits, and wraps at all others."
  },
  {
   "property": "C176",
   "status": "proved",
   "theorems": [
    "Verif.C176_mid",
    "Verif.C176_sum_exact"
   ],
   "note": "C176_mid: C176. The midpoint without overflow, at every width above one and for all contents. | C176_sum_exact: C176, the sum shifted, exactly. `(a + b) >> 1` loses the carry at every width, also at those where the sum is stored with it: `>>` masks to the declared width."
  },
  {
   "property": "C177",
   "status": "partial",
   "theorems": [
    "Verif.C177_lowest",
    "Verif.C177_pow2_exact",
    "Verif.C177_pow2_partial",
    "Verif.C177_pow2_refuted"
   ],
   "note": "C177_lowest: C177, the lowest one. Bit `i` of `x & (~x + 1)` is set exactly if it is the lowest one of `x`. | C177_pow2_exact: C177, exactly. The test is passed exactly if among the bits `any_set()` looks at (all of a native vector, the lower halves of the 64-bit chunks of a wide one) some bit is set and each set one is the lowest one of the whole number. | C177_pow2_partial: C177, partial. For native vectors the test finds exactly the powers of two. Missing: wide vectors (`C177_pow2_refuted`). | C177_pow2_refuted: C177 is false at every wide width, both ways round: `2^32` fails the test and `2^32 + 1` passes it."
  },
  {
   "property": "C178",
   "status": "proved",
   "theorems": [
    "Verif.C178_expr",
    "Verif.C178_program"
   ],
   "note": "C178_expr: C178, expressions. Every expression over the integer types, of any size and nesting, over any objects: the library evaluation gives the value of C++'s integer rules if that is defined, and faults if and only if it is not. | C178_program: C178, programs. Every program over the integer types, every number of steps, every initial objects: the execution of the library and the execution by C++'s integer rules agree, faults included."
  },
  {
   "property": "C179",
   "status": "proved",
   "theorems": [
    "Verif.C179_expr",
    "Verif.C179_program"
   ],
   "note": "C179_expr: C179, expressions. Every expression over the 4-state integer types, of any size and nesting, over any objects: the library evaluation gives the reference vector if that is defined, and faults if and only if it is not. | C179_program: C179, programs. Every program over the 4-state integer types, every number of steps, every initial objects: the execution of the library and the reference execution agree, faults included."
  },
  {
   "property": "C180",
   "status": "proved",
   "theorems": [
    "Verif.C180_two",
    "Verif.C180_bus"
   ],
   "note": "C180_two: C180, two drivers. At every width, wherever the x and z lie and whatever the result object held before, every bit of the bus is that of the table of `wire`. | C180_bus: C180. A bus with any number of drivers of any width, starting from z everywhere: no step faults; a bit of the bus is z exactly if every driver has z there, it is 0 (1) exactly if some driver has 0 (1) and every other one the same or z, and x otherwise; and so the order of the drivers does not matter."
  },
  {
   "property": "C181",
   "status": "proved",
   "theorems": [
    "Verif.C181_exact",
    "Verif.C181_sound"
   ],
   "note": "C181_exact: C181, exactly. IEEE 1800, 11.4.11: a known select chooses a branch, of which every bit is kept, x and z too; an unknown select gives the bits on which the branches agree and x elsewhere. | C181_sound: C181, soundness. Whatever the unknown select, and the unknown bits of the branches, turn out to be, the known bits of the multiplexer's output stay."
  },
  {
   "property": "C182",
   "status": "partial",
   "theorems": [
    "Verif.C182_power_partial",
    "Verif.C182_refuted",
    "Verif.C182_wide_refuted"
   ],
   "note": "C182_power_partial: C182, partial. Up to 8 bits and from 17 to 64 bits the loop never faults and gives the power modulo `2^n`, for every base and every exponent of every width. Missing: 9 to 16 bits, where products are computed as `int` (`C182_refuted`), and wide vectors (`C182_wide_refuted`). | C182_refuted: C182 is false at every width of 9 to 16 bits: with the base 255 the second squaring overflows `int`, whatever the exponent, if it has at least two bits. (255 fits, the square of it is kept in the 16-bit holder, and the square of that is more than `2^31`.) | C182_wide_refuted: C182 is false at every wide width: with a base that has bits 64 and `n-1` set the first product is written outside the limbs, whatever the exponent."
  },
  {
   "property": "C183",
   "status": "partial",
   "theorems": [
    "Verif.C183_digits_partial",
    "Verif.C183_round_trip",
    "Verif.C183_refuted"
   ],
   "note": "C183_digits_partial: C183, partial. Digit `k` of every number in every base from 2 on is `v / y^k % y`, up to 64 bits, and at wide widths for every number below `2^96` in a base below `2^32`. Missing: larger wide numbers (`C183_refuted`). | C183_round_trip: C183, the loop that stops at 0, up to 64 bits: it ends, and its digits are those of the number, the lowest first and without leading zeros; Horner's rule over them gives the number back, without fault. | C183_refuted: C183 is false above 96 bits: `2^96` has only digits 0, in every base from 2 to `2^32`."
  },
  {
   "property": "C184",
   "status": "proved",
   "theorems": [
    "Verif.C184_shift"
   ],
   "note": "C184_shift: C184. For every amount below the number of bits of the promoted holder (32 or 64) at native widths, and for every amount at wide widths, the shifter in stages gives the bits of the shift by the whole amount, and never faults."
  },
  {
   "property": "C185",
   "status": "partial",
   "theorems": [
    "Verif.C185_highest_bit_iff",
    "Verif.C185_encode",
    "Verif.C185_highest_bit_partial",
    "Verif.C185_round_trip"
   ],
   "note": "C185_highest_bit_iff: C185, exactly when `highest_bit` is the encoder. The two agree on a canonical value if and only if it is not 0 and not a negative native number of fewer than 64 bits. | C185_encode: C185, the encoder. At every width, signed or not, the loop gives the index of the highest one, and -1 for 0. | C185_highest_bit_partial: C185, encoder against `highest_bit`. On canonical values other than 0 that `highest_bit` handles (`C96_highest_bit_partial`) both give the same index. Missing: negative native numbers of other widths than 64 bits, which `highest_bit` does not handle, and 0. | C185_round_trip: C185, round trip. The decoder sets exactly bit `a` and the encoder gives `a` back, for every vector of more than one bit and every amount below its width."
  },
  {
   "property": "C186",
   "status": "proved",
   "theorems": [
    "Verif.C186_parity"
   ],
   "note": "C186_parity: C186. The parity check by `r_xor` finds exactly the errors in an odd number of bits, at every width of 2 to 64 bits, the odd widths included at which `r_xor` itself is the negated parity (`C19_refuted`): if the bits of `e` are flipped in a word without x and z, `r_xor` changes exactly if `e` has an odd number of ones; and if the word or the error has an x or z, the check gives x. One bit and wide vectors are not covered, since `r_xor` does not compile for them."
  },
  {
   "property": "C187",
   "status": "partial",
   "theorems": [
    "Verif.C187_get",
    "Verif.C187_set",
    "Verif.C187_in_range",
    "Verif.C187_slice",
    "Verif.C187_update",
    "Verif.C187_update_logic",
    "Verif.C187_top_refuted",
    "Verif.C187_unpacked"
   ],
   "note": "C187_get: C187, reads. Reading a bit of a descending range never overflows. Reading a bit of an ascending range overflows exactly for the indices more than `2^31 - 1` below or more than `2^31` above its right bound, and is otherwise the read without overflow checks. | C187_set: C187, writes. Writing a bit subtracts the low bound from the position in `int`: the write of a `bool`, of a one-bit `bit` and of a one-bit `logic` overflows exactly if one of the two `int` values `lsb - idx` (ascending ranges) and position minus low bound leaves the type, and is otherwise the write without checks. | C187_in_range: C187, indices of the range. For every range whose bounds are nonnegative `int` values, no read or write at an index of the range overflows: the checked accesses of `bit` and `logic` are the unchecked ones. A `logic` read compares the bounds first, so it never overflows at all. | C187_slice: C187, run-time slices. A wide slice makes no `int` computation. A native slice overflows exactly if an end minus the low bound leaves `int`, and is otherwise the slice without checks. | C187_update: C187, run-time slice assignment of `bit`. For ranges with nonnegative `int` bounds and a destination `hi`, `lo` in the range with `hi + lo < 2^31` and neither end equal to the largest `int`, the assignment makes no overflowing computation and is the unchecked one. | C187_update_logic: C187, run-time slice assignment of `logic`. For ranges with nonnegative `int` bounds and every destination in the range not ending at the largest `int`, the assignment makes no overflowing computation and is the unchecked one. | C187_top_refuted: C187 fails at the largest `int`. A run-time slice assignment whose upper end is `2^31 - 1` computes `2^31` in `int`: it overflows for every vector, range and operand, also where the range contains that index. | C187_unpacked: C187, unpacked arrays. For every range of at most `2^31` elements and every index: the read overflows if the index less the low bound leaves `int`; otherwise it gives the element named by the index, and the default element for an index outside the range."
  },
  {
   "property": "C188",
   "status": "partial",
   "theorems": [
    "Verif.C188_contained",
    "Verif.C188_refuted",
    "Verif.C188_meaning_partial"
   ],
   "note": "C188_contained: C188, sufficient condition. If every block (function, full expression) returns only proxies of vectors that were declared before it, then no assignment of the program goes through a dangling reference, whatever the nesting, the bounds and the values, and also if another assignment is undefined. In particular no program without returned proxies has one. | C188_refuted: C188 is false for returned proxies. A block that returns a proxy of a vector declared inside it, or a statement that keeps a proxy of a temporary, leaves a proxy that dangles for ever: after any further statements, any assignment through it is undefined behaviour, also if the vector is assigned nothing outside its bounds. | C188_meaning_partial: C188, meaning, partial. A program of declarations, proxies, assignments and nested blocks whose assignments go through proxies of live vectors ends, and every vector that is alive at the end holds what the program means. Missing: the assignments that C162 excludes."
  },
  {
   "property": "C189",
   "status": "proved",
   "theorems": [
    "Verif.C189_outcome",
    "Verif.C189_fields",
    "Verif.C189_bits"
   ],
   "note": "C189_outcome: C189, outcome. Whatever variables are named, also the unpacked vector or the same variable several times, `unpack` into them compiles, is undefined or succeeds as it does for distinct variables of the same types. | C189_fields: C189. If `x.unpack(v...)` of a vector declared `[n-1:0]` succeeds, every variable that is named holds the field of its first mention, as it stood in `x` before the statement, and the others are unchanged. This holds also if `x` itself is among the variables: the field of `x` is the last one that is read. | C189_bits: C189, bits. Unpacking an unsigned `[n-1:0]` vector into any variables, where the fields after the first leave at least one bit, and the first fits or is native: it succeeds, and every named variable holds, bit by bit and with x and z, the field of its first mention as it stood before, zero extended where the vector ends. The unpacked vector may be among the variables."
  },
  {
   "property": "C190",
   "status": "partial",
   "theorems": [
    "Verif.C190_sizeof",
    "Verif.C190_places",
    "Verif.C190_bytes",
    "Verif.C190_bytes_refuted",
    "Verif.C190_packed",
    "Verif.C190_packed_refuted"
   ],
   "note": "C190_sizeof: C190, sizes. A `bit` of `n` bits takes a power of two of bytes, the least that has `n` bits, up to 64 bits; above, the least multiple of 8 bytes. A `logic` takes twice as much. | C190_places: C190, places. The bytes of an object fill it without padding; bit `i` of the value is bit `i mod 8` of byte `i / 8`, and bit `i` of the mask lies `sizeof(bit)` bytes later. | C190_bytes: C190, bytes. Objects with the same bytes are the same, so copying the bytes copies the object; canonical objects have the same bytes exactly if they have the same bits. | C190_bytes_refuted: C190 is false of values that are not canonical: `~x` of a vector that does not fill its holder never has the bytes of the canonical object with its bits, at any such width. | C190_packed: C190, packed and unpacked arrays. A packed array of 2-state elements never takes more than 7 bytes above the unpacked array of the same elements, of 4-state elements 14. | C190_packed_refuted: C190, packed arrays can be larger: of `N` one-byte 2-state elements, exactly if `N` is not a power of two below 8 and not a multiple of 8."
  },
  {
   "property": "C191",
   "status": "partial",
   "theorems": [
    "Verif.C191_holder",
    "Verif.C191_to_num",
    "Verif.C191_slice",
    "Verif.C191_slice_down",
    "Verif.C191_slice_refuted",
    "Verif.C191_extend",
    "Verif.C191_operator",
    "Verif.C191_operator_refuted",
    "Verif.C191_two",
    "Verif.C191_update",
    "Verif.C191_update_refuted",
    "Verif.C191_match_endian",
    "Verif.C191_get"
   ],
   "note": "C191_holder: C191, holders. Every size and signedness above 0 has exactly one specialisation; a native one is the smallest type that has the bits, and has the signedness of the vector from two bits on. Size 0 has none. | C191_to_num: C191, `to_num`. Native vectors have exactly one overload; its result type has the signedness of the vector and the width of its holder (8 for one bit). Wide vectors have none. | C191_slice: C191, `slice<a, b>()`. Never more than one overload; one exactly if `a` and `b` are below the size and `b` is not below the declared right bound. The body is the native one exactly for native vectors, and the one that reads a single word is chosen for results of up to 65 bits. | C191_slice_down: C191, slices of `[n-1:0]`. Every pair of indices of the vector has an overload. | C191_slice_refuted: C191 is false for slices of other ranges: with a positive low bound no overload takes the whole range, on an ascending range none takes indices whose right one is not the last, and a negative left index has one. | C191_extend: C191, `extend<k>()`. Exactly one overload at every pair of sizes, by whether the size grows and which sides are native; 4-state vectors have one exactly if the size does not shrink. | C191_operator: C191, binary operators. Never more than one overload; one exactly if the sizes differ or the right operand is descending, and the form for equal sizes exactly if they are equal. | C191_operator_refuted: C191 is false for right operands that ascend: no vector of more than one bit has a binary operator for an ascending operand of its own size, be it of its own type. | C191_two: C191, members with a native and a wide form: exactly one at every size. | C191_update: C191, `update<hi, lo>`. On `[n-1:0]` the 2-state form takes all indices of the vector, the 4-state form those with `lo \u2264 hi`. | C191_update_refuted: C191 is false for single-bit updates of ascending 4-state vectors: `update<i>(v)` has no viable form, whatever the index. | C191_match_endian: C191, `match_endian` says that both ranges descend (one bit included) or both ascend; it is an equivalence relation. | C191_get: C191, `get<i>()`. On a range with low bound 0 every index of a native vector is taken. Indices in range are rejected, and negative ones are taken, on every native descending range with a positive low bound."
  },
  {
   "property": "C192",
   "status": "partial",
   "theorems": [
    "Verif.C192_places",
    "Verif.C192_read_partial",
    "Verif.C192_second_index",
    "Verif.C192_refuted",
    "Verif.C192_write_exact"
   ],
   "note": "C192_places: C192, places. An array of arrays has as many bits as its elements together; every bit belongs to exactly one element and one place in it. | C192_read_partial: C192, reading, partial. Any number of dimensions, elements of more than one bit: the first index gives the row, and slices of the row give the element at its SystemVerilog place, for arrays of more than 64 bits or with spare storage bits (`C78_read_partial`). Missing: the other native arrays, where the read is undefined behaviour (`C78_refuted`), and `a[i][j]`, which is not the element (`C192_second_index`). | C192_second_index: C192 is false for a second index: `a[i][j]` is not element `j` of row `i` but bit `j` of the row, which is bit `j mod w` of the row's element `j / w` (in the order of the places), or undefined behaviour if that bit is x or z and `j` at least 64. For every array of arrays with elements of more than one bit. | C192_refuted: C192, refuted. In every array of arrays of more than 64 bits, `a[i][1]` reads the second bit of the row's first element: there is a content for which that bit is 0 and the element the indices name is all ones. | C192_write_exact: C192, writing a row, exactly. The elements of the row become those of the value and the other elements stay, but the first element of the next row loses its lowest bit."
  },
  {
   "property": "C193",
   "status": "partial",
   "theorems": [
    "Verif.C193_native_exact",
    "Verif.C193_native_partial",
    "Verif.C193_partial",
    "Verif.C193_refuted",
    "Verif.C193_iff",
    "Verif.C193_wide_and",
    "Verif.C193_logic_partial",
    "Verif.C193_logic_refuted"
   ],
   "note": "C193_native_exact: C193, native, exactly. The value of a whole expression over canonical `n` bit operands, extended to or assigned to `m \u2265 n` bits, is the expression computed with the storage size of `n` (8, 16, 32 or 64 bits) and then extended with zeros or cut. | C193_native_partial: C193, native, partial. Up to the storage size of the operands every expression over `+ - * & | ^ ~` that has a value obeys the rule of SystemVerilog: it gives the bits of the expression over the operands extended to `m` bits. Missing: wider targets, for which this is false (`C193_native_iff`). | C193_partial: C193, any width, partial. The same for expressions over `+ - | ^ ~` at every width, wide ones included. Missing: wider targets (`C193_iff`), `&` on wide vectors (`C193_wide_and`). | C193_refuted: C193 is false for targets wider than the storage of the operands: no complement has the right bits there, whatever the vector, and a sum has them exactly if it fits the storage. | C193_iff: C193, exactly. For the targets of at least the width of the operands: all expressions over `+ - | ^ ~` obey the rule for all canonical operands if and only if the target is not wider than the storage of the operands. | C193_wide_and: C193 is false for `&` on wide vectors, at every target wider than the operands: `~x & ~x` has the bits above the width cleared. | C193_logic_partial: C193, 4-state sums and differences, partial. Without x and z they have the bits of the sum of the extended operands up to the storage size. Missing: wider targets, x and z (`C193_logic_refuted`). | C193_logic_refuted: C193 is false for 4-state complements and for sums with x or z, at every wider target: all added bits are 0. In SystemVerilog those of the complement are 1, those of the sum x."
  },
  {
   "property": "C194",
   "status": "partial",
   "theorems": [
    "Verif.C194_logic_partial",
    "Verif.C194_ascending_refuted",
    "Verif.C194_native_iff",
    "Verif.C194_signed_iff",
    "Verif.C194_one_bit_refuted",
    "Verif.C194_wide_refuted",
    "Verif.C194_wide_iff"
   ],
   "note": "C194_logic_partial: C194, 4-state. On every descending range and every ascending one from 0, for every vector of any width with any x and z, `(~x).r_or()` is `x.r_nand()` and `(~x).r_and()` is `x.r_nor()`. Missing: ascending ranges with a positive low bound (`C194_ascending_refuted`) and 2-state vectors (`C194_native_iff`, `C194_signed_iff`, `C194_wide_iff`, `C194_one_bit_refuted`). | C194_ascending_refuted: C194 is false on ascending ranges with a positive low bound: for every vector of ones, `(~x).r_or()` is 0 and `x.r_nand()` is 1 (where the reads are defined at all). | C194_native_iff: C194, 2-state, exactly (unsigned canonical native vectors of more than one bit). `(~x).r_or()` is `x.r_nand()` unless the width is not that of a C++ type and `x` is all ones; `(~x).r_and()` is `x.r_nor()` unless the width is not that of a C++ type and `x` is zero. | C194_signed_iff: C194, 2-state, exactly, signed (canonical native vectors of more than one bit). `(~x).r_or()` is `x.r_nand()` unless `x` is -1 or the greatest number (`r_and` takes that one for all ones, C21); `(~x).r_and()` is `x.r_nor()` unless the width is not that of a C++ type and `x` is zero. | C194_one_bit_refuted: C194 is false for every one-bit vector: `r_and` of one bit is inverted (C21). | C194_wide_refuted: C194 is false at every wide width: `r_and` is the parity there (C21). For every `x` with an odd number of ones and a 0 in bit 1, such as 1, `(~x).r_or()` is true, as it should be, and `x.r_nand()` false. | C194_wide_iff: C194, wide, exactly. The two sides are a parity and a test of the lower halves of the limbs: the first law holds exactly if the number of ones is odd just when the lower half of every limb, storage above the declared width included, is full of ones; the second exactly if the number of zeros is odd just when those halves are empty."
  },
  {
   "property": "C195",
   "status": "partial",
   "theorems": [
    "Verif.C195_abs_partial",
    "Verif.C195_abs_least",
    "Verif.C195_abs_refuted",
    "Verif.C195_min_max",
    "Verif.C195_min_max_wide_partial",
    "Verif.C195_max_least",
    "Verif.C195_max_wide_refuted",
    "Verif.C195_clamp"
   ],
   "note": "C195_abs_partial: C195, absolute value, partial. `x < 0 ? -x : x` is the absolute value and canonical, at every native width above one. Missing: the least number (`C195_abs_least`). | C195_abs_least: C195, the least number. Its absolute value is undefined behaviour at 32 and 64 bits, is the least number itself (negative) at 8 and 16 bits, and elsewhere is a value that compares as non-negative though its bits are those of the least number, and which is not canonical. | C195_abs_refuted: C195, absolute value, is false as stated: the absolute value of the least 8-bit number is negative. | C195_min_max: C195, minimum and maximum, of unsigned vectors of every width and of signed native ones: the result is one of the operands, and its number is the minimum (maximum) of the numbers. | C195_min_max_wide_partial: C195, minimum and maximum, signed wide, partial. Missing: two negative numbers one of which is the least (`C195_max_least`; the maximum of the least number with itself does not end). | C195_max_least: C195, minimum and maximum with the least number, signed wide: of a negative number and the least number, the maximum is the least number; with itself the least number has no maximum, the comparison does not end. | C195_max_wide_refuted: C195, maximum, is false for signed wide vectors: the maximum of the least 70-bit number and a greater negative number is the least number. | C195_clamp: C195, clamp: between bounds in order, for unsigned vectors of every width and signed native ones."
  },
  {
   "property": "C196",
   "status": "partial",
   "theorems": [
    "Verif.C196_run",
    "Verif.C196_iff",
    "Verif.C196_linear_partial",
    "Verif.C196_known_partial",
    "Verif.C196_refuted",
    "Verif.C196_laws",
    "Verif.C196_comm_iff",
    "Verif.C196_no_z"
   ],
   "note": "C196_run: C196, what an expression computes. At every width the expression does not fault, is computed bit by bit, and is canonical if its operands are. | C196_iff: C196, exactly. At every width a law holds of the library if and only if it holds of single bits by the tables of the library. | C196_linear_partial: C196, partial. Every law of the IEEE tables about `~` and `^` holds, at every width. Missing: laws with `&` or `|` (`C196_refuted`). | C196_known_partial: C196, known bits, partial. On operands without x and z every law of Boolean algebra holds. Missing: operands with x or z. | C196_refuted: C196 is false of the code: at every width `&` and `|` are neither commutative nor associative nor distributive, De Morgan's laws fail, `^` is not what it is made of and `z & z` is z, though all of these are laws of the IEEE tables. | C196_laws: C196, laws that hold at every width, with x and z: `|` is idempotent up to z, absorbs, and negation three times is negation. | C196_comm_iff: C196, commutativity, exactly. `a & b` and `b & a` match if and only if at no position one operand has an x and the other a 0, or one a z and the other a 1; the same for `|`. | C196_no_z: C196, without z. If no operand has a z, `&` is associative and distributes over `|`, is idempotent and absorbs, though it does not commute."
  },
  {
   "property": "C197",
   "status": "partial",
   "theorems": [
    "Verif.C197_add_sub_mul",
    "Verif.C197_add_sub",
    "Verif.C197_mul_types",
    "Verif.C197_div_mod",
    "Verif.C197_neg",
    "Verif.C197_logic_partial",
    "Verif.C197_wide",
    "Verif.C197_logic_wide",
    "Verif.C197_logic_refuted"
   ],
   "note": "C197_add_sub_mul: C197, sum, difference and product. With canonical operands of one native width, `+`, `-` and `*` are undefined behaviour exactly if they are computed in a signed C++ type (both operands signed, or at most 16 bits, where C++ computes in `int`) and the exact result does not fit that type; they have a result otherwise. | C197_add_sub: C197, the types of sums and differences. `+` and `-` are undefined behaviour exactly if both operands are signed, have 32 or 64 bits and the exact result does not fit them. | C197_mul_types: C197, the types of products. Some product is undefined behaviour exactly if the operands are unsigned of 16 bits (C++ computes in `int`) or both signed of more than 16 bits. | C197_div_mod: C197, quotient and remainder. `/` and `%` are undefined behaviour exactly if the divisor is 0, or both operands are signed, have 32 or 64 bits, the dividend is the least number and the divisor is -1. | C197_neg: C197, unary minus. Unary minus is undefined behaviour exactly on the least number of a signed vector of 32 or 64 bits. | C197_logic_partial: C197, 4-state operands, partial. An unknown bit in an operand makes every arithmetic operator give a result, whatever the known bits are, and so does a divisor that is 0. With known operands (and a divisor other than 0) an operator is undefined behaviour exactly if the 2-state operator is on the values. Missing: wide operands, for which the first claim is false (`C197_logic_refuted`); what holds of them is `C197_logic_wide`. | C197_wide: C197, wide vectors. Above 64 bits sums, differences, quotients and remainders always have a result, also with the divisor 0. A product writes outside its storage exactly if some pair of set bits lies in limbs whose product has its upper half past the last limb, unless `fit_in_64` holds of both operands; it has a result otherwise. | C197_logic_wide: C197, wide 4-state operands. Sums and differences always have a result. A product writes outside its storage exactly if the test for unknown bits sees none in either operand and the product of the values does. For unsigned operands quotients and remainders always have a result. | C197_logic_refuted: C197 is false of wide 4-state products: at every wide width there is an operand with an unknown bit whose square is undefined behaviour."
  },
  {
   "property": "C198",
   "status": "proved",
   "theorems": [
    "Verif.C198_match",
    "Verif.C198_statement",
    "Verif.C198_library",
    "Verif.C198_sound",
    "Verif.C198_wild"
   ],
   "note": "C198_match: C198, the match. At every width and for all contents the loop never faults and tells whether every position fits by the rules of `case`, `casez` or `casex`. | C198_statement: C198, the statement. The case statement never faults and takes the first item that fits, or none if none does. | C198_library: C198, `case` against `match`. On canonical operands of the same signedness, unsigned ones above 64 bits, the loop for `case` and the library's `match` agree. | C198_sound: C198, soundness of `casex`. If `casex` passes an item over, then it is not the value of the expression, whatever the unknown bits of both turn out to be; if there are no unknown bits, it is passed over exactly if it differs. | C198_wild: C198, `==?`. At every width and for all contents: 0 exactly if some bits are both known and differ; otherwise 1 exactly if every bit of `a` is known where the bit of `b` is; otherwise x."
  },
  {
   "property": "C199",
   "status": "proved",
   "theorems": [
    "Verif.C199_encode",
    "Verif.C199_correct",
    "Verif.C199_detect",
    "Verif.C199_bit0"
   ],
   "note": "C199_encode: C199, the encoder. At every width, signed or not, and whatever the check bits hold, the encoder never faults, leaves all bits whose index is not a power of two as they are and makes the checksum 0. | C199_correct: C199, correction. An encoded vector of any width is left as it is by the corrector, and if any one bit but bit 0 has changed since, the corrector gives the encoded vector back. | C199_detect: C199, detection. If two bits of an encoded vector have changed, the checksum is not 0. | C199_bit0: C199, bit 0 is not protected: the corrector leaves an encoded vector with bit 0 flipped as it is."
  },
  {
   "property": "C200",
   "status": "partial",
   "theorems": [
    "Verif.C200_queue_partial",
    "Verif.C200_full_refuted"
   ],
   "note": "C200_queue_partial: C200: a ring buffer in a packed array that leaves one slot free is a first-in first-out queue of `D - 1` values, whatever the sequence of requests, however the pointers wrap, and whatever four-state values are queued. Partial: the array must not be indexed from a base other than zero, its last element must be readable (wider than 64 bits in total, or elements of two bits or more with spare bits in the storage word), and values wider than 64 bits must be known at positions 64 and up. Missing: those arrays and values, and a queue that uses every slot, for which it is false (`C200_full_refuted`). | C200_full_refuted: C200 refuted with every slot in use: when the push that fills the last free slot writes slot `i`, the oldest value sits in slot `i + 1`; the push is accepted and the oldest value is then read back with its lowest bit cleared, whatever was pushed."
  },
  {
   "property": "C201",
   "status": "proved",
   "theorems": [
    "Verif.C201_digits"
   ],
   "note": "C201_digits: C201: the circuit ends without undefined behaviour, and digit `k` of the register is the decimal digit `k` of the number, for every width of the number and every number of digits; digits beyond the register are dropped."
  },
  {
   "property": "C202",
   "status": "proved",
   "theorems": [
    "Verif.C202_count"
   ],
   "note": "C202_count: C202: with masks that select every second group, the levels `0 .. L-1` with `2^(L-1) < n <= 2^L` leave the number of ones of `x` in the vector, with no undefined behaviour, for every width above one and every contents, canonical or not."
  },
  {
   "property": "C203",
   "status": "partial",
   "theorems": [
    "Verif.C203_sum_partial",
    "Verif.C203_one_bit_refuted"
   ],
   "note": "C203_sum_partial: C203: adding any list of numbers to two others with saved carries gives their sum modulo `2^n`, for every width above one, whatever the contents. Missing: one bit, for which it is false (`C203_one_bit_refuted`). | C203_one_bit_refuted: C203 is false of the code at one bit: the carry is not shifted out (C25), and 1 + 1 + 0 gives 1."
  },
  {
   "property": "C204",
   "status": "partial",
   "theorems": [
    "Verif.C204_inverse_partial",
    "Verif.C204_u16_refuted",
    "Verif.C204_wide_refuted"
   ],
   "note": "C204_inverse_partial: C204, partial. For unsigned vectors of 2 to 8 and of 17 to 64 bits and an odd `a`, `k` steps from `x = a` with `n <= 3 * 2^k` (five always do) end with no undefined behaviour at the inverse of `a` modulo `2^n`. Missing: 9 to 16 bits, where the products overflow `int` (`C204_u16_refuted`), and limb-based vectors (`C204_wide_refuted`). | C204_u16_refuted: C204 is false of the code at 9 to 16 bits: for `a = 15` the second step is signed overflow, at each of these widths. | C204_wide_refuted: C204 is false of the code for limb-based vectors: at every multiple of 64 above 64, for every `a` from 2 to `2^32 - 1` the first step writes outside the array."
  },
  {
   "property": "C205",
   "status": "partial",
   "theorems": [
    "Verif.C205_enable_partial",
    "Verif.C205_enable_refuted"
   ],
   "note": "C205_enable_partial: C205, partial. Every group whose enable is 1 receives the group of `v`, x and z included; every other group, also one whose enable is x or z, keeps its contents; no undefined behaviour. Missing: enables with an x or z at an index from 64 on and groups wider than 64 bits with an x or z at such a position, where reading the bit is undefined (C02). | C205_enable_refuted: C205, the missing case: an enable that is x at index 64 is undefined behaviour, whatever else is written."
  },
  {
   "property": "C206",
   "status": "partial",
   "theorems": [
    "Verif.C206_text_partial",
    "Verif.C206_text_refuted"
   ],
   "note": "C206_text_partial: C206, partial. The hexadecimal text of the register is the decimal numeral of the number with `m` digits; it is the numeral itself when the number has `m` digits. Missing: registers of a multiple of 64 bits above 64, see `C206_text_refuted`. | C206_text_refuted: C206, the missing case: at every multiple of 64 above 64 the sixteen leading digits are printed as 0, so the text is wrong for every number that needs one of them."
  },
  {
   "property": "C207",
   "status": "partial",
   "theorems": [
    "Verif.C207_shift_partial",
    "Verif.C207_shift_refuted",
    "Verif.C207_select_partial",
    "Verif.C207_select_known",
    "Verif.C207_select_refuted"
   ],
   "note": "C207_shift_partial: C207, partial. From a register without x and z, with inputs that are 0 or 1, the register holds the inputs in their order. Missing: x and z, see `C207_shift_refuted`. | C207_shift_refuted: C207 is false with an x or z in the register: at every width above one, a register in which one of the bits the emptiness test looks at is x or z (so every register that was not set) holds, after any number of inputs, its last input and x everywhere else. | C207_select_partial: C207 with a part-select, partial. Moved by `update` and `slice`, the bits arrive in their order, x and z included, whatever the register held before. Missing: registers above 65 bits with an x or z (`C207_select_known`, `C207_select_refuted`). | C207_select_known: C207 with a part-select, any width. Without x and z the bits arrive in their order at every width. | C207_select_refuted: C207 with a part-select is false above 65 bits: an x or z at index 64 of the register is undefined behaviour."
  },
  {
   "property": "C208",
   "status": "partial",
   "theorems": [
    "Verif.C208_vote_partial",
    "Verif.C208_vote_refuted",
    "Verif.C208_rewritten"
   ],
   "note": "C208_vote_partial: C208, partial and exact. Where two replicas agree on 0 or 1 the vote is their value, except in two cases: an x in the first replica against two 0 gives 1, and an x in the second one gives x. Missing: those two cases (`C208_vote_refuted`) and replicas that agree on x or z. | C208_vote_refuted: C208 is false with the unknown replica first: at every width the vote of a replica that was not set and two replicas holding 0 is 1 in every bit. | C208_rewritten: C208, rewritten. Of every width: where two of the three replicas hold `v`, so does the vote, whatever the third one holds."
  },
  {
   "property": "C209",
   "status": "proved",
   "theorems": [
    "Verif.C209_sum"
   ],
   "note": "C209_sum: C209: the adder gives the sum, without undefined behaviour, at every width above one."
  },
  {
   "property": "C210",
   "status": "partial",
   "theorems": [
    "Verif.C210_flags_partial",
    "Verif.C210_unset_refuted"
   ],
   "note": "C210_flags_partial: C210, partial. A flag that was 0 or 1 holds what the last command naming it put there, whatever the other flags hold. Missing: flags that were x or z, see `C210_unset_refuted`. | C210_unset_refuted: C210 is false for flags that were not set: at every width, from a default-constructed register, any list of clearing commands leaves every flag x, also with a mask that names it; and the first setting command, whatever its mask, makes every flag 1."
  },
  {
   "property": "C211",
   "status": "partial",
   "theorems": [
    "Verif.C211_add_partial",
    "Verif.C211_refuted_all"
   ],
   "note": "C211_add_partial: C211, partial. With vectors without spare storage bits (8, 16, 32, 64 and the multiples of 64) the sum of two numbers of any length is their sum, the carry out included. Missing: the other widths (`C211_refuted_all`). | C211_refuted_all: C211 is false at every other width: one limb whose sum leaves the width gives no carry."
  },
  {
   "property": "C212",
   "status": "partial",
   "theorems": [
    "Verif.C212_sum_partial",
    "Verif.C212_order_partial",
    "Verif.C212_verify_partial",
    "Verif.C212_refuted_all"
   ],
   "note": "C212_sum_partial: C212, partial, the sum. At the widths without spare storage bits the checksum of any list of words ends without undefined behaviour, agrees with the sum of the words modulo `2^n - 1`, and is 0 only if all words are. Missing: the other widths (`C212_refuted_all`). | C212_order_partial: C212, partial, order. The checksum does not depend on the order of the words. Missing: the other widths, for which the checksum is wrong (`C212_refuted_all`). | C212_verify_partial: C212, partial, verification. If the complement of the checksum of the other words stands at any place of a packet, the packet adds up to all ones. Missing: the other widths, for which the checksum is wrong (`C212_refuted_all`). | C212_refuted_all: C212 is false at every other width: the carry is lost, so two words whose sum leaves the width add up to a number that is one too small modulo `2^n - 1`."
  },
  {
   "property": "C213",
   "status": "proved",
   "theorems": [
    "Verif.C213_sub",
    "Verif.C213_less"
   ],
   "note": "C213_sub: C213. At every width above one, the difference of two numbers of any length is right limb by limb, and the borrow out says whether the first number is the smaller. | C213_less: C213, comparison. The borrow out is the order of the two numbers."
  },
  {
   "property": "C214",
   "status": "proved",
   "theorems": [
    "Verif.C214_add",
    "Verif.C214_sub",
    "Verif.C214_less"
   ],
   "note": "C214_add: C214, overflow of a sum. The flag is set exactly if the sum of the two signed numbers is not a number of `n` bits. | C214_sub: C214, overflow of a difference. | C214_less: C214, signed order. The sign of the difference, corrected by the overflow flag, is the order of the two vectors read as signed numbers."
  },
  {
   "property": "C215",
   "status": "proved",
   "theorems": [
    "Verif.C215_exact",
    "Verif.C215_agree",
    "Verif.C215_finer"
   ],
   "note": "C215_exact: C215, exactly. At every width the comparator answers 1 exactly if both vectors are known and equal, 0 exactly if the lowest position that is not both known and equal holds two known different bits, and x otherwise. | C215_agree: C215, against `==`. Wherever all bits are known the comparator and `==` agree, at every width. | C215_finer: C215, unknown bits. If a bit is unknown and `==` sees it, `==` is x; the comparator answers 0 if a known difference stands below, so it is never less precise than `==` there."
  },
  {
   "property": "C216",
   "status": "proved",
   "theorems": [
    "Verif.C216_step",
    "Verif.C216_safe",
    "Verif.C216_fair"
   ],
   "note": "C216_step: C216, one clock. With the mask at the positions from `p` on, the grant is the lowest requester from `p` on, or the lowest of all if there is none, and the next mask starts above it; without requests there is no grant. | C216_safe: C216, safety. At every clock of every run, the grant goes to at most one, to a requester only, and to some requester if there is one. | C216_fair: C216, fairness. In every run, whoever asks during `n` clocks in a row is served in one of them."
  },
  {
   "property": "C217",
   "status": "partial",
   "theorems": [
    "Verif.C217_run_partial",
    "Verif.C217_refuted"
   ],
   "note": "C217_run_partial: C217, partial. In every run the register is x at every bit until the first reset; from a reset on it holds the sum of the summands since the last reset, until an unknown summand makes every bit x again. Missing: unknown bits that a wide vector does not show (`C217_refuted`). | C217_refuted: C217 is false of wide vectors: after a reset, a summand with an x at bit 40 that the test for unknown bits overlooks leaves the register known."
  },
  {
   "property": "C218",
   "status": "partial",
   "theorems": [
    "Verif.C218_booth",
    "Verif.C218_product_partial",
    "Verif.C218_product_refuted"
   ],
   "note": "C218_booth: C218, the loop. At every width of the accumulator and of the multiplier, the loop multiplies by the signed value of the multiplier, modulo `2^m`. | C218_product_partial: C218, the product, partial. For a native multiplicand the result is the exact product of the two signed numbers. Missing: wide multiplicands (`C218_product_refuted`), whose sign extension is wrong, and one bit numbers, which are `bool`s. | C218_product_refuted: C218 is false of wide multiplicands: 5 times 1 is negative."
  },
  {
   "property": "C219",
   "status": "proved",
   "theorems": [
    "Verif.C219_horner",
    "Verif.C219_round_trip"
   ],
   "note": "C219_horner: C219, the loop. At every width above one bit, the loop computes the number with the given decimal digits, after those already read, modulo `2^n`. | C219_round_trip: C219, round trip. From zero, the decimal digits of a number below `2^n` give that number."
  },
  {
   "property": "C220",
   "status": "partial",
   "theorems": [
    "Verif.C220_product_partial",
    "Verif.C220_all_moduli",
    "Verif.C220_refuted"
   ],
   "note": "C220_product_partial: C220, the product, partial. If twice the modulus fits in the storage the loop gives `a * b % m`, as a clean vector, for every `a` up to the modulus. This holds of every modulus if the width is not that of the storage (`C220_all_moduli`). Missing: larger moduli at a width that fills the storage (`C220_refuted`). | C220_all_moduli: C220, all moduli. At a width below that of its storage the loop is right of every modulus. | C220_refuted: C220 is false at every width that fills its storage: twice `2^n - 2` modulo `2^n - 1` comes out as `2^n - 4`. This is the wrap around of any `n` bit addition, a limit of the loop and not a fault of the library."
  },
  {
   "property": "C221",
   "status": "proved",
   "theorems": [
    "Verif.C221_gcd"
   ],
   "note": "C221_gcd: C221. At every width above one bit, for an odd `a` and any `b`, the loop ends within four rounds per bit of the width, with the greatest common divisor."
  },
  {
   "property": "C222",
   "status": "proved",
   "theorems": [
    "Verif.C222_high"
   ],
   "note": "C222_high: C222. For all vectors of `2 * h` bits, clean or not, whose halves fit in 64 bits (as the mask, a `uint64_t`, does), the sequence ends without undefined behaviour with the upper half of the product."
  },
  {
   "property": "C223",
   "status": "partial",
   "theorems": [
    "Verif.C223_power_partial",
    "Verif.C223_all_moduli",
    "Verif.C223_fermat",
    "Verif.C223_refuted"
   ],
   "note": "C223_power_partial: C223, the power, partial. If twice the modulus fits in the storage the loop gives `a ^ e % m`, as a clean vector, for every `a` up to the modulus and every exponent. Missing: larger moduli at a width that fills the storage (`C223_refuted`). | C223_all_moduli: C223, all moduli. At a width below that of its storage the loop is right of every modulus. | C223_fermat: C223, Fermat's test. At a width below that of its storage a prime passes: `a ^ (p - 1) % p` is 1 for every `a` from 1 to `p - 1`. | C223_refuted: C223 is false at widths that fill the storage: at 8 bits `254 ^ 2 % 255` comes out as 252."
  },
  {
   "property": "C224",
   "status": "proved",
   "theorems": [
    "Verif.C224_inverse",
    "Verif.C224_onto",
    "Verif.C224_unknown",
    "Verif.C224_known",
    "Verif.C224_x_spreads"
   ],
   "note": "C224_inverse: C224, deciphering undoes enciphering, at every width, for every number of rounds, all functions, and all objects with their whole storage; it is undefined nowhere if enciphering was not. | C224_onto: C224, enciphering undoes deciphering: so every block is the cipher of exactly one block, if the functions are defined everywhere. | C224_unknown: C224, 4-state halves: what comes back is right. Let the functions be defined everywhere and such that an unknown bit of the argument can only make bits of the result unknown. If a block reaches the other side with bits lost to x or z, deciphering it is defined, and every bit that comes back known is that of the original block. | C224_known: C224, 4-state halves without x and z. If the functions give known bits for known bits the block comes back. | C224_x_spreads: C224, a known bit need not come back if the block has an x: with `f(r) = ~r`, an x in one half takes the bit of the other with it."
  },
  {
   "property": "C225",
   "status": "partial",
   "theorems": [
    "Verif.C225_settled_partial",
    "Verif.C225_synchronized_partial",
    "Verif.C225_refuted",
    "Verif.C225_pessimism"
   ],
   "note": "C225_settled_partial: C225, known means settled, partial. Let the left operand of every `|` use only inputs that are known (those of `K`). Whatever other inputs and registers are x, and after any number of cycles: the simulation is undefined nowhere, and a bit of a register that is known has that value in the circuit of 0 and 1, from every start and for all inputs that the known bits allow. No bit becomes z. Missing: other uses of `|`, and z at the start (`C225_refuted`). | C225_synchronized_partial: C225, synchronizing. If such a circuit is simulated from registers that are all x, with known inputs, and ends with known registers, then the inputs bring the circuit of 0 and 1 into one and the same state from every start. Missing: as for `C225_settled_partial`. | C225_refuted: C225 fails for other uses of `|` and for z: an x in the left operand of `|` beside a 0 becomes 1, so a register that holds itself (`q = q | i` with the input 0) comes out of x as 1, though it can be 0; and `q = q & i` with the input 1 turns z into 1. At all widths. | C225_pessimism: C225 does not hold in reverse: `q = q ^ q` is 0 after a cycle in the circuit of 0 and 1, from both starts, but x in the simulation, forever."
  },
  {
   "property": "C226",
   "status": "partial",
   "theorems": [
    "Verif.C226_native_partial",
    "Verif.C226_wide_exact",
    "Verif.C226_refuted",
    "Verif.C226_without_ashr"
   ],
   "note": "C226_native_partial: C226, native widths. The code of a value of 2 to 64 bits is 2x for x at least 0 and -2x - 1 for negative x, and decoding gives the bits of x back. Missing: wide values (`C226_wide_exact`, `C226_refuted`). | C226_wide_exact: C226, wide values, exactly. The lowest bit of the code is 0 for all values, since `ashr` loses a copy of the sign: a negative value is decoded as its complement. | C226_refuted: C226 fails for every negative wide value: it is not decoded as itself, and its code is that of another value, `-1 - x`. | C226_without_ashr: C226, every width, without `ashr`. The code of a value of two bits or more, limb-based or not, is 2x for x at least 0 and -2x - 1 for negative x, and decoding gives the bits of x back."
  },
  {
   "property": "C227",
   "status": "partial",
   "theorems": [
    "Verif.C227_quotient_partial",
    "Verif.C227_constant_partial",
    "Verif.C227_refuted"
   ],
   "note": "C227_quotient_partial: C227, exactly when the product replaces the quotient. Let `m * d` be at least `2^k` and the product fit in the width. Then `(x * m) >> k` is what `x / d` gives if and only if `x * (m * d - 2^k) < (d - x % d) * 2^k`. Missing: products that do not fit (`C227_refuted`), and the wide values that `*` and `/` get wrong (C30, C31). | C227_constant_partial: C227, the usual constant. With `2^k` at least `2^j` times `d`, the least `m` with `m * d` at least `2^k` serves for all `x` below `2^j`. Missing: as for `C227_quotient_partial`. | C227_refuted: C227 fails if the product does not fit: for 20 / 7 at 8 bits with m = 19 and k = 7 the product 380 loses its highest bit."
  },
  {
   "property": "C228",
   "status": "proved",
   "theorems": [
    "Verif.C228_xtime",
    "Verif.C228_product",
    "Verif.C228_mod",
    "Verif.C228_laws"
   ],
   "note": "C228_xtime: C228, multiplication by X. | C228_product: C228, the product. In every commutative ring with `c + c = 0`, for every `\u03b1` with `\u03b1^n = p(\u03b1)`, the loop gives the product of the values of its operands at `\u03b1`; at every width above one bit, native or wide, for all objects with whatever lies above the width, and multipliers of any width and signedness. | C228_mod: C228, the product of polynomials. The bits of the result are the coefficients of the product of the polynomials of the operands, modulo `X^n + p`. | C228_laws: C228, laws. The product is commutative and associative, and distributes over `^`."
  },
  {
   "property": "C229",
   "status": "proved",
   "theorems": [
    "Verif.C229_power",
    "Verif.C229_inverse"
   ],
   "note": "C229_power: C229, the power. For every polynomial and every object the loop is undefined nowhere and gives the power `2^n - 2`. | C229_inverse: C229, the inverse. If `X^n + p` is irreducible the product of a vector other than 0 with the result is 1."
  },
  {
   "property": "C230",
   "status": "proved",
   "theorems": [
    "Verif.C230_log2",
    "Verif.C230_bool",
    "Verif.C230_bool_wide"
   ],
   "note": "C230_log2: C230. Of every width above one bit: for a vector that is not zero, the loop ends without a fault, its result is the position of the highest one and what is left of the vector is 1. | C230_bool: C230, with `if (t)`, up to 64 bits. The conversion to `bool` will do there. | C230_bool_wide: C230, with `if (t)`, fails above 64 bits: of 128 bits the loop gives 36 for `2^100`, for the first test does not see bit 36 of the shifted vector."
  },
  {
   "property": "C231",
   "status": "proved",
   "theorems": [
    "Verif.C231_field",
    "Verif.C231_shift"
   ],
   "note": "C231_field: C231, fields. Of every width above one bit: a field of `k` bits at the bottom of a vector becomes the signed number that the field is. | C231_shift: C231, shifts. Of every width above one bit, wide ones included, and every amount below the width: the shift followed by the sign is the arithmetic shift, the number divided by `2^a` and rounded down."
  },
  {
   "property": "C232",
   "status": "proved",
   "theorems": [
    "Verif.C232_less",
    "Verif.C232_signed_order"
   ],
   "note": "C232_less: C232. Of every width: for canonical vectors the program never faults and is true exactly if the first number, read as a signed one, is below the second. | C232_signed_order: two smallest numbers of 70 bits, compared as signed vectors"
  },
  {
   "property": "C233",
   "status": "proved",
   "theorems": [
    "Verif.C233_tables",
    "Verif.C233_repair",
    "Verif.C233_laws",
    "Verif.C233_needs_or",
    "Verif.C233_settled"
   ],
   "note": "C233_tables: C233, the two tables. Of every width and for all operands, x and z included: the two expressions do not fault and every bit is the entry of the IEEE table. | C233_repair: C233, expressions. Every expression, rewritten, computes at every width what the IEEE tables say of the expression, for all operands. | C233_laws: C233, laws. Every law of the IEEE tables holds between the rewritten expressions. | C233_needs_or: C233, `|` is needed. Of every width: no expression of `&`, `~` and `^`, of whatever size, computes the table of `&`, nor that of `|`. | C233_settled: C233, circuits. Of every synchronous circuit, rewritten, the claim of C225 holds without its conditions: from all registers and inputs, x and z included, and after any number of cycles the simulation is undefined nowhere, and a bit of a register that is known has that value in the circuit of 0 and 1, from every start and for all inputs that the known bits allow."
  },
  {
   "property": "C234",
   "status": "proved",
   "theorems": [
    "Verif.C234_mux",
    "Verif.C234_hazard",
    "Verif.C234_tree",
    "Verif.C234_plain"
   ],
   "note": "C234_mux: C234, one multiplexer. Of every width and for all operands, x and z included: the rewritten gates (C233) compute `s ? a : b` of IEEE 1800 at every bit. | C234_hazard: C234, the third term. Without it the gates compute the same at exactly those bits at which the select is known or not both operands are 1. | C234_tree: C234, trees. A tree of `2^k - 1` such multiplexers, of whatever depth and width: if all inputs that the known selects leave open are known and have the same value at a bit, then so has the result. With known selects this says that the result is the selected input. | C234_plain: C234 fails with the operators as they are: the select is x, both operands are 0, and the result is 1 instead of 0."
  },
  {
   "property": "C235",
   "status": "proved",
   "theorems": [
    "Verif.C235_add"
   ],
   "note": "C235_add: C235. Of every width and every number of digits: the planes `p j` and `q j` of the operands and the carry `r` are any vectors. No digit faults. At every lane, for all digits `\u03b2` that the known ones allow, a known digit `j` of the result is digit `j` of the sum of the numbers; and if all planes are known at the lane then so are the digits of the result. The carry out is digit `k`."
  },
  {
   "property": "C236",
   "status": "proved",
   "theorems": [
    "Verif.C236_and_iff",
    "Verif.C236_or_iff"
   ],
   "note": "C236_and_iff: C236, `&`. At every width: over a set of operators of the library, x and z included, some expression computes the IEEE table of `&` if and only if the set has `|` and either `^` or both `&` and `~`. | C236_or_iff: C236, `|`. The table of `|` if and only if the set has `|` and one of `^` and `&`."
  }
 ]
}
