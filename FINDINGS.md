# Defects of the code that the theorems establish

Each row is one cause in `/repo`, read off the source, and the theorems of the model that show its effect. What is proved is the effect, in the model; that the
lines named are the cause is a reading of the code, not a theorem. Many of the theorems hold for all widths and values of a class. Others give one concrete witness
(`C06_ascending_refuted`, `C06_native_refuted`, `C29_refuted`, `C30_refuted`, `C34_refuted`, `C35_refuted`, `C37_wide_refuted`, `C42_refuted`, `C46_refuted`, `C168_refuted`, and parts
of others): the statement says which. The theorems are in `lean/Verif/Props`. The code and its tests were not run, so nothing here has been reproduced on a compiled program.
The list is not complete: other `_refuted` theorems are in MANIFEST.json.

| Cause | Where | Effect | Theorems |
|---|---|---|---|
| `std::reduce` with the initial value `0` of type `int`: the accumulator keeps 32 bits | `big_num.hh` 469, 477, 774, 809, 815 | Bits 32 to 63 of every limb are invisible to `any_set`, `is_one`, `fit_in_64` and the tail of `==`. Truth values, `!`, x propagation, division, multiplication and `==` of wide vectors go wrong | `C84_refuted`, `C22_refuted`, `C30_wide_refuted_all`, `C31_wide_refuted_all`, `C33_wide_refuted_all`, `C39_wide_refuted_all`, `C217_refuted`, `C197_logic_refuted`, `C230_bool_wide` |
| `all_set` folds `&` from the initial value 0 | `big_num.hh` 790-797 | The fold is always 0, so a wide value with every bit set is not `all_set()` | `C86_refuted` |
| Multiplication of limbs tests the limb number against the number of bits | `big_num.hh` 653, 658 | Write past the end of the array | `C168_refuted`, `C37_wide_refuted`, `C122_mul_wide_refuted`, `C182_wide_refuted`, `C204_wide_refuted` |
| `extend` of a signed `big_num` fills with ones whatever the sign | `big_num.hh` 116-120 | A wide signed number that is not negative becomes negative | `C48_refuted`, `C87_refuted_all`, `C110_signed`, `C113_refuted`, `C119_wide_refuted`, `C122_wide_refuted`, `C218_product_refuted` |
| The copying loop of `ashr` ends before bit `size - 1` | `big_num.hh` 394-397 | The copy of the sign bit is missing (`C231_shift` has a way round it) for every negative wide number and every amount below the width | `C26_wide_refuted`, `C226_refuted` |
| `>` of two negative numbers compares the negations | `big_num.hh` 503-504 | Never ends for two least numbers; the least number is out of order; different widths compare by type | `C42_refuted`, `C137_refuted_same`, `C137_refuted_chunks`, `C166_refuted`, `C156_least_refuted` |
| Results of `+` and `~` are not masked to the width (nor are those of `-` and native `<<`) | `bit.hh` 355, 547, 726, 750 | Bits above the width stay in the storage: `==`, `<`, widening and the bytes of the object see them; a wide signed `x + (-x)` can test true | `C16_refuted_all`, `C16_wide_cancel`, `C16_expr_iff`, `C143_refuted`, `C155_wrap_iff`, `C156_refuted`, `C175_carry_refuted`, `C211_refuted_all`, `C212_refuted_all`, `C190_bytes_refuted`, `C193_iff` |
| The case of an unknown left and known right bit tests the complement of the left value instead of the right value | `logic.hh` 321-322, 387-388 | `x & 0` is x, `z & 1` is 1, `x \| 0` is 1 (`C233_tables` has expressions that are right) | `C10_and_table_refuted`, `C11_or_table_refuted`, `C131_refuted`, `C142_refuted_bitwise`, `C152_refuted`, `C208_vote_refuted`, `C210_unset_refuted`, `C225_refuted` |
| `xor_` computes `l \| r` | `logic.hh` 459 | `^` of different widths is `\|` | `C12_refuted` |
| `r_and` and `r_or` stop at the first x; `r_xor` counts zeros | `logic.hh` 485-511, 524-526 | A 0 (1) behind an x is missed; parity inverted at odd widths; on ascending ranges with a positive low bound other positions are read | `C17_refuted`, `C18_refuted`, `C19_refuted`, `C17_ascending_refuted`, `C18_ascending_refuted` |
| 2-state `r_and` compares with the maximum of the holder type shifted, or calls `r_xor` | `bit.hh` 461-465 | Inverted for one bit, wrong for signed vectors, parity for wide vectors | `C21_one_bit_refuted`, `C21_signed_refuted`, `C21_wide_refuted` |
| Reading an x or z writes it to index `idx` of a one-bit result | `logic.hh` 57-60 | From index 64 on undefined behaviour; so are reads of a default-constructed wide vector there and slice updates with such bits | `C02_read_refuted`, `C03_logic_refuted`, `C07_refuted`, `C55_refuted`, `C145_refuted`, `C163_refuted` |
| Native shifts use the C++ operators with the amount converted to the holder type | `bit.hh` 492, 547, 577 | Right shifts by the width or more are undefined; left shift amounts wrap in the holder type or are undefined | `C24_refuted_all`, `C25_refuted`, `C25_wrap_refuted`, `C106_refuted_all`, `C147_refuted`, `C159_zero_refuted` |
| A 4-state shift whose value holds an x or z gives all x; IEEE 1800 11.4.10 asks for that only of the amount | `logic.hh` 555-594, 611-635 | A shift register that was not set never holds anything but its last input | `C207_shift_refuted` |
| Integral promotion and signed overflow | `bit.hh` 702, 726, 750, 774, 798, 822 | 16-bit products, `INT_MIN - 1`, `INT_MIN / -1` and `-INT_MIN` are undefined | `C29_refuted`, `C30_refuted`, `C204_u16_refuted`, `C34_refuted`, `C35_refuted`, `C182_refuted` |
| Mixed signedness is compared and divided through C++ conversions | `bit.hh` 601, 633, 652, 671, 690, 822 | Equal bits differ, negative numbers are above unsigned ones, signed dividends are divided as signed | `C38_refuted_all`, `C44_refuted_all`, `C45_refuted_all`, `C46_refuted`, `C119_wide_native_refuted`, `C123_order_refuted`, `C123_div_refuted` |
| `set` subtracts the low bound, `get_` and the wide slices do not | `bit.hh` 69-134, 160-179, 1093-1120 | On ranges with another low bound a bit is not read where it was written | `C04_base_refuted_all`, `C06_ascending_refuted`, `C89_refuted_all`, `C90_refuted`, `C167_low_refuted` |
| Out-of-range accesses of native vectors are shifts | `bit.hh` 76, 1098 | Undefined, or the sign bit is read, or storage above the width is written | `C06_native_refuted`, `C118_signed_refuted`, `C118_native_fault_refuted`, `C127_refuted`, `C136_native_refuted_all` |
| Slices of signed native vectors shift the sign-extended value; one-bit run-time slices read 0 | `bit.hh` 1124-1162 | Slices up to the top of the holder are undefined, others keep sign bits | `C50_refuted`, `C51_refuted`, `C53_signed_refuted`, `C80_refuted_all`, `C144_refuted` |
| Concatenation shifts in the type of the left operand and does not mask the right one | `bit.hh` 277 | Undefined or truncated above 32 bits; a negative right operand overwrites the left one | `C52_refuted`, `C52_truncated_refuted`, `C94_signed_refuted`, `C94_truncated_refuted`, `C148_refuted` |
| The constant 2-state `update<hi, lo>` reads its operand at the destination position | `bit.hh` 934-949 | Slices that start above the bits of the operand are cleared | `C57_refuted`, `C57_native_refuted`, `C82_refuted_all`, `C162_constant_refuted` |
| Slice assignment copies bit by bit in place | `bit.hh` 1178-1193, `logic.hh` 1134 and 1161 on | Assigning a vector to an overlapping slice of itself | `C124_runtime_refuted`, `C124_logic_refuted`, `C162_self_refuted` |
| The end of an element is taken as inclusive | `array.hh` 95, 114 | Writing an element clears the lowest bit of the next; reading the last one can be undefined; a second index selects a bit | `C78_refuted`, `C200_full_refuted`, `C103_refuted`, `C153_refuted`, `C154_refuted`, `C192_refuted` |
| The index is tested against the number of bits, or without the low bound | `array.hh` 82-83, 144 | Indices past the end read zeros; updates of arrays that do not start at 0 are dropped | `C79_refuted`, `C81_refuted` |
| Hexadecimal digits: `c - 'a'` | `util.cc` 100 | Lower case digits are ten too small; printed texts are not read back | `C62_refuted`, `C67_refuted`, `C139_refuted` |
| `1u << idx` | `util.cc` 136 | Binary x or z digits from position 32 on are undefined | `C61_refuted`, `C69_refuted`, `C77_refuted`, `C138_refuted` |
| Wide literals are cut into batches of `64 / stride` characters | `util.cc` 204-245 | Octal digits, underscores and decimal numbers end in the wrong limb | `C64_refuted`, `C68_refuted`, `C69_underscore_refuted` |
| Prefixes and leading digits of literals | `util.cc` 9-27 and the digit loops | Signs are skipped, sizes become digits, `'1`, `'x`, `'sh0` are misread, leading x and z are not extended | `C141_refuted`, `C172_signed_refuted`, `C172_size_refuted`, `C172_unbased_refuted`, `C172_unknown_refuted`, `C135_refuted_all` |
| Formatting | `util.cc`, `to_string` | Mirrored digits (2-state), the top limb missing at multiples of 64, reads past the limb array, decimal text of 128 bits reads past the table | `C70_refuted`, `C72_refuted`, `C75_refuted`, `C76_hex_refuted`, `C76_octal_oob_refuted`, `C76_decimal_refuted`, `C99_wide_refuted`, `C100_2state_refuted`, `C164_hex_wide_refuted` |
| Sign extension works on the two planes apart | `logic.hh` 228-234, 1039-1044 | A leading z extends to ones; a vector of x extends to known bits | `C134_refuted_all`, `C93_z_refuted_all` |
| Part-select bases are read with `to_num()` cut to `int` | `bit.hh` 196, 208 | An x or z base selects bits from 0 on; bases from `2^32` on wrap | `C130_refuted`, `C136_base_refuted_all` |
| Slice proxies hold a reference | `bit.hh` 1203-1230 | A proxy that outlives its vector dangles | `C188_refuted` |
| The holder of a one-bit vector is a `bool` | `util.hh` 85-93 | Every non-zero number, literal or character stored in one bit is 1, so `+` is or, `++` always gives 1, and the octal digit 2 or the letter `b` reads as 1 | `C28_one_bit`, `C36_one_bit`, `C60_one_bit`, `C63_one_bit_refuted`, `C65_one_bit_refuted`, `C25_one_bit_refuted`, `C155_one_bit`, `C203_one_bit_refuted` |
