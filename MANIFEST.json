{
 "claims": [
  {
   "property": "C01",
   "status": "partial",
   "theorems": [
    "Imt.Props.C01_round_trip_doubles_partial",
    "Imt.Props.C01_round_trip_partial",
    "Imt.Props.C01_round_trip_exact_partial",
    "Imt.Props.C01_violation_infinity",
    "Imt.Props.C01_violation_min",
    "Imt.Props.C01_violation_min_anywhere"
   ],
   "note": "Proved for all trees whose doubles are zero or normal: doubles come back within the error of the printed decimals (C107), precise numbers and signed nonnegative integers as stated by Reads, everything else equal. Violated by the strings \"∞\", \"-∞\" (read as infinities) and by -2^63 (signed overflow while printing); subnormal doubles: C106."
  },
  {
   "property": "C02",
   "status": "partial",
   "theorems": [
    "Imt.Props.C02_round_trip_doubles_partial",
    "Imt.Props.C02_round_trip_partial",
    "Imt.Props.C02_violation_astral"
   ],
   "note": "Proved for strings without characters above U+FFFF, doubles as in C01. Violated by those characters (only the low 16 bits are written)."
  },
  {
   "property": "C03",
   "status": "proved",
   "theorems": [
    "Imt.Props.C03_ascii_doubles",
    "Imt.Props.C03_ascii"
   ],
   "note": "Strings and keys are arbitrary bytes, doubles arbitrary (C03_ascii_doubles). Texts of precise numbers are assumed ASCII."
  },
  {
   "property": "C04",
   "status": "partial",
   "theorems": [
    "Imt.Props.C04_grammar_doubles_partial",
    "Imt.Props.C04_grammar_partial",
    "Imt.Props.C04_violation_precise",
    "Imt.Props.C04_violation_astral"
   ],
   "note": "Proved for well-formed strings (escaped mode: up to U+FFFF), precise numbers that are JSON tokens and doubles that are zero or normal. Violated by precise numbers such as +5 and by characters above U+FFFF in escaped mode."
  },
  {
   "property": "C05",
   "status": "partial",
   "theorems": [
    "Imt.Props.C05_accepts_partial",
    "Imt.Props.C05_limits",
    "Imt.Props.C05_violation_surrogates",
    "Imt.Props.C05_violation_pairs",
    "Imt.Props.C05_violation_infinity",
    "Imt.Props.C05_note_bad_escape_accepted"
   ],
   "note": "Proved for all texts without surrogate pairs and without the strings \"∞\", \"-∞\"; the limits are exact (C05_limits: rejected if and only if a key occurs twice, an exponent is 2^64 or more or an integer part is infinite). Violated by every string with a surrogate pair (accepted, but longer than what it denotes) and by those strings."
  },
  {
   "property": "C06",
   "status": "proved",
   "theorems": [
    "Imt.Props.C06_total",
    "Imt.Props.C06_fuel_irrelevant",
    "Imt.Props.C06_fromString"
   ],
   "note": "Recursion depth is unbounded in the model (no stack limit)."
  },
  {
   "property": "C07",
   "status": "partial",
   "theorems": [
    "Imt.Props.C07_unsigned",
    "Imt.Props.C07_negative",
    "Imt.Props.C07_large",
    "Imt.Props.C07_violation_min"
   ],
   "note": "All digit strings; the one exception is -2^63, which is in range but read as floating point (its decimal is exact)."
  },
  {
   "property": "C08",
   "status": "partial",
   "theorems": [
    "Imt.Props.C08_unsigned",
    "Imt.Props.C08_signed_partial",
    "Imt.Props.C08_violation_min"
   ],
   "note": "All integers except -2^63, whose printing is a signed overflow (violation)."
  },
  {
   "property": "C09",
   "status": "proved",
   "theorems": [
    "Imt.Props.C09_rejected",
    "Imt.Props.C09_allowed",
    "Imt.Props.C09_dupFree_allowed"
   ],
   "note": ""
  },
  {
   "property": "C10",
   "status": "proved",
   "theorems": [
    "Imt.Props.C10_keeps_text",
    "Imt.Props.C10_accepts"
   ],
   "note": ""
  },
  {
   "property": "C11",
   "status": "partial",
   "theorems": [
    "Imt.Props.C11_precise_fits_partial",
    "Imt.Props.C11_precise_negative_partial",
    "Imt.Props.C11_string_fits",
    "Imt.Props.C11_violation_wraps"
   ],
   "note": "Exact whenever the numeral fits. Violated above 2^64: 30000000000000000000 is seen as a wrapped integer."
  },
  {
   "property": "C12",
   "status": "proved",
   "theorems": [
    "Imt.Props.C12_decode_encode",
    "Imt.Props.C12_encode_decode",
    "Imt.Props.C12_wellformed_iff",
    "Imt.Props.C12_streaming"
   ],
   "note": "Both directions; decoder started in any state reachable by garbage input."
  },
  {
   "property": "C13",
   "status": "proved",
   "theorems": [
    "Imt.Props.C13_wide_round_trip",
    "Imt.Props.C13_out_of_range_dropped"
   ],
   "note": "Wide characters above 0x10FFFF (not code points) are dropped, proved separately."
  },
  {
   "property": "C14",
   "status": "proved",
   "theorems": [
    "Imt.Props.C14_encode_rfc4648",
    "Imt.Props.C14_length",
    "Imt.Props.C14_alphabet",
    "Imt.Props.C14_round_trip"
   ],
   "note": "Encoder equals an RFC 4648 specification written by 24-bit groups; decode inverts it."
  },
  {
   "property": "C15",
   "status": "proved",
   "theorems": [
    "Imt.Props.C15_encode_rfc4648",
    "Imt.Props.C15_round_trip",
    "Imt.Props.C15_alphabet"
   ],
   "note": ""
  },
  {
   "property": "C16",
   "status": "proved",
   "theorems": [
    "Imt.Props.C16_encode_exact",
    "Imt.Props.C16_round_trip"
   ],
   "note": ""
  },
  {
   "property": "C17",
   "status": "proved",
   "theorems": [
    "Imt.Props.C17_wellformed",
    "Imt.Props.C17_round_trip"
   ],
   "note": ""
  },
  {
   "property": "C18",
   "status": "partial",
   "theorems": [
    "Imt.Props.C18_round_trip_partial",
    "Imt.Props.C18_exact_partial",
    "Imt.Props.C18_violation_first_byte",
    "Imt.Props.C18_violation_zero",
    "Imt.Props.C18_violation_diff",
    "Imt.Props.C18_violation_empty_binary",
    "Imt.Props.C18_violation_compat32_sign",
    "Imt.Props.C18_violation_min"
   ],
   "note": "Proved for all trees whose texts do not start with a byte 0x80-0xBF, without diff objects, empty binary strings, -2^63, and with at most 32-bit integers under maintain32BitComp; the excluded values are shown to break the claim. Numbers keep value; representation (longInt flag, signed class, zero kept as a double) may change (exact version for canonical numbers). C18_violation_zero: the sign of a zero kept as a double is lost."
  },
  {
   "property": "C19",
   "status": "partial",
   "theorems": [
    "Imt.Props.C19_synchronised_partial",
    "Imt.Props.C19_violation_wrap"
   ],
   "note": "Proved for sequences of fewer than 2^32-256 keys; shown false when the 32-bit identifiers wrap."
  },
  {
   "property": "C20",
   "status": "proved",
   "theorems": [
    "Imt.Props.C20_tokens"
   ],
   "note": ""
  },
  {
   "property": "C21",
   "status": "partial",
   "theorems": [
    "Imt.Props.C21_terminates_partial",
    "Imt.Props.C21_violation_eof"
   ],
   "note": "Proved for sources that throw at the end of data; shown false for sources that keep returning -1."
  },
  {
   "property": "C22",
   "status": "partial",
   "theorems": [
    "Imt.Props.C22_hash_partial",
    "Imt.Props.C22_simple",
    "Imt.Props.C22_violation_double",
    "Imt.Props.C22_violation_precise",
    "Imt.Props.C22_violation_binary",
    "Imt.Props.C22_violation_item_keys",
    "Imt.Props.C22_violation_rounding",
    "Imt.Props.C22_violation_overflow"
   ],
   "note": "Equal hashes for values without precise numbers, integral doubles, integers inexact as doubles, binary strings and keyed array items; violations show each exclusion is needed, and that hashing the most negative integer is undefined behaviour."
  },
  {
   "property": "C23",
   "status": "proved",
   "theorems": [
    "Imt.Props.C23_canonical",
    "Imt.Props.C23_keys"
   ],
   "note": ""
  },
  {
   "property": "C24",
   "status": "proved",
   "theorems": [
    "Imt.Props.C24_member",
    "Imt.Props.C24_member_constructed"
   ],
   "note": ""
  },
  {
   "property": "C25",
   "status": "proved",
   "theorems": [
    "Imt.Props.C25_map",
    "Imt.Props.C25_size"
   ],
   "note": "Every sequence of set/unset/merge/clear/revert/setBaseObject/copy/read/commit over every canonical base (diff objects included); absence of undefined behaviour in operator[] is part of the statement."
  },
  {
   "property": "C26",
   "status": "proved",
   "theorems": [
    "Imt.Props.C26_values",
    "Imt.Props.C26_no_sharing",
    "Imt.Props.C26_builders"
   ],
   "note": "Heap model of the object builder (Model/ObjHeap.lean); array builders enter as producers of fresh values, their own vector is never shared (array.h)."
  },
  {
   "property": "C27",
   "status": "partial",
   "theorems": [
    "Imt.Props.C27_iterate_partial",
    "Imt.Props.C27_violation_clear",
    "Imt.Props.C27_violation_revert",
    "Imt.Props.C27_violation_assign"
   ],
   "note": "Proved for every history except enumerations made after clear/revert/setBaseObject/assignment with an older enumeration still cached; violation theorems show the stale enumeration."
  },
  {
   "property": "C28",
   "status": "partial",
   "theorems": [
    "Imt.Props.C28_diff_patch_partial",
    "Imt.Props.C28_exact_partial",
    "Imt.Props.C28_violation_undefined_member"
   ],
   "note": "Proved for ordinary objects whose members are all defined, up to operator== (and exactly when operator== is exact); a violation theorem shows an undefined member of the second object is lost."
  },
  {
   "property": "C29",
   "status": "partial",
   "theorems": [
    "Imt.Props.C29_flat_partial",
    "Imt.Props.C29_violation_always",
    "Imt.Props.C29_violation_equal"
   ],
   "note": "Proved when no key has objects on both sides; fails in every other case (violation theorem), because the nested diff is recorded under the empty key."
  },
  {
   "property": "C30",
   "status": "partial",
   "theorems": [
    "Imt.Props.C30_setItems_partial",
    "Imt.Props.C30_violation_repeated",
    "Imt.Props.C30_violation_removed"
   ],
   "note": "Proved for updates with distinct keys; violation theorems for repeated keys."
  },
  {
   "property": "C31",
   "status": "proved",
   "theorems": [
    "Imt.Props.C31_order_independent"
   ],
   "note": ""
  },
  {
   "property": "C32",
   "status": "partial",
   "theorems": [
    "Imt.Props.C32_list_partial",
    "Imt.Props.C32_room",
    "Imt.Props.C32_setBase",
    "Imt.Props.C32_violation_undefined_base",
    "Imt.Props.C32_violation_reverse_revert"
   ],
   "note": "Every legal sequence of operations equals the list operations; violation theorems for an undefined base and revert after reverse."
  },
  {
   "property": "C33",
   "status": "partial",
   "theorems": [
    "Imt.Props.C33_insert_partial",
    "Imt.Props.C33_violation_always",
    "Imt.Props.C33_violation_middle"
   ],
   "note": "Proved for insertion where offset is zero; violation theorems otherwise."
  },
  {
   "property": "C34",
   "status": "partial",
   "theorems": [
    "Imt.Props.C34_from",
    "Imt.Props.C34_window_partial",
    "Imt.Props.C34_violation_twice",
    "Imt.Props.C34_violation_start",
    "Imt.Props.C34_actual",
    "Imt.Props.C34_violation_smallest"
   ],
   "note": "One-argument slice proved; two-argument slice proved in the stated range, violation theorems otherwise. C34_actual states what is kept for all arguments."
  },
  {
   "property": "C35",
   "status": "partial",
   "theorems": [
    "Imt.Props.C35_slice_partial",
    "Imt.Props.C35_slice_from",
    "Imt.Props.C35_violation_negative",
    "Imt.Props.C35_violation_before",
    "Imt.Props.C35_violation_undefined",
    "Imt.Props.C35_violation_min"
   ],
   "note": "Proved for start >= 0 or end >= size, without undefined items. False otherwise: a negative start ignores end (C35_violation_negative, _before), undefined items are dropped, start = INT64_MIN is undefined behaviour."
  },
  {
   "property": "C36",
   "status": "partial",
   "theorems": [
    "Imt.Props.C36_array_partial",
    "Imt.Props.C36_violation_large",
    "Imt.Props.C36_string_partial",
    "Imt.Props.C36_violation_string_zero"
   ],
   "note": "Proved for arrays and strings below 2^31 items, except strings at position 0, where the left part is the whole string (C36_violation_string_zero). Arrays of 2^31 items overflow int (C36_violation_large)."
  },
  {
   "property": "C37",
   "status": "partial",
   "theorems": [
    "Imt.Props.C37_push",
    "Imt.Props.C37_pop",
    "Imt.Props.C37_push_pop",
    "Imt.Props.C37_unshift_partial",
    "Imt.Props.C37_shift_partial",
    "Imt.Props.C37_unshift_shift_partial",
    "Imt.Props.C37_violation_undefined",
    "Imt.Props.C37_violation_push"
   ],
   "note": "push/pop proved for every array; shift/unshift for arrays without undefined items, which they drop (C37_violation_undefined). Pushing undefined stores nothing (C37_violation_push)."
  },
  {
   "property": "C38",
   "status": "partial",
   "theorems": [
    "Imt.Props.C38_join_partial",
    "Imt.Props.C38_violation_empty",
    "Imt.Props.C38_violation_long"
   ],
   "note": "Proved for every non-empty array. For an empty array and a non-empty separator the size computation underflows: out-of-bounds write (C38_violation_empty) or bad_alloc (C38_violation_long)."
  },
  {
   "property": "C39",
   "status": "proved",
   "theorems": [
    "Imt.Props.C39_indexOf",
    "Imt.Props.C39_lastIndexOf"
   ],
   "note": "For any equality predicate."
  },
  {
   "property": "C40",
   "status": "partial",
   "theorems": [
    "Imt.Props.C40_replace_succeeds",
    "Imt.Props.C40_read_back_partial",
    "Imt.Props.C40_read_back_keys",
    "Imt.Props.C40_read_back_diff",
    "Imt.Props.C40_frame_keys",
    "Imt.Props.C40_frame_items",
    "Imt.Props.C40_violation_index_beyond_end",
    "Imt.Props.C40_violation_undefined_item",
    "Imt.Props.C40_violation_index_over_object"
   ],
   "note": "Read-back for key paths without exceptions, for index paths with indices up to the size and a visible value; frame for diverging keys and indices; diff values; violations for an index above the size, undefined items, and indices over objects."
  },
  {
   "property": "C41",
   "status": "proved",
   "theorems": [
    "Imt.Props.C41_toValue",
    "Imt.Props.C41_negative",
    "Imt.Props.C41_round_trip",
    "Imt.Props.C41_refuses",
    "Imt.Props.C41_scalar"
   ],
   "note": "Round trip for every path made by the constructors; other item types are refused."
  },
  {
   "property": "C42",
   "status": "proved",
   "theorems": [
    "Imt.Props.C42_lawful",
    "Imt.Props.C42_zero_iff_same"
   ],
   "note": "Lawful three-way comparison, 0 exactly for equal element lists. StringView::compare comes from the absent shared submodule and is taken as byte order (only the sign matters)."
  },
  {
   "property": "C43",
   "status": "partial",
   "theorems": [
    "Imt.Props.C43_antisymmetric",
    "Imt.Props.C43_transitive_partial",
    "Imt.Props.C43_violation_large_unsigned",
    "Imt.Props.C43_violation_nan",
    "Imt.Props.C43_violation_rounding"
   ],
   "note": "Antisymmetry and reflexivity for all values; transitivity when unsigned numbers are below 2^63, integers are exact as doubles and there is no NaN. Violations for each exclusion."
  },
  {
   "property": "C44",
   "status": "partial",
   "theorems": [
    "Imt.Props.C44_reflexive",
    "Imt.Props.C44_symmetric_partial",
    "Imt.Props.C44_transitive_partial",
    "Imt.Props.C44_violation_transitivity",
    "Imt.Props.C44_violation_symmetry",
    "Imt.Props.C44_violation_copies"
   ],
   "note": "Reflexive for all; symmetric when numbers are not wrapped in custom objects (with a violation); transitive for integers exact as doubles and no undefined inside; violations: transitivity by rounding, copies of an undefined or NaN item."
  },
  {
   "property": "C45",
   "status": "partial",
   "theorems": [
    "Imt.Props.C45_find_partial",
    "Imt.Props.C45_findValue_partial",
    "Imt.Props.C45_equalRange_partial",
    "Imt.Props.C45_lowerBound_partial",
    "Imt.Props.C45_violation_upperBound",
    "Imt.Props.C45_violation_large"
   ],
   "note": "find, lowerBound and equalRange proved for lawful comparisons and containers of at most 2^31 items; beyond, the int distance of the iterator wraps (C45_violation_large). upperBound of an absent needle is the end, not the first item above (C45_violation_upperBound)."
  },
  {
   "property": "C46",
   "status": "proved",
   "theorems": [
    "Imt.Props.C46_uniq"
   ],
   "note": "For every lawful comparison and sorted container."
  },
  {
   "property": "C47",
   "status": "proved",
   "theorems": [
    "Imt.Props.C47_comm",
    "Imt.Props.C47_merge",
    "Imt.Props.C47_intersection",
    "Imt.Props.C47_complement",
    "Imt.Props.C47_symdiff",
    "Imt.Props.C47_complement_items",
    "Imt.Props.C47_intersection_items"
   ],
   "note": "Exact multiplicities for every lawful comparison; conflict functions must stay in the class."
  },
  {
   "property": "C48",
   "status": "partial",
   "theorems": [
    "Imt.Props.C48_split_partial",
    "Imt.Props.C48_split_flatten_partial",
    "Imt.Props.C48_group_partial",
    "Imt.Props.C48_violation_empty",
    "Imt.Props.C48_violation_undefined",
    "Imt.Props.C48_ordered_group"
   ],
   "note": "Array::split/group for non-empty arrays without undefined items; Ordered::group for every container. The empty array gives one empty group and undefined items are lost (C48_violation_*)."
  },
  {
   "property": "C49",
   "status": "proved",
   "theorems": [
    "Imt.Props.C49_removes_exactly_comments",
    "Imt.Props.C49_every_text",
    "Imt.Props.C49_violation_slash_quote",
    "Imt.Props.C49_json_unchanged",
    "Imt.Props.C49_parses_like_uncommented"
   ],
   "note": "For every text in which a quote does not directly follow a slash outside of strings and comments (no JSON text has it; C49_violation_slash_quote shows the exception is needed); C49_every_text states what happens to all texts."
  },
  {
   "property": "C50",
   "status": "proved",
   "theorems": [
    "Imt.Props.C50_round_trip",
    "Imt.Props.C50_end"
   ],
   "note": "Every well-formed UTF-8 text without characters below 32, of any length including dictionary replacement: new compressor, new decompressor. The end of the text is found exactly."
  },
  {
   "property": "C51",
   "status": "partial",
   "theorems": [
    "Imt.Props.C51_symbol_partial",
    "Imt.Props.C51_safe_partial",
    "Imt.Props.C51_violation_first",
    "Imt.Props.C51_violation_optimize"
   ],
   "note": "Violated: a code equal to the next code without a previous code (first code, after an optimisation or flush code) accesses the dictionary at an invalid index. Proved: this is the exact condition; otherwise any byte sequence is safe and the recursion is finite."
  },
  {
   "property": "C52",
   "status": "proved",
   "theorems": [
    "Imt.Props.C52_find_sound",
    "Imt.Props.C52_unknown_name",
    "Imt.Props.C52_name_to_value",
    "Imt.Props.C52_unknown_name_exception",
    "Imt.Props.C52_value_to_name"
   ],
   "note": "Lookups in both directions, unknown names give null/exception, for tables without repeated names/values."
  },
  {
   "property": "C53",
   "status": "proved",
   "theorems": [
    "Imt.Props.C53_format_partial",
    "Imt.Props.C53_date",
    "Imt.Props.C53_time",
    "Imt.Props.C53_timez",
    "Imt.Props.C53_datetime",
    "Imt.Props.C53_violation_offset",
    "Imt.Props.C53_violation_minutes",
    "Imt.Props.C53_violation_fields"
   ],
   "note": "date, time, timez and datetime are exact. Also proved for every format without the letter o and with fields of at most nine digits (C53_format_partial); violated for other formats: minutes of an offset are computed from its hours."
  },
  {
   "property": "C54",
   "status": "partial",
   "theorems": [
    "Imt.Props.C54_accept",
    "Imt.Props.C54_accept_neg",
    "Imt.Props.C54_exact_partial",
    "Imt.Props.C54_empty",
    "Imt.Props.C54_violation_range",
    "Imt.Props.C54_violation_single"
   ],
   "note": "Violated: a set that ends in a range accepts its two last characters as single ones ([a-z] accepts the minus sign), sets of one character. Proved: exact language accepted by every description of at least two characters, and the conditions under which it is the documented one."
  },
  {
   "property": "C55",
   "status": "partial",
   "theorems": [
    "Imt.Props.C55_exact_partial",
    "Imt.Props.C55_plain",
    "Imt.Props.C55_violation_empty",
    "Imt.Props.C55_violation_key",
    "Imt.Props.C55_violation_order"
   ],
   "note": "Violated: the rule % is applied to undefined when the subject ends before it; a member with the empty key meets % unchecked; keys that change their place when a percent sign is removed. Proved: the exact condition for acceptance, and the documented meaning for templates without keys made of percent signs."
  },
  {
   "property": "C56",
   "status": "partial",
   "theorems": [
    "Imt.Props.C56_accepted",
    "Imt.Props.C56_kept",
    "Imt.Props.C56_reported_partial",
    "Imt.Props.C56_violation_literal",
    "Imt.Props.C56_violation_second",
    "Imt.Props.C56_violation_first",
    "Imt.Props.C56_violation_version"
   ],
   "note": "Violated: literal rules, a second validation failing for the same rule, and an inverted rule inside a list reject without any report. Proved: accepted subjects leave none, earlier reports are kept, the exact condition of a report."
  },
  {
   "property": "C57",
   "status": "partial",
   "theorems": [
    "Imt.Props.C57_scoped_partial",
    "Imt.Props.C57_rule_partial",
    "Imt.Props.C57_visible",
    "Imt.Props.C57_violation_throw"
   ],
   "note": "Violated: an exception (unknown class) leaves the variables of setvar behind. Proved: every validation that returns restores the variables; visibility inside setvar."
  },
  {
   "property": "C58",
   "status": "partial",
   "theorems": [
    "Imt.Props.C58_once_partial",
    "Imt.Props.C58_violation_reenter",
    "Imt.Props.C58_violation_throw",
    "Imt.Props.C58_violation_callbacks"
   ],
   "note": "For every sequence of operations, also with callbacks that use the request again or throw on errors and notifications; violations: callback answering again or throwing while given a result, and requests created with Callbacks (no guard)."
  },
  {
   "property": "C59",
   "status": "partial",
   "theorems": [
    "Imt.Props.C59_contained",
    "Imt.Props.C59_answered_partial",
    "Imt.Props.C59_ends",
    "Imt.Props.C59_violation_callbacks"
   ],
   "note": "Exactly one response with an id and none without, for all behaviours of method, proxy and exception handler; violation: notifications executed with Callbacks are answered."
  },
  {
   "property": "C60",
   "status": "partial",
   "theorems": [
    "Imt.Props.C60_once_partial",
    "Imt.Props.C60_response",
    "Imt.Props.C60_cancelAll",
    "Imt.Props.C60_violation_wrap",
    "Imt.Props.C60_violation_throw"
   ],
   "note": "Every sequence of operations with fewer than 2^32 identifiers and no synchronous call whose sending throws; violations: wrapped identifier (new call completed at once), dangling entry after a throwing synchronous send."
  },
  {
   "property": "C61",
   "status": "proved",
   "theorems": [
    "Imt.Props.C61_sent",
    "Imt.Props.C61_update_any",
    "Imt.Props.C61_update",
    "Imt.Props.C61_array"
   ],
   "note": "Objects with strictly sorted keys; change without undefined members."
  },
  {
   "property": "C62",
   "status": "proved",
   "theorems": [
    "Imt.Props.C62_verified",
    "Imt.Props.C62_verified_forced",
    "Imt.Props.C62_total",
    "Imt.Props.C62_hs"
   ],
   "note": "For every token text and every cryptography (a parameter); also total (never throws) and for JWTCrypto_HS only the whole HMAC under a listed algorithm."
  },
  {
   "property": "C63",
   "status": "partial",
   "theorems": [
    "Imt.Props.C63_round_trip_partial",
    "Imt.Props.C63_hs_partial",
    "Imt.Props.C63_violation_astral",
    "Imt.Props.C63_violation_infinity",
    "Imt.Props.C63_violation_min",
    "Imt.Props.C63_es_partial",
    "Imt.Props.C63_rs_partial"
   ],
   "note": "For payloads, algorithm and key names in the scope of the text round trip C02; instances for JWTCrypto_HS, JWTCrypto_ES (ES256, ES384) and JWTCrypto_RS with the cryptographic functions as parameters. Refuted outside: characters above U+FFFF in a claim are changed (C63_violation_astral), the text of infinity becomes a number (C63_violation_infinity), the most negative integer is undefined behaviour (C63_violation_min)."
  },
  {
   "property": "C64",
   "status": "partial",
   "theorems": [
    "Imt.Props.C64_window_partial",
    "Imt.Props.C64_violation_negative_exp",
    "Imt.Props.C64_violation_negative_nbf",
    "Imt.Props.C64_numbers_partial",
    "Imt.Props.C64_violation_range"
   ],
   "note": "Proved for every kind of number from 0 up to 2^64 and times since 1970. Refuted: negative exp (accepted) and negative nbf (refused); infinite bounds and doubles from 2^64 on or at most -1 are undefined behaviour."
  },
  {
   "property": "C65",
   "status": "partial",
   "theorems": [
    "Imt.Props.C65_sound",
    "Imt.Props.C65_recent",
    "Imt.Props.C65_violation_stale"
   ],
   "note": "Soundness, size bound and retention of recently stored tokens proved for all histories; violation: storing a token again does not replace its content."
  },
  {
   "property": "C66",
   "status": "proved",
   "theorems": [
    "Imt.Props.C66_leftmost",
    "Imt.Props.C66_unique",
    "Imt.Props.C66_join_split",
    "Imt.Props.C66_limit",
    "Imt.Props.C66_no_separator"
   ],
   "note": "Non-empty separator; splitting at the leftmost occurrences, join of the pieces gives the string, limit respected."
  },
  {
   "property": "C67",
   "status": "partial",
   "theorems": [
    "Imt.Props.C67_object",
    "Imt.Props.C67_scalars",
    "Imt.Props.C67_mismatch",
    "Imt.Props.C67_edits",
    "Imt.Props.C67_violation_diff_array"
   ],
   "note": "Objects (all keys), arrays with and without edits, strings, booleans, type mismatch proved (C67_edits gives the result of the edits pair by pair); C67_violation_diff_array: merging an array with edit instructions may throw out_of_range."
  },
  {
   "property": "C68",
   "status": "partial",
   "theorems": [
    "Imt.Props.C68_string",
    "Imt.Props.C68_terminates_iff",
    "Imt.Props.C68_same_partial",
    "Imt.Props.C68_records_partial",
    "Imt.Props.C68_violation_endless"
   ],
   "note": "diff of arrays terminates iff the main loop consumes both arrays (C68_terminates_iff); diff of an array with itself is empty; violation: endless whenever one array continues the other."
  },
  {
   "property": "C69",
   "status": "partial",
   "theorems": [
    "Imt.Props.C69_base64url_total",
    "Imt.Props.C69_base64_total",
    "Imt.Props.C69_url_total_partial",
    "Imt.Props.C69_violation_url",
    "Imt.Props.C69_violation_utf8",
    "Imt.Props.C69_utf8_total_partial"
   ],
   "note": "Proved for base64 and base64url on all texts, urlencoding on ASCII texts, utf8encoding on well-formed texts. Violated: urlencoding passes negative chars to isdigit; utf8encoding aborts on malformed text such as 80 C3."
  },
  {
   "property": "C70",
   "status": "partial",
   "theorems": [
    "Imt.Props.C70_safe_partial",
    "Imt.Props.C70_violation_array",
    "Imt.Props.C70_violation_string",
    "Imt.Props.C70_violation_negint"
   ],
   "note": "Proved for streams without 64-bit length tags; three violations with concrete streams."
  },
  {
   "property": "C71",
   "status": "partial",
   "theorems": [
    "Imt.Props.C71_sorted_partial",
    "Imt.Props.C71_violation_unsorted"
   ],
   "note": "Proved for streams written by the serializer; violation for a hand-made stream."
  },
  {
   "property": "C72",
   "status": "partial",
   "theorems": [
    "Imt.Props.C72_defined_partial",
    "Imt.Props.C72_violation"
   ],
   "note": "Proved for ASCII text; violation theorem: nextWs cuts characters to char, so any byte 0x80..0xFE outside strings makes a negative argument, whatever the source."
  },
  {
   "property": "C73",
   "status": "proved",
   "theorems": [
    "Imt.Props.C73_sound",
    "Imt.Props.C73_rejects_other"
   ],
   "note": "The lenient grammar is in Spec/Lenient.lean; the value of a string is not part of this statement (see C05)."
  },
  {
   "property": "C74",
   "status": "proved",
   "theorems": [
    "Imt.Props.C74_decode"
   ],
   "note": ""
  },
  {
   "property": "C75",
   "status": "partial",
   "theorems": [
    "Imt.Props.C75_bounds_partial",
    "Imt.Props.C75_violation"
   ],
   "note": "Holds for arrays that own their items; violated by every window made by splitAt (C75_violation)."
  },
  {
   "property": "C76",
   "status": "partial",
   "theorems": [
    "Imt.Props.C76_findIndex",
    "Imt.Props.C76_find",
    "Imt.Props.C76_reduce",
    "Imt.Props.C76_reverse_partial",
    "Imt.Props.C76_map",
    "Imt.Props.C76_filter",
    "Imt.Props.C76_violation_reverse"
   ],
   "note": "findIndex/rfindIndex/filter/map as stated (map and filter drop undefined results); reverse without undefined items, which it drops (C76_violation_reverse)."
  },
  {
   "property": "C77",
   "status": "proved",
   "theorems": [
    "Imt.Props.C77_sort"
   ],
   "note": "std::stable_sort itself is described by its specification (insertion)."
  },
  {
   "property": "C78",
   "status": "proved",
   "theorems": [
    "Imt.Props.C78_merge_complete",
    "Imt.Props.C78_merge_pairs"
   ],
   "note": ""
  },
  {
   "property": "C79",
   "status": "proved",
   "theorems": [
    "Imt.Props.C79_writes_inside",
    "Imt.Props.C79_copy_equal"
   ],
   "note": "Sizes of the objects are parameters; contents of the objects are represented by zeros."
  },
  {
   "property": "C80",
   "status": "partial",
   "theorems": [
    "Imt.Props.C80_zero_iff_equal_partial",
    "Imt.Props.C80_violation"
   ],
   "note": "Under the same conditions as C43/C44; violations for undefined, NaN and large unsigned numbers."
  },
  {
   "property": "C81",
   "status": "partial",
   "theorems": [
    "Imt.Props.C81_violation",
    "Imt.Props.C81_violation_witness",
    "Imt.Props.C81_empty_partial"
   ],
   "note": "Violated: the result never contains any name but for the empty enumeration (C81_empty_partial), see C81_violation."
  },
  {
   "property": "C82",
   "status": "partial",
   "theorems": [
    "Imt.Props.C82_insert",
    "Imt.Props.C82_replace_partial",
    "Imt.Props.C82_violation_overflow",
    "Imt.Props.C82_concat",
    "Imt.Props.C82_char",
    "Imt.Props.C82_left_right"
   ],
   "note": "insert, concatenation, left/right proved; replace proved where position+size does not overflow; with size npos the end of the string is duplicated (C82_violation_overflow)."
  },
  {
   "property": "C83",
   "status": "partial",
   "theorems": [
    "Imt.Props.C83_object_partial",
    "Imt.Props.C83_violation_array",
    "Imt.Props.C83_violation_string"
   ],
   "note": "Proved for objects at all depths with exact equality; violations for arrays with repeated items and for strings."
  },
  {
   "property": "C84",
   "status": "partial",
   "theorems": [
    "Imt.Props.C84_defined_partial",
    "Imt.Props.C84_violation_short"
   ],
   "note": "Defined for tokens of ten and more characters; violation for every shorter token."
  },
  {
   "property": "C85",
   "status": "partial",
   "theorems": [
    "Imt.Props.C85_order",
    "Imt.Props.C85_strict_weak",
    "Imt.Props.C85_select_partial",
    "Imt.Props.C85_violation_alg",
    "Imt.Props.C85_violation_null"
   ],
   "note": "Item of the key id is used; violations: algorithm is ignored when several items share a key id, null pointers are dereferenced."
  },
  {
   "property": "C86",
   "status": "partial",
   "theorems": [
    "Imt.Props.C86_understood_partial",
    "Imt.Props.C86_violation_undefined",
    "Imt.Props.C86_violation_null_error"
   ],
   "note": "Defined results and non-null errors, both protocol versions; violations: undefined result (never completes / error), null error in version 1 (success)."
  },
  {
   "property": "C87",
   "status": "partial",
   "theorems": [
    "Imt.Props.C87_multicall_partial",
    "Imt.Props.C87_violation_undefined",
    "Imt.Props.C87_violation_twice"
   ],
   "note": "Methods answering at most once, at once or later, with defined values; violations: a method answering twice leads to use after free; an undefined result is left out and shifts the results of later calls."
  },
  {
   "property": "C88",
   "status": "partial",
   "theorems": [
    "Imt.Props.C88_violation_context"
   ],
   "note": "The statement is false: the collected change is never sent (C88_violation_context)."
  },
  {
   "property": "C89",
   "status": "partial",
   "theorems": [
    "Imt.Props.C89_violation_copy",
    "Imt.Props.C89_original_partial"
   ],
   "note": "Holds for clients that are not copies; the copy constructor leaves the version uninitialised (violation)."
  },
  {
   "property": "C90",
   "status": "proved",
   "theorems": [
    "Imt.Props.C90_bounded"
   ],
   "note": ""
  },
  {
   "property": "C91",
   "status": "partial",
   "theorems": [
    "Imt.Props.C91_violation_malformed",
    "Imt.Props.C91_reject"
   ],
   "note": "Violated: malformed sequences after a lead byte are accepted and decompress to other bytes. Proved: which bytes are rejected at the beginning of a character; round trip for well-formed texts is C50."
  },
  {
   "property": "C92",
   "status": "partial",
   "theorems": [
    "Imt.Props.C92_violation_texts",
    "Imt.Props.C92_violation_reuse",
    "Imt.Props.C92_flush_partial"
   ],
   "note": "Violated: the dictionary under construction is not cleared by reset(); shown for two genuine texts, the second long enough to fill the dictionary: it is never read back. Proved: what the state is after the flush code."
  },
  {
   "property": "C93",
   "status": "partial",
   "theorems": [
    "Imt.Props.C93_classes",
    "Imt.Props.C93_base64",
    "Imt.Props.C93_base64url",
    "Imt.Props.C93_identifier",
    "Imt.Props.C93_violation_empty"
   ],
   "note": "Violated: the empty string is an identifier. Proved: exact language of every class."
  },
  {
   "property": "C94",
   "status": "partial",
   "theorems": [
    "Imt.Props.C94_deterministic",
    "Imt.Props.C94_terminates_partial",
    "Imt.Props.C94_violation_self"
   ],
   "note": "Violated: a class that names itself never ends. Proved: termination when references are well founded, outcome independent of the recursion bound."
  },
  {
   "property": "C95",
   "status": "proved",
   "theorems": [
    "Imt.Props.C95_alternatives",
    "Imt.Props.C95_not",
    "Imt.Props.C95_array",
    "Imt.Props.C95_rule_named",
    "Imt.Props.C95_rule_list",
    "Imt.Props.C95_rule_tuple",
    "Imt.Props.C95_rule_choice"
   ],
   "note": "The evaluation of members is a parameter whose outcome depends on the variables only."
  },
  {
   "property": "C96",
   "status": "partial",
   "theorems": [
    "Imt.Props.C96_range_partial",
    "Imt.Props.C96_integers",
    "Imt.Props.C96_others",
    "Imt.Props.C96_texts",
    "Imt.Props.C96_booleans",
    "Imt.Props.C96_type",
    "Imt.Props.C96_violation_rounding",
    "Imt.Props.C96_violation_nan",
    "Imt.Props.C96_no_operand"
   ],
   "note": "Proved exactly for signed integers among themselves and unsigned ones among themselves, of any size (C96_integers), for texts (C96_texts), for operands of other types (C96_type) and for mixed kinds when integers are exact as doubles and in the signed range and there is no NaN. Violated: a signed and an unsigned integer above 2^53 are compared as doubles; NaN passes <= and >=."
  },
  {
   "property": "C97",
   "status": "partial",
   "theorems": [
    "Imt.Props.C97_types",
    "Imt.Props.C97_content",
    "Imt.Props.C97_texts",
    "Imt.Props.C97_dates",
    "Imt.Props.C97_literal_partial",
    "Imt.Props.C97_violation_literal",
    "Imt.Props.C97_class",
    "Imt.Props.C97_violation_camelcase",
    "Imt.Props.C97_violation_types"
   ],
   "note": "Proved for all type, content, text and date names, for literals on strings and for classes. Refuted: the literal of the empty string accepts every value that is not a string (C97_violation_literal), the documented name camelcase is unknown (C97_violation_camelcase), unsigned accepts fractions and text classes accept constants (C97_violation_types)."
  },
  {
   "property": "C98",
   "status": "partial",
   "theorems": [
    "Imt.Props.C98_size",
    "Imt.Props.C98_convert",
    "Imt.Props.C98_violation_tonumber",
    "Imt.Props.C98_prefix",
    "Imt.Props.C98_suffix",
    "Imt.Props.C98_parts",
    "Imt.Props.C98_parts_end",
    "Imt.Props.C98_split",
    "Imt.Props.C98_violation_split",
    "Imt.Props.C98_explode",
    "Imt.Props.C98_datetime",
    "Imt.Props.C98_all",
    "Imt.Props.C98_literal",
    "Imt.Props.C98_empty"
   ],
   "note": "Proved for all listed rules, relative to the decision of the inner rules. Refuted: tonumber takes what cannot be converted as zero instead of rejecting it (C98_violation_tonumber); split takes positions from 2^31 on as negative ones (C98_violation_split, which is exact for every position)."
  },
  {
   "property": "C99",
   "status": "partial",
   "theorems": [
    "Imt.Props.C99_lookup",
    "Imt.Props.C99_setVariables",
    "Imt.Props.C99_reference",
    "Imt.Props.C99_nested",
    "Imt.Props.C99_use",
    "Imt.Props.C99_compare",
    "Imt.Props.C99_emit",
    "Imt.Props.C99_substitute",
    "Imt.Props.C99_violation_emit",
    "Imt.Props.C99_violation_rejected"
   ],
   "note": "References, use, comparison, emit and substitution proved; undefined items of a substituted array vanish (the array builder drops them). Refuted: values emitted by alternatives that failed later, or by a failed validation, stay (C99_violation_emit, C99_violation_rejected)."
  },
  {
   "property": "C100",
   "status": "proved",
   "theorems": [
    "Imt.Props.C100_answers",
    "Imt.Props.C100_getters",
    "Imt.Props.C100_total",
    "Imt.Props.C100_integers",
    "Imt.Props.C100_own_type",
    "Imt.Props.C100_violation_wraps",
    "Imt.Props.C100_double",
    "Imt.Props.C100_violation_undefined",
    "Imt.Props.C100_violation_from_text",
    "Imt.Props.C100_numeral_strings",
    "Imt.Props.C100_violation_other_types"
   ],
   "note": "Every case is decided; the documentation is contradicted where a number does not fit (wrap modulo 2^64, undefined behaviour for floating point numbers) and for booleans and strings, see the violation theorems."
  },
  {
   "property": "C101",
   "status": "partial",
   "theorems": [
    "Imt.Props.C101_exact",
    "Imt.Props.C101_constructors_partial",
    "Imt.Props.C101_violation_empty",
    "Imt.Props.C101_violation_equal_arrays",
    "Imt.Props.C101_violation_uninitialised"
   ],
   "note": "Proved for the constructors of scalars, strings and lists and for precise integers; C101_exact tells all exceptions. Refuted: empty arrays, objects and binary strings that are not the shared empty value are true; a precise floating point number reads an uninitialised member."
  },
  {
   "property": "C102",
   "status": "partial",
   "theorems": [
    "Imt.Props.C102_type_decides",
    "Imt.Props.C102_narrow_partial",
    "Imt.Props.C102_violation_narrow"
   ],
   "note": "Proved for 64-bit, boolean and string overloads and for 32-bit overloads when the number fits. Refuted: 32-bit overloads reduce the number modulo 2^32. The overload with const char* is the subject of C131."
  },
  {
   "property": "C103",
   "status": "partial",
   "theorems": [
    "Imt.Props.C103_exact",
    "Imt.Props.C103_accepts_partial",
    "Imt.Props.C103_sound_partial",
    "Imt.Props.C103_violation_reads_behind",
    "Imt.Props.C103_violation_out_of_bounds",
    "Imt.Props.C103_violation_accepts_non_json"
   ],
   "note": "Acceptance is characterised exactly; JSON numbers are accepted exactly when the character behind the view stops a number. Refuted: a character behind the view is read (undefined at the end of memory) and may become part of the number; +1, 1. and 007 are accepted."
  },
  {
   "property": "C104",
   "status": "proved",
   "theorems": [
    "Imt.Props.C104_fnv1a",
    "Imt.Props.C104_suffix",
    "Imt.Props.C104_one_byte",
    "Imt.Props.C104_prefix"
   ],
   "note": ""
  },
  {
   "property": "C105",
   "status": "partial",
   "theorems": [
    "Imt.Props.C105_token",
    "Imt.Props.C105_infinity",
    "Imt.Props.C105_violation_nan"
   ],
   "note": "Proved for all finite doubles without assumptions about the C library. Refuted for NaN, which is printed as infinity."
  },
  {
   "property": "C106",
   "status": "partial",
   "theorems": [
    "Imt.Props.C106_violation_anywhere",
    "Imt.Props.C106_defined_partial",
    "Imt.Props.C106_violation_subnormal"
   ],
   "note": "Proved for zero and normal doubles, with accuracy assumptions about pow and log10 that a correctly rounded library meets. Refuted below 10^-308: pow(0.1, -309) is infinite and converted to an integer."
  },
  {
   "property": "C107",
   "status": "partial",
   "theorems": [
    "Imt.Props.C107_fixed",
    "Imt.Props.C107_scientific",
    "Imt.Props.C107_violation_lossy"
   ],
   "note": "Both error bounds are proved, with the accuracy assumptions about pow and log10. Refuted: neighbouring doubles share a text even at the highest precision."
  },
  {
   "property": "C108",
   "status": "proved",
   "theorems": [
    "Imt.Props.C108_nearest",
    "Imt.Props.C108_fifteen_digits"
   ],
   "note": "pow and log10 are assumed accurate to 2^-40, which a correctly rounded library meets."
  },
  {
   "property": "C109",
   "status": "partial",
   "theorems": [
    "Imt.Props.C109_no_nan_partial",
    "Imt.Props.C109_finite_partial",
    "Imt.Props.C109_violation_zero",
    "Imt.Props.C109_violation_fraction",
    "Imt.Props.C109_violation_overflow"
   ],
   "note": "Proved up to 307 decimals and exponents -307..307, with accuracy assumptions about pow. Refuted beyond: 0e309 and a fraction of 309 nines become NaN, 0.001e310 becomes infinite."
  },
  {
   "property": "C110",
   "status": "partial",
   "theorems": [
    "Imt.Props.C110_accuracy_partial",
    "Imt.Props.C110_violation_fraction",
    "Imt.Props.C110_relative"
   ],
   "note": "Proved for up to 307 decimals, exponents -307..307 and integer parts below 2^1022; beyond these C109 fails, and long fractions are read as zero (C110_violation_fraction)."
  },
  {
   "property": "C111",
   "status": "partial",
   "theorems": [
    "Imt.Props.C111_integer",
    "Imt.Props.C111_nearest",
    "Imt.Props.C111_fraction",
    "Imt.Props.C111_scaled",
    "Imt.Props.C111_violation_sum",
    "Imt.Props.C111_violation_negative"
   ],
   "note": "Proved for 64-bit integers, fractions below one and integers scaled up to 10^22. Refuted in general by 1.14 and 3e-1."
  },
  {
   "property": "C112",
   "status": "proved",
   "theorems": [
    "Imt.Props.C112_number",
    "Imt.Props.C112_text",
    "Imt.Props.C112_stable"
   ],
   "note": "pow and log10 are assumed accurate as in C108, and 10^n exact up to 22."
  },
  {
   "property": "C113",
   "status": "partial",
   "theorems": [
    "Imt.Props.C113_object",
    "Imt.Props.C113_array",
    "Imt.Props.C113_others",
    "Imt.Props.C113_violation_commit",
    "Imt.Props.C113_commit_array",
    "Imt.Props.C113_violation_reverse_clear"
   ],
   "note": "Proved for editors left at the end of their block, without reverse() on a non-empty array and without editing an object as an array. Refuted for commit() followed by more edits (the committed ones are lost) and for reverse() followed by clear() (the old array stays)."
  },
  {
   "property": "C114",
   "status": "proved",
   "theorems": [
    "Imt.Props.C114_object",
    "Imt.Props.C114_array",
    "Imt.Props.C114_array_made",
    "Imt.Props.C114_missing_item"
   ],
   "note": "References to plain variables (a C++ reference and a copy) are not modelled."
  },
  {
   "property": "C115",
   "status": "partial",
   "theorems": [
    "Imt.Props.C115_store_partial",
    "Imt.Props.C115_violation_es512",
    "Imt.Props.C115_violation_es512_usual",
    "Imt.Props.C115_violation_es512_cut",
    "Imt.Props.C115_checked",
    "Imt.Props.C115_signs"
   ],
   "note": "Proved for numbers that fit the length (always so for ES256 and ES384). Violated for ES512: the length is 64 bytes, the numbers of P-521 have up to 66; the pointer leaves the buffer for all but one of 511 numbers."
  },
  {
   "property": "C116",
   "status": "partial",
   "theorems": [
    "Imt.Props.C116_accepts",
    "Imt.Props.C116_unique_partial",
    "Imt.Props.C116_violation_length"
   ],
   "note": "Acceptance is characterised exactly; uniqueness holds among signatures of one length. Violated: the length is not checked, zeros in front of both halves are accepted."
  },
  {
   "property": "C117",
   "status": "partial",
   "theorems": [
    "Imt.Props.C117_signature_partial",
    "Imt.Props.C117_violation_failure",
    "Imt.Props.C117_violation_long",
    "Imt.Props.C117_accepts"
   ],
   "note": "Proved when RSA_sign succeeds within 1024 bytes. Violated: its result is ignored, a failure returns 1024 bytes of uninitialised stack; keys above 8192 bits overrun the buffer."
  },
  {
   "property": "C118",
   "status": "partial",
   "theorems": [
    "Imt.Props.C118_registry",
    "Imt.Props.C118_names",
    "Imt.Props.C118_invalid",
    "Imt.Props.C118_not_object",
    "Imt.Props.C118_unknown",
    "Imt.Props.C118_called",
    "Imt.Props.C118_proxy",
    "Imt.Props.C118_answered_partial",
    "Imt.Props.C118_params",
    "Imt.Props.C118_handler",
    "Imt.Props.C118_beat_terminates"
   ],
   "note": "The count of responses is proved for callbacks that do not use the request while they take a result (see C58); dispatch, errors and the directory are proved without that restriction."
  },
  {
   "property": "C119",
   "status": "partial",
   "theorems": [
    "Imt.Props.C119_call_partial",
    "Imt.Props.C119_unknown_method",
    "Imt.Props.C119_violation_undefined"
   ],
   "note": "Proved for defined results and for defined errors other than null. Violated by an undefined result in version 2: the call stays pending."
  },
  {
   "property": "C120",
   "status": "proved",
   "theorems": [
    "Imt.Props.C120_args"
   ],
   "note": "The evaluation of single rules enters as in C95: it ends with a verdict that does not depend on rejections. Definitions with fewer than 2^32 rules."
  },
  {
   "property": "C121",
   "status": "partial",
   "theorems": [
    "Imt.Props.C121_session_partial",
    "Imt.Props.C121_preloaded_partial",
    "Imt.Props.C121_short",
    "Imt.Props.C121_duplicate",
    "Imt.Props.C121_violation_values"
   ],
   "note": "Holds for the values of C18's round trip and fewer than 2^32-256 keys. The need for distinct keys (documented) is shown by a theorem: with a duplicate preloaded on both sides another member is read, silently. Refuted for the values C18 fails for (C121_violation_values)."
  },
  {
   "property": "C122",
   "status": "partial",
   "theorems": [
    "Imt.Props.C122_careful_partial",
    "Imt.Props.C122_violation_released",
    "Imt.Props.C122_lookups"
   ],
   "note": "Refuted: keys are kept as views into the value they were first met in, so a value released after it was serialised is read when a later value has the same key. Proved when values are released only after clearKeys."
  },
  {
   "property": "C123",
   "status": "partial",
   "theorems": [
    "Imt.Props.C123_violation_long",
    "Imt.Props.C123_compressor_partial",
    "Imt.Props.C123_trip_partial",
    "Imt.Props.C123_violation_character",
    "Imt.Props.C123_leftover",
    "Imt.Props.C123_violation_decompressor",
    "Imt.Props.C123_violation_lost"
   ],
   "note": "Refuted: utf8len, the optimizer's dictionary and the characters ready for output survive a reset; between whole texts, a text long enough to fill the dictionary is written so that it is not read back. Proved for the compressor when it is reset between characters and the text after the reset is too short to fill the dictionary."
  },
  {
   "property": "C124",
   "status": "partial",
   "theorems": [
    "Imt.Props.C124_recognised",
    "Imt.Props.C124_read_partial",
    "Imt.Props.C124_violation_context",
    "Imt.Props.C124_served",
    "Imt.Props.C124_silent",
    "Imt.Props.C124_received_partial",
    "Imt.Props.C124_nameless"
   ],
   "note": "Refuted for the context: it is written to the message but RpcNotify does not read it. Everything else holds for all notifications."
  },
  {
   "property": "C125",
   "status": "partial",
   "theorems": [
    "Imt.Props.C125_allowed_partial",
    "Imt.Props.C125_none",
    "Imt.Props.C125_violation_reenter",
    "Imt.Props.C125_violation_enabled"
   ],
   "note": "Proved for callbacks that do not use the request again. Refuted otherwise, and the documented promise that disabled notifications stay disabled is refuted."
  },
  {
   "property": "C126",
   "status": "partial",
   "theorems": [
    "Imt.Props.C126_separated_partial",
    "Imt.Props.C126_adjacent_partial",
    "Imt.Props.C126_one_parser_partial",
    "Imt.Props.C126_written_partial",
    "Imt.Props.C126_violation_number"
   ],
   "note": "Proved for texts separated by white space (C126_separated_partial), for values written by toStream with a separator (C126_written_partial, restrictions of C01/C02), for texts other than numbers without separators and anything behind them (C126_adjacent_partial), and for one Parser used for the whole stream (C126_one_parser_partial). Refuted otherwise: a number takes one character more from the stream, so `1[2,3]` is read as 1 and 2 without an error (C126_violation_number)."
  },
  {
   "property": "C127",
   "status": "proved",
   "theorems": [
    "Imt.Props.C127_refines",
    "Imt.Props.C127_stream",
    "Imt.Props.C127_own",
    "Imt.Props.C127_one_parser"
   ],
   "note": "C127_refines (all texts), C127_stream (the rest Value::fromStream leaves), C127_own (self-delimiting texts, source not asked behind them), C127_one_parser (several values)."
  },
  {
   "property": "C128",
   "status": "partial",
   "theorems": [
    "Imt.Props.C128_ascii",
    "Imt.Props.C128_toString",
    "Imt.Props.C128_as_is",
    "Imt.Props.C128_utf8_exact",
    "Imt.Props.C128_utf8_partial",
    "Imt.Props.C128_utf8_short_partial",
    "Imt.Props.C128_violation_utf8",
    "Imt.Props.C128_direct_partial",
    "Imt.Props.C128_violation_direct",
    "Imt.Props.C128_violation_infinity"
   ],
   "note": "Proved in full for base64, base64url and url, and toString for all encodings. The UTF-8 encoding is characterised exactly: a byte from 128 up whose text crosses a 256-byte chunk border is lost (violation); the direct encoding holds for well-formed UTF-8 except the infinity sign (violations)."
  },
  {
   "property": "C129",
   "status": "partial",
   "theorems": [
    "Imt.Props.C129_remembers_partial",
    "Imt.Props.C129_reprint_partial",
    "Imt.Props.C129_violation_base64url",
    "Imt.Props.C129_violation_text",
    "Imt.Props.C129_lookup",
    "Imt.Props.C129_direct",
    "Imt.Props.C129_violation_keyed",
    "Imt.Props.C129_violation_wrapped"
   ],
   "note": "Proved for base64, url and UTF-8 on plain values. base64url labels everything base64 (violation for every non-empty value); Binary::getEncoding on a member of an object and printing a wrapped binary value are undefined (violations)."
  },
  {
   "property": "C130",
   "status": "partial",
   "theorems": [
    "Imt.Props.C130_created_partial",
    "Imt.Props.C130_exact",
    "Imt.Props.C130_violation_part",
    "Imt.Props.C130_violation_split",
    "Imt.Props.C130_violation_empty"
   ],
   "note": "Exact description for every object holding characters; holds for non-empty strings made from characters. Parts of strings are not terminated (violation for every part not reaching the end), the empty string gives a null pointer (violation)."
  },
  {
   "property": "C131",
   "status": "partial",
   "theorems": [
    "Imt.Props.C131_plain_partial",
    "Imt.Props.C131_default",
    "Imt.Props.C131_violation_binary",
    "Imt.Props.C131_violation_base64"
   ],
   "note": "Proved for all strings without a binary encoding. For binary strings the pointer is into an object already released, for every encoding and every contents (violation)."
  },
  {
   "property": "C132",
   "status": "partial",
   "theorems": [
    "Imt.Props.C132_filled",
    "Imt.Props.C132_aborts",
    "Imt.Props.C132_violation_unwritten",
    "Imt.Props.C132_violation_overflow"
   ],
   "note": "Proved for functions that stay inside of the block and return no more than they wrote. A function that writes behind the block has done so before the check (violation for every such function); one that returns more than it wrote gives a string of unwritten bytes (C132_violation_unwritten)."
  },
  {
   "property": "C133",
   "status": "proved",
   "theorems": [
    "Imt.Props.C133_concat"
   ],
   "note": "Given the results of toString of the values; sums of lengths are taken not to wrap."
  },
  {
   "property": "C134",
   "status": "proved",
   "theorems": [
    "Imt.Props.C134_parts"
   ],
   "note": ""
  },
  {
   "property": "C135",
   "status": "partial",
   "theorems": [
    "Imt.Props.C135_no_race_partial",
    "Imt.Props.C135_violation_parseResponse"
   ],
   "note": "Proved for all functions except parseResponse, which searches and changes the map of pending calls without the lock (violation)."
  },
  {
   "property": "C136",
   "status": "proved",
   "theorems": [
    "Imt.Props.C136_storage",
    "Imt.Props.C136_result",
    "Imt.Props.C136_notified",
    "Imt.Props.C136_no_deadlock"
   ],
   "note": "For calls whose identifier is not already pending and whose sendRequest returns (compare C60)."
  },
  {
   "property": "C137",
   "status": "partial",
   "theorems": [
    "Imt.Props.C137_ok",
    "Imt.Props.C137_err",
    "Imt.Props.C137_no_assertion",
    "Imt.Props.C137_reuse",
    "Imt.Props.C137_violation_abandoned"
   ],
   "note": "Refuted in one point: values read before an error stay in tmpArr for the life of the parser (violation). Everything else is proved."
  },
  {
   "property": "C138",
   "status": "partial",
   "theorems": [
    "Imt.Props.C138_position",
    "Imt.Props.C138_names",
    "Imt.Props.C138_exact_partial",
    "Imt.Props.C138_fresh",
    "Imt.Props.C138_violation_nested",
    "Imt.Props.C138_violation_object",
    "Imt.Props.C138_what",
    "Imt.Props.C138_text"
   ],
   "note": "Refuted: the index is counted from the length of tmpArr, which after an error still contains the items of the arrays and objects inside (violations). Proved: exact formula for what is reported, names and depth right, indexes right if nothing was read inside, text never stale."
  },
  {
   "property": "C139",
   "status": "partial",
   "theorems": [
    "Imt.Props.C139_number",
    "Imt.Props.C139_text",
    "Imt.Props.C139_no_race_partial",
    "Imt.Props.C139_warm",
    "Imt.Props.C139_violation_race",
    "Imt.Props.C139_violation_order",
    "Imt.Props.C139_violation_bool"
   ],
   "note": "Proved: under any interleaving in program order numbers come out right, texts always do, and there is no race when precise numbers have been read before sharing (a number read once is cached). Refuted: precise numbers made from text cache their value on first reading without synchronisation: race, unset number when stores are reordered, and getBool that depends on other threads."
  },
  {
   "property": "C140",
   "status": "partial",
   "theorems": [
    "Imt.Props.C140_safe_partial",
    "Imt.Props.C140_gone_partial",
    "Imt.Props.C140_answered_partial",
    "Imt.Props.C140_after_answer",
    "Imt.Props.C140_violation_kept",
    "Imt.Props.C140_violation_kept_always",
    "Imt.Props.C140_violation_server",
    "Imt.Props.C140_violation_unexecuted"
   ],
   "note": "Proved when callbacks of the error sent from the destructor keep no pointer and the server outlives the request: no use after free, destructor and release exactly once, exactly one answer. Refuted: a callback that keeps the request it gets from the destructor holds freed memory; a server destroyed first is called by the destructor; a request never executed is dropped without an answer."
  },
  {
   "property": "C141",
   "status": "partial",
   "theorems": [
    "Imt.Props.C141_equivalence",
    "Imt.Props.C141_for_partial",
    "Imt.Props.C141_back_partial",
    "Imt.Props.C141_arith_partial",
    "Imt.Props.C141_difference",
    "Imt.Props.C141_opposite",
    "Imt.Props.C141_violation_index",
    "Imt.Props.C141_violation_index_list",
    "Imt.Props.C141_violation_far",
    "Imt.Props.C141_violation_past",
    "Imt.Props.C141_walk",
    "Imt.Props.C141_addresses",
    "Imt.Props.C141_walk_all"
   ],
   "note": "walk proved in full (over addresses of the tree, with stateful functions). Loops proved up to 2^32 items, arithmetic for distances of 32 bits. Refuted: itemAtIndex truncates the index to unsigned int (container.h:102-110); moving takes an int while distances are Int; iterators past the end equal the end but not after moving back."
  },
  {
   "property": "C142",
   "status": "partial",
   "theorems": [
    "Imt.Props.C142_round",
    "Imt.Props.C142_exact_partial",
    "Imt.Props.C142_injective_partial",
    "Imt.Props.C142_size",
    "Imt.Props.C142_cross",
    "Imt.Props.C142_violation_neg0",
    "Imt.Props.C142_bool"
   ],
   "note": "Proved up to the sign of zeros, exactly without negative zeros. Refuted for negative zeros, which become the shared positive zero."
  },
  {
   "property": "C143",
   "status": "partial",
   "theorems": [
    "Imt.Props.C143_params",
    "Imt.Props.C143_list",
    "Imt.Props.C143_same",
    "Imt.Props.C143_pairs",
    "Imt.Props.C143_short",
    "Imt.Props.C143_all_partial",
    "Imt.Props.C143_refused",
    "Imt.Props.C143_refusals",
    "Imt.Props.C143_call",
    "Imt.Props.C143_results_partial",
    "Imt.Props.C143_violation_stops"
   ],
   "note": "Proved for a name with parameters and for pairs that all have a name, with results in place (defined answers). Refuted: a pair without a name ends the multicall silently; the calls after it are not made."
  },
  {
   "property": "C144",
   "status": "partial",
   "theorems": [
    "Imt.Props.C144_doubles_partial",
    "Imt.Props.C144_call_partial",
    "Imt.Props.C144_exact_partial",
    "Imt.Props.C144_violation_infinity"
   ],
   "note": "Proved for values in the scope of C01, also with zero and normal doubles (which arrive near to what they were), defined results and errors other than null; exact for plain values, otherwise nonnegative signed numbers arrive unsigned. Refuted: a method named \"∞\" cannot be called."
  },
  {
   "property": "C145",
   "status": "partial",
   "theorems": [
    "Imt.Props.C145_object",
    "Imt.Props.C145_message",
    "Imt.Props.C145_call",
    "Imt.Props.C145_text_partial",
    "Imt.Props.C145_checked",
    "Imt.Props.C145_checks",
    "Imt.Props.C145_violation_no_server",
    "Imt.Props.C145_violation_wide"
   ],
   "note": "Proved for all int codes, any message and data, also over text (values in the scope of C01). Refuted: checkArgs on a request not given to a server dereferences null; codes beyond int from other implementations are truncated."
  },
  {
   "property": "C146",
   "status": "partial",
   "theorems": [
    "Imt.Props.C146_map_object",
    "Imt.Props.C146_map_keys_partial",
    "Imt.Props.C146_stripped",
    "Imt.Props.C146_violation_keys",
    "Imt.Props.C146_map_target",
    "Imt.Props.C146_filter_object",
    "Imt.Props.C146_range",
    "Imt.Props.C146_reduce",
    "Imt.Props.C146_sort"
   ],
   "note": "map on objects is proved for every function (results are filed under their own key if they carry one), with the documented 'same keys' proved for functions whose results carry no foreign key; refuted in general by C146_violation_keys: a function returning a member of its item, x[\"p\"], files every result under \"p\". filter, reduce, map to arrays, ranges and sort are proved."
  },
  {
   "property": "C147",
   "status": "partial",
   "theorems": [
    "Imt.Props.C147_one_key",
    "Imt.Props.C147_bind",
    "Imt.Props.C147_set",
    "Imt.Props.C147_copies",
    "Imt.Props.C147_packed",
    "Imt.Props.C147_cast",
    "Imt.Props.C147_cast_plain",
    "Imt.Props.C147_violation_key_object",
    "Imt.Props.C147_memory"
   ],
   "note": "Everything except the key object is proved. getKeyObject is refuted: no function of the library makes an ObjectProxyString, so it returns undefined for every value (C147_violation_key_object)."
  },
  {
   "property": "C148",
   "status": "partial",
   "theorems": [
    "Imt.Props.C148_ping",
    "Imt.Props.C148_help_partial",
    "Imt.Props.C148_violation_help",
    "Imt.Props.C148_list",
    "Imt.Props.C148_list_proxy",
    "Imt.Props.C148_violation_beat",
    "Imt.Props.C148_violation_twice"
   ],
   "note": "ping and the list without a proxy are proved; help for topics with an entry; the list with a proxy that answers, fails or declines. Refuted: an unknown topic is answered by a message without result, so that a version 2 call never completes (version 1: error null); a heart beat of the proxy completes the list without the proxied names; names known to both servers are listed twice."
  },
  {
   "property": "C149",
   "status": "proved",
   "theorems": [
    "Imt.Props.C149_filter"
   ],
   "note": ""
  },
  {
   "property": "C150",
   "status": "partial",
   "theorems": [
    "Imt.Props.C150_url",
    "Imt.Props.C150_base64",
    "Imt.Props.C150_canonical_partial",
    "Imt.Props.C150_violation_bits",
    "Imt.Props.C150_violation_characters",
    "Imt.Props.C150_violation_length"
   ],
   "note": "The result of decoding is given exactly for every text (C150_url, C150_base64: a character outside the alphabet reads as eight ones). Re-encoding gives the text again for texts of whole groups of alphabet characters; refuted otherwise: unused bits are ignored, wrong characters become data, wrong lengths give an empty or shortened string."
  },
  {
   "property": "C151",
   "status": "partial",
   "theorems": [
    "Imt.Props.C151_unfold",
    "Imt.Props.C151_members",
    "Imt.Props.C151_untouched",
    "Imt.Props.C151_written",
    "Imt.Props.C151_removed",
    "Imt.Props.C151_self",
    "Imt.Props.C151_idempotent",
    "Imt.Props.C151_applyDiff",
    "Imt.Props.C151_violation_assoc",
    "Imt.Props.C151_violation_undefined"
   ],
   "note": "Path-wise behaviour, order of keys, self merge and idempotence (without removals) proved for all trees; refuted: associativity, and removals below a key missing in the base leave an undefined member in the result."
  },
  {
   "property": "C152",
   "status": "partial",
   "theorems": [
    "Imt.Props.C152_line_partial",
    "Imt.Props.C152_utf8_partial",
    "Imt.Props.C152_violation_malformed",
    "Imt.Props.C152_violation_long",
    "Imt.Props.C152_clean_partial"
   ],
   "note": "No control characters for arbitrary bytes in strings below 4 GiB, and for well-formed strings of any length; well-formed output for well-formed strings. Refuted: a malformed string of 2^32 bytes writes a raw line feed; surrogates in a string are written as they are."
  },
  {
   "property": "C153",
   "status": "partial",
   "theorems": [
    "Imt.Props.C153_trip_doubles_partial",
    "Imt.Props.C153_trip_partial",
    "Imt.Props.C153_violation"
   ],
   "note": "Proved for the scope of C01 and C02, including zero and normal doubles. Refuted where those fail (C153_violation)."
  },
  {
   "property": "C154",
   "status": "proved",
   "theorems": [
    "Imt.Props.C154_container",
    "Imt.Props.C154_push",
    "Imt.Props.C154_touches",
    "Imt.Props.C154_builder",
    "Imt.Props.C154_array",
    "Imt.Props.C154_object",
    "Imt.Props.C154_applyDiff",
    "Imt.Props.C154_setItems",
    "Imt.Props.C154_fields"
   ],
   "note": "The capacity of Array::commit, Ordered::comm and uniq and of the builder's own containers is part of the models behind C32, C46, C47 and C25."
  },
  {
   "property": "C155",
   "status": "proved",
   "theorems": [
    "Imt.Props.C155_context"
   ],
   "note": ""
  },
  {
   "property": "C156",
   "status": "partial",
   "theorems": [
    "Imt.Props.C156_independent_partial",
    "Imt.Props.C156_violation_moved",
    "Imt.Props.C156_violation_cleared"
   ],
   "note": "Proved for programs that use moved-away builders only to assign to them (C156_independent_partial). Refuted for the rest: a moved-away builder keeps its offset but has no base, and even after clear() an array that is not empty cannot be made of it (C156_violation_moved, C156_violation_cleared)."
  },
  {
   "property": "C157",
   "status": "partial",
   "theorems": [
    "Imt.Props.C157_text",
    "Imt.Props.C157_binary",
    "Imt.Props.C157_default",
    "Imt.Props.C157_violation_min"
   ],
   "note": "Proved for every value without the smallest 64-bit integer, which makes stringify undefined (C157_violation_min)."
  },
  {
   "property": "C158",
   "status": "partial",
   "theorems": [
    "Imt.Props.C158_hs_partial",
    "Imt.Props.C158_es_partial",
    "Imt.Props.C158_container_partial",
    "Imt.Props.C158_unknown",
    "Imt.Props.C158_violation_size",
    "Imt.Props.C158_violation_container"
   ],
   "note": "Proved for HS with every size, ES with 256 and 384 (ES512: see C115), and containers whose objects accept what they sign, in the scope of C63. Refuted: JWTCrypto_ES with another size and a container whose preferred key id is not registered return tokens with an empty signature, which they refuse themselves (C158_violation_size, C158_violation_container)."
  },
  {
   "property": "C159",
   "status": "partial",
   "theorems": [
    "Imt.Props.C159_public",
    "Imt.Props.C159_public_refused",
    "Imt.Props.C159_private",
    "Imt.Props.C159_violation_leak",
    "Imt.Props.C159_violation_size",
    "Imt.Props.C159_private_text",
    "Imt.Props.C159_violation_form"
   ],
   "note": "Public keys: proved, with OpenSSL as a parameter. Private keys: the number and the point are proved; refuted for memory (every import leaks the private number and the point, C159_violation_leak) and for other sizes (null pointer, C159_violation_size). Refuted: exportPublicKey changes the form of the key (C159_violation_form)."
  },
  {
   "property": "C160",
   "status": "partial",
   "theorems": [
    "Imt.Props.C160_positive",
    "Imt.Props.C160_negative",
    "Imt.Props.C160_violation_sign",
    "Imt.Props.C160_single",
    "Imt.Props.C160_double"
   ],
   "note": "Proved except for the tag of negative numbers with arguments from 2^63: 2^63 overflows (undefined behaviour) and larger ones are read as positive numbers (C160_violation_sign)."
  },
  {
   "property": "C161",
   "status": "partial",
   "theorems": [
    "Imt.Props.C161_counter",
    "Imt.Props.C161_chunks",
    "Imt.Props.C161_violation_zeros",
    "Imt.Props.C161_decimals"
   ],
   "note": "Proved for texts that start with fewer than 2^31 digits. Refuted beyond: 2^31 leading zeros overflow the int counter (undefined behaviour, C161_violation_zeros); the counter of decimals is modulo 2^32 (C161_decimals)."
  },
  {
   "property": "C162",
   "status": "partial",
   "theorems": [
    "Imt.Props.C162_rules_partial",
    "Imt.Props.C162_codes_partial",
    "Imt.Props.C162_violation_rules",
    "Imt.Props.C162_violation_compress",
    "Imt.Props.C162_violation_identifier",
    "Imt.Props.C162_identifier_partial",
    "Imt.Props.C162_date_partial",
    "Imt.Props.C162_violation_date"
   ],
   "note": "Proved for all texts whose loop leaves before a byte from 0x80 to 0xFE, in particular all ASCII text; then the answers are those of the other models. Refuted otherwise: such a byte is a negative char and not EOF, undefined in the C standard (C162_violation_rules, C162_violation_compress, C162_violation_identifier, C162_violation_date)."
  },
  {
   "property": "C163",
   "status": "partial",
   "theorems": [
    "Imt.Props.C163_binary_same",
    "Imt.Props.C163_binary_enough_partial",
    "Imt.Props.C163_violation_binary",
    "Imt.Props.C163_violation_binary_keys",
    "Imt.Props.C163_same",
    "Imt.Props.C163_more",
    "Imt.Props.C163_enough_partial",
    "Imt.Props.C163_violation",
    "Imt.Props.C163_violation_document",
    "Imt.Props.C163_writing_partial",
    "Imt.Props.C163_violation_writing"
   ],
   "note": "Proved: a run that does not exhaust its stack gives the result of the unlimited one (text and binary), more stack never changes it, calls for the opening brackets of the text (the bytes of the binary form) are enough, and writing needs exactly the levels of the value. Refuted that the need is bounded: for every stack, enough opening brackets (C163_violation), a correct document (C163_violation_document), enough heads of arrays or references to keys in the binary form (C163_violation_binary, C163_violation_binary_keys) and a value (C163_violation_writing) exhaust it; the parsers have no limit of depth. One call of parse, parseItem or serialize is the unit of stack; frames of other functions and the destruction of values are not counted."
  },
  {
   "property": "C164",
   "status": "partial",
   "theorems": [
    "Imt.Props.C164_once",
    "Imt.Props.C164_own",
    "Imt.Props.C164_second",
    "Imt.Props.C164_first",
    "Imt.Props.C164_sent_partial",
    "Imt.Props.C164_violation_resent",
    "Imt.Props.C164_violation_copy",
    "Imt.Props.C164_violation_destroy"
   ],
   "note": "Proved for all sequences: every function taken is called at most once while the client exists and exactly once in the end, only with a result of its own identifier (C164_once, C164_own); an executed call does nothing (C164_second). Requests are sent once when no sending throws and no prepared call is copied (C164_sent_partial). Refuted: a throwing >> leaves the call registered but not executed, so a second >> sends again and its function gets the empty result (C164_violation_resent); copies of a prepared call do the same (C164_violation_copy); pending functions run after the lock of the client was destroyed (C164_violation_destroy). Identifiers do not wrap here; synchronous calls whose sending throws are in C60."
  },
  {
   "property": "C165",
   "status": "partial",
   "theorems": [
    "Imt.Props.C165_same_partial",
    "Imt.Props.C165_accepts",
    "Imt.Props.C165_violation_failure",
    "Imt.Props.C165_violation_key"
   ],
   "note": "Proved for keys below 2^31 bytes and a HMAC that does not fail (C165_same_partial), and in general that only the content of the buffer is accepted (C165_accepts). Refuted: the result of HMAC is ignored, so on failure the uninitialised buffer is the signature, made and accepted (C165_violation_failure); the length of the key is converted to int, so keys of 4 GiB act as the empty key (C165_violation_key)."
  },
  {
   "property": "C166",
   "status": "proved",
   "theorems": [
    "Imt.Props.C166_loop",
    "Imt.Props.C166_append",
    "Imt.Props.C166_set",
    "Imt.Props.C166_safe",
    "Imt.Props.C166_range",
    "Imt.Props.C166_range_of",
    "Imt.Props.C166_added"
   ],
   "note": "For builders of fewer than 2^64 items (the index has 64 bits). Random access (+=, -) of this iterator is not modelled; compare C141."
  },
  {
   "property": "C167",
   "status": "partial",
   "theorems": [
    "Imt.Props.C167_exact_partial",
    "Imt.Props.C167_items",
    "Imt.Props.C167_read",
    "Imt.Props.C167_enough_partial",
    "Imt.Props.C167_violation_depth"
   ],
   "note": "Proved for all programs as long as the stack is deep enough: no use after free, no leak, no double free (C167_exact_partial), items never change and values never contain themselves (C167_items); a step fails only when a value nested deeper than the stack ends (C167_enough_partial). Refuted on a finite stack: a value nested in a loop with almost no stack overflows the stack when it is destroyed (C167_violation_depth). RefCntPtr is in the absent submodule; its usual contract is assumed, single-threaded."
  },
  {
   "property": "C168",
   "status": "proved",
   "theorems": [
    "Imt.Props.C168_rule",
    "Imt.Props.C168_places",
    "Imt.Props.C168_version"
   ],
   "note": "Which of the failed rules are listed is the matter of C56."
  },
  {
   "property": "C169",
   "status": "partial",
   "theorems": [
    "Imt.Props.C169_enum",
    "Imt.Props.C169_number",
    "Imt.Props.C169_violation_number",
    "Imt.Props.C169_violation_zero"
   ],
   "note": "Proved for unknown enum names (C169_enum: one pointer, valid, exact text; names without zero bytes) and for the last call on an invalid number (C169_number). Refuted: every further what() of InvalidNumericFormat releases the text the call before returned (C169_violation_number, libstdc++ strings); texts end at a zero byte (C169_violation_zero). ParseError is the matter of C138."
  },
  {
   "property": "C170",
   "status": "partial",
   "theorems": [
    "Imt.Props.C170_follow",
    "Imt.Props.C170_text",
    "Imt.Props.C170_violation_number",
    "Imt.Props.C170_binary",
    "Imt.Props.C170_violation_binary"
   ],
   "note": "Proved for texts whose value is no number (C170_text; C170_follow for what follows) and for binary documents from sources that throw at their end (C170_binary). Refuted: a cut number is accepted as another number (C170_violation_number); with the sources of streams.h, which return -1 at the end, the missing bytes of a binary document are taken for 0xFF (C170_violation_binary)."
  },
  {
   "property": "C171",
   "status": "partial",
   "theorems": [
    "Imt.Props.C171_equal_partial",
    "Imt.Props.C171_text_partial",
    "Imt.Props.C171_iff",
    "Imt.Props.C171_violation_equal",
    "Imt.Props.C171_violation_text"
   ],
   "note": "C171_iff proves both directions for values whose numbers are integers exact as doubles and infinities, with well-formed strings (other than the texts of infinities), defined and not binary. C171_equal_partial also has doubles which are not integers. Refuted elsewhere: 2^62 and the double 2^62, 1 and the precise 1.0, rounding integers, binary strings are equal with other texts (C171_violation_equal); undefined and the string undefined, infinity and the string or NaN, neighbouring doubles, incomplete characters, characters above U+FFFF in escaped output share a text and are not equal (C171_violation_text)."
  },
  {
   "property": "C172",
   "status": "partial",
   "theorems": [
    "Imt.Props.C172_between",
    "Imt.Props.C172_short_partial",
    "Imt.Props.C172_any_partial",
    "Imt.Props.C172_end",
    "Imt.Props.C172_violation"
   ],
   "note": "C172_any_partial proves it for texts of any length cut between codes, C172_short_partial for texts of at most 139 bytes cut anywhere, C172_end that bytes 0xFF at the end never matter. Refuted inside a code of two bytes once the dictionary is large: the missing byte is read as 0xFF (the end of the input as a character), which is a valid code of something else (C172_violation: 287 letters)."
  },
  {
   "property": "C173",
   "status": "partial",
   "theorems": [
    "Imt.Props.C173_short_partial",
    "Imt.Props.C173_any_partial",
    "Imt.Props.C173_end",
    "Imt.Props.C173_violation",
    "Imt.Props.C173_violation_number"
   ],
   "note": "C173_short_partial for documents of at most 139 bytes cut anywhere, C173_any_partial for documents of any length cut between codes (both whose value is no number), C173_end for a lost mark of the end. Refuted: a document of 291 bytes cut inside a code of two bytes is read without error as another document (C173_violation); a cut number is another number (C173_violation_number)."
  },
  {
   "property": "C174",
   "status": "partial",
   "theorems": [
    "Imt.Props.C174_written",
    "Imt.Props.C174_again_partial",
    "Imt.Props.C174_precise_partial",
    "Imt.Props.C174_violation",
    "Imt.Props.C174_violation_astral"
   ],
   "note": "C174_written: writing what was read is always defined (no undefined behaviour). C174_again_partial: the same value for values without floating point numbers and with well-formed strings. C174_precise_partial: with numbers kept as text, the same value with the same number texts, written as the same text again, for JSON number tokens and well-formed strings (C176_precise: for all number tokens). Refuted for strings with bytes that begin no character (C174_violation) and, with escaped output, characters above U+FFFF (C174_violation_astral). Not covered: doubles (see C107, C111). Halves of surrogate pairs: see C177."
  },
  {
   "property": "C175",
   "status": "proved",
   "theorems": [
    "Imt.Props.C175_number",
    "Imt.Props.C175_needs_stop"
   ],
   "note": "C175_number for every text and every number kept as text, JSON token or not; C175_needs_stop shows that the hypothesis on what follows is needed. A number standing alone; numbers inside documents are covered by C176_precise."
  },
  {
   "property": "C176",
   "status": "proved",
   "theorems": [
    "Imt.Props.C176_leaves",
    "Imt.Props.C176_precise"
   ],
   "note": "C176_leaves for every tree, printer of doubles, output and mode; C176_precise derives the exact read-back of every value read with numbers kept as text whose strings and keys are well-formed, including number tokens that are no JSON. Which leaves are read back is the subject of C01, C02, C107, C111 and C175."
  },
  {
   "property": "C177",
   "status": "proved",
   "theorems": [
    "Imt.Props.C177_source",
    "Imt.Props.C177_precise"
   ],
   "note": "C177_source for every configuration, with the conditions of the statement as hypotheses (no floating point number in the value; below 2^32 bytes or ASCII after each escape; well-formed UTF-8 source). C177_precise: with numbers kept as text nothing is asked of the value. That characters above U+FFFF are lost in escaped output is C174_violation_astral. An escape whose digits are not hexadecimal may swallow a part of a character; the rest of that character is dropped."
  },
  {
   "property": "C178",
   "status": "proved",
   "theorems": [
    "Imt.Props.C178_again",
    "Imt.Props.C178_same",
    "Imt.Props.C178_needs_wide"
   ],
   "note": "C178_again with no allocation of 2^60 bytes or more succeeding at the first reading (Bounded) and enough memory at the second (Roomy). C178_same: without diffs and positive numbers kept as signed the very same value. C178_needs_wide: why maintain32BitComp is excluded."
  },
  {
   "property": "C179",
   "status": "proved",
   "theorems": [
    "Imt.Props.C179_text_binary",
    "Imt.Props.C179_precise"
   ],
   "note": "C179_text_binary and, with numbers kept as text, C179_precise. asBin is the view binary JSON has of a value of the text parser; the doubles made of decimals are any function into 64-bit patterns. A zero kept as text comes back as the integer zero, without its sign (C18_violation_zero)."
  }
 ]
}