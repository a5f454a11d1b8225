# Formal model of imtjson — design

Source: `/repo/src/imtjson` (read as text; nothing is built or run). All line numbers below and in the Lean
comments refer to that folder. Model and proofs: `lean/Verif/*.lean`, imported from `lean/Verif.lean`.

## 1. Trusted base

* The Lean 4.33 kernel. Theorems use no axioms except (at most) `propext`, `Classical.choice`, `Quot.sound`.
  No `sorry`, no `native_decide`, no `bv_decide`, no own axioms.
* The reading of the C++ source. Every model definition cites the file and lines it models and names the
  simplifications it makes.
* Platform: LP64 (`Int = long`, `UInt = unsigned long`, 64 bit), `char` signed, bytes are `Nat` below 256.
* `src/imtjson/shared` is a git submodule that is absent from the checkout. Its classes are modelled by the
  contract their users rely on: `StringView` = a finite sequence, `==`/`<`/`compare` = lexicographic by unsigned
  byte, `substr(p,n)` clamps; `split(sep)` cuts at the first occurrence; `RefCntPtr` = shared ownership; `VLA` = a
  buffer of the given length.
* C++ standard library: `std::vector`, `std::sort`/`stable_sort`, `unordered_map`, `lower_bound` behave as specified.
* Memory allocation never fails, except where a size computed by the code is itself absurd (`Value::join`: reported as `abort`);
  sizes of containers fit `size_t`.
* `<ctype.h>` is that of glibc in the C locale. Passing a negative `char` is undefined by the standard; where that is the subject (C69,
  C72) it is an outcome, elsewhere (validator) the glibc behaviour is taken.
* `libstdc++` algorithms are used by their specification; `lower_bound` by its published loop where null or unordered elements reach it (C85).
* Conversions of doubles to text and between doubles and integers are parameters; comparisons of doubles are done on their bit
  patterns, exactly, with infinities and NaN.
* Cryptography is a parameter (`Crypto`); HMAC is an uninterpreted function.
* RPC: locks are not modelled, one operation is one atomic step; callbacks are arbitrary programs that may use the request again.
* Decompressor: fewer than 2^32 codes. Parser: fewer than 2^32 digits in a row.
* Validator: `toString`, `getNumber`, `splitAt`, `StringView::split` and native rules are parameters of the model.

Not modelled: IEEE arithmetic (a parsed double is kept as the exact decimal read, a stored double as its 64 bits),
`writeDouble`, file/stream I/O, the allocator, OpenSSL (`jwtcrypto.h`; a crypto object is a parameter), threads
below the granularity of a lock-protected operation.

## 2. Common modelling decisions

* `Bytes = List Nat`, with `Bytes.Valid` (all < 256) where the property is about bytes.
* Undefined behaviour is a separate outcome (`Res.ub`), exceptions are a separate outcome (`Res.err`), running out of
  recursion fuel is a separate outcome which is proved unreachable (or proved reachable = non-termination finding).
* A loop is a structural recursion; a function mutating its object returns the new object.
* Specifications are written separately from the model (grammar relation for JSON, finite maps `key → Option value`,
  plain list operations, calendar arithmetic, ...).
* Property theorems live in `Verif/Props/*.lean`; models in `Verif/Model/*.lean`; helper lemmas in `Verif/Lemmas/*.lean`.
* Where the code violates a property: the negation is proved with a concrete witness (`Cxx_violation_*`), and the
  strongest version that holds is kept as `Cxx_..._partial`.

## 3. Per-property plan

| id | model | proof |
|----|-------|-------|
| C01/C02 | `Parser`, `Serializer`, `Utf8` on `Bytes` | structural induction on the value tree, parser run on `serialize v ++ rest`; non-BMP in escaped mode and the strings "∞", "-∞" are counterexamples |
| C03 | `Serializer` | induction over bytes with decoder state |
| C04 | `Serializer` + grammar `Spec.Json` | induction on the tree |
| C05 | `Parser` + grammar | induction on the grammar derivation; surrogate pairs are a counterexample |
| C06 | `Parser` | fuel sufficiency and suffix lemma by induction on fuel |
| C07 | `parseUnsigned`, `parseNumber` | invariant of the accumulation loop vs. the mathematical value |
| C08 | `writeUnsigned` | induction on digits, against `Nat.toDigits`-style specification |
| C09 | `parseObject` + object construction | counting argument on sort+dedupe |
| C10 | `parsePreciseNumber` | token relation |
| C11 | `numberFromStringRaw` | violation by witness; partial for up to 19 digits |
| C12/C13 | `Utf8` | arithmetic per length class + induction |
| C14/C15 | `Base64` | 3-byte block arithmetic + induction |
| C16/C17 | `UrlEnc`, `Utf8Enc` | per byte + induction |
| C18–C20 | `BinJson` | simulation: writer/reader state relation; first-byte rule is a counterexample for non-UTF-8 strings |
| C21 | `BinJson` parser with an end-of-file stream | violation: no fuel suffices |
| C22 | `equal`, hash input | violation int/double; partial: same number class |
| C23/C24/C31 | `ObjCore` | insertion/merge sort and dedupe lemmas, binary search invariant |
| C25 | `ObjBuilder` | refinement to `Bytes → Option JV`, induction on ops |
| C26 | heap of containers | frame lemma per operation |
| C27 | `ObjBuilder` with cached snapshot | violation; partial for histories of set/unset only |
| C28/C29 | `createDiff`, `applyDiff` | merge of sorted lists vs. pointwise map; violation for the recursive form |
| C30, C61 | `setItems`, `updateContext` | pointwise map |
| C32–C34 | `ArrBuilder` | refinement to lists; violations for `insertSet`, `slice` |
| C35–C39 | `ValueOps` | list lemmas; violations for `slice`, `join`, `String::splitAt` |
| C40–C42 | `Path` | induction on the path |
| C43/C44 | `compare`, `equal` | violations for numbers; partial for trees whose numbers are of one class |
| C45–C48 | `Ordered` | sorted list lemmas |
| C49 | `Comments` | state machine, induction on input |
| C50/C51 | `Compress` | lock-step simulation of the two dictionaries; violation for hostile input |
| C52 | `NamedEnum` | binary search |
| C53–C57 | `Validator` | decision procedures vs. calendar/charset/template specification |
| C58–C60 | `Rpc` | state machine invariants over operation sequences |
| C62–C65 | `Jwt` | case analysis, composition of C15 and C01; cache invariant over histories |
| C66 | `StringOps` | induction |
| C67/C68 | `merge`, `diff` | list/map lemmas; violation: array diff does not terminate |

| C69–C74 | `Parser`, `BinJson`, `BinEnc` | fuel/UB outcomes over all byte streams; witnesses for hostile streams; soundness of the lenient grammar |
| C75–C78 | `ValueOps`, `Ordered` | list operations, permutation and stability lemmas |
| C79 | `Path` copy | layout arithmetic of the block, induction on the path |
| C80–C83 | `Equal`, `NamedEnum`, `Str`, `Merge` | see C43/C52/C66/C67 |
| C84, C85 | `Jwt` cache and key container | decision logic over all histories |
| C86–C89 | `Rpc` client/multicall | message round trip, state machine |
| C90–C92 | `Compress` | safety of the compressor for any bytes, state after the end |
| C93–C99 | `ValidText`, `Validator` | exact language per rule, relative to the decision of inner rules |
| C100–C103 | `Conv` | case analysis over classes; termination by length of nested texts |
| C104 | `Equal` (`fnv`) | fold invariant; odd multiplier is invertible modulo 2^64 |
| C105 | `WriteDouble` | token assembled from the parts; digits by induction |
| C106 | `Fp`, `WriteDouble` | decision logic; range of the scaled number |
| C107 | `Fp`, `WriteDouble` | error analysis of binary64 rounding |
| C108 | `Fp`, `WriteDouble` | error below half a step between integers |
| C109 | `Fp`, `ReadDouble` | bounds on every intermediate result; refuted for long numbers |
| C110 | `Fp`, `ReadDouble` | counting relative errors (`Near n`) |
| C111 | `Fp`, `ReadDouble` | exact operands, one rounding; refuted with witnesses |
| C112 | `ReadDouble`, `WriteDouble` | error below a quarter step, C108, uniqueness of decimal notation |
| C113 | `Edit`, `ObjB`, `ArrB` | mutual induction over scripts; refuted for `commit()` in between |
| C114 | `Edit` | simulation by a function and a list of copies |
| C115 | `JwtSign` | big endian numbers; refuted for ES512 with the order of P-521 |
| C116 | `JwtSign` | exact characterisation, injectivity per length; refuted by padding |
| C117 | `JwtSign` | case analysis of the result of OpenSSL; refuted |
| C118 | `RpcServer` | refinement of the directory by its history, composition with C59 |
| C119 | `RpcServer` | composition of C118, C86 and C60; refuted for undefined results |
| C120 | `RpcServer` | induction over the places, C95 |
| C121 | `BinSession` | round trip by induction on the calls, on C18's synchronisation invariant |
| C122 | `BinSession` | invariant over calls, violation for every hash |
| C123 | `ComprReset` | simulation up to the optimizer's data, violations |
| C124 | `RpcNotify` | contents of notifications; silence as invariant of all operations |
| C125 | `RpcNotify` | the flag as a function of the messages sent; every notification was allowed when sent |
| C126 | `Stream` | induction over the texts of the stream, violation |
| C127 | `Reader` | refinement of the parser on lists by the parser over the reader state, simulation relation |
| C128 | `Binary` | refinement of chunked output to the text of the encoding, round trip; exact description of what is lost |
| C129 | `Binary` | decision logic over the kinds of nodes |
| C130 | `StrMem` | memory model of the string objects: contents and terminating zero by induction over parts |
| C131 | `StrMem` | ownership: which objects a handle keeps alive |
| C132 | `StrMem` | memory model of the block, case analysis of the check |
| C133 | `StrMem` | loop invariant: what is copied so far, refinement to the list concatenation |
| C134 | `StrMem` | refinement of the objects to the list of contents, ownership |
| C135 | `RpcSync` | invariant over all interleavings: every rest of a thread is guarded by the lock |
| C136 | `RpcSync` | inductive invariant of the protocol over all interleavings; reachability of the end |
| C137 | `ParserMem` | refinement of the parser without scratch memory, by induction over the recursion |
| C138 | `ParserMem` | the same induction with the contexts compared to a reference that follows the failing path |
| C139 | `Share` | transition system of threads and the mutable members of values; invariants by induction over interleavings |
| C140 | `RpcLife` | reference counter as a transition system; invariant by induction over events |
| C141 | `Iter` | loops by induction over positions; walk against a scan of all addresses, mutual induction over trees |
| C142 | `Native` | induction over the type, with the classes chosen by the constructors |
| C143 | `RpcMulti` | generators unrolled by induction over the arguments, then C87 |
| C144 | `RpcWire` | C01 composed with C118/C119/C60; reading of built objects member by member |
| C145 | `RpcError` | error object by its members, then C119 and C144 |
| C146 | `ObjOps` | builder refinement (reuse of C23/C25 lemmas), canonical list extensionality, counterexample |
| C147 | `Handle` | invariant over all constructions (at most one key, on top), observational equality, memory bound |
| C148 | `RpcBuiltin` | reuse of the dispatch and client theorems (C118, C119, C60), two nested requests, counterexamples |
| C149 | `RpcBuiltin` | loop invariant over moved entries |
| C150 | `Props/Base64Text` | per-group reading of any text, table of all 256 characters; re-encoding by groups |
| C151 | `Model/RecMerge`, `Props/RecMerge` | recursion unfolded by depth of the diff; induction on paths and depth |
| C152 | `Props/SerLine` | invariant of the decoder state with the number of bytes read; induction over trees with a predicate closed under joining; the 4 GiB witness by induction on its length |
| C153 | `Props/SerLine` | output of the serializer meets the conditions of C50 (C152), then C01/C02 |
| C154 | `Props/Container` | refinement of the filling loops, with capacity, to the list functions of C23, C28 and C30; invariant of the container |
| C155 | `Props/RpcConn` | refinement of the object builder to the list of stores (C25) |
| C156 | `Props/ArrayWorld` | refinement of a set of builders to independent lists (C32) |
| C157 | `Props/ToText` | case analysis over C01 and C128 |
| C158 | `Props/JwtKeys` | round trip C63 at the preferred method; selection C85 |
| C159 | `Props/JwtKeys` | functions over OpenSSL as a parameter, list of objects without an owner |
| C160 | `Props/BinNum` | computation on the forms; values of IEEE 754 patterns as rationals |
| C161 | `Props/ParserCnt` | induction on the text; the chunked loop refines `digitsVal` |
| C162 | `Props/CtypeStd` | induction on the text; the standard's classes refine the models of C95 and C51 |
| C163 | `Props/ParserDepth`, `Props/SerDepth` | stack-bounded copies refine the models; flat order of outcomes |
| C164 | `Props/RpcPrepared` | permutation of taken functions into called and pending; induction over operations |
| C165 | `Props/JwtSign` | refinement to the total HMAC |
| C166 | `Props/ArrayIter` | loop invariant over positions |
| C167 | `Props/RefHeap` | counting invariant with pending pointers and dying objects; acyclicity by age |
| C168 | `Props/ValidPlaces` | invariant through all rules: each rejection has a witness of a failed evaluation at its place |
| C169 | `Props/ExcText` | blocks of memory, induction over calls |
| C170 | `Props/Cut` | extension of the input, induction over the recursion |
| C171 | `Props/TextEq` | normal form of trees common to equality and text; injectivity by the round trip |
| C172 | `Props/ComprCut` | lockstep of two decompressors until the codes end; invariant of the compressor on the codes written; witness by kernel evaluation |
| C173 | `Props/ComprCutDoc` | composition of C172 and C170; witnesses by kernel evaluation |
| C174 | `Props/Stable` | invariant of parsed values by induction on the parser, composed with C01/C02 |
| C175 | `Props/NumText` | the reader taken again on the text it took |
| C176 | `Props/Leaves` | mutual induction on the tree, parser run on the serializer's output |
| C177 | `Props/Source` | invariant of the parser (strings are code points, the rest stays well-formed), then C176 |
| C178 | `Props/BinAgain` | invariant of the parser (every text can be written, keys in the history too), then C18 |
| C179 | `Props/TextBin` | invariants of the text parser (C174, C177), then C18 |

Findings (code behaviour contradicting a property) are collected in section 4 as they are proved.

## 4. Findings

Every entry is a theorem with a concrete witness (or for all inputs of a class) that contradicts the property. The property itself is
kept as the strongest version that holds; `MANIFEST.json` says which.

**C01 Text round trip (UTF-8 output)** (src/imtjson/serializer.h:Serializer, src/imtjson/parser.h:Parser, src/imtjson/value.cpp:Value::fromString)

* `C01_violation_infinity`: C01 does not hold for the string "∞": it comes back as a number.
* `C01_violation_min`: C01 does not hold for the most negative integer: printing it overflows (undefined behaviour, serializer.h:237,248).
* `C01_violation_min_anywhere`: C01, violation, in general: printing is undefined exactly when the most negative integer occurs anywhere in the tree.

**C02 Text round trip (escaped output)** (src/imtjson/serializer.h:writeUnicode, src/imtjson/parser.h:parseUnicode)

* `C02_violation_astral`: C02 does not hold for characters above U+FFFF: U+1F600 is written as `\uF600` and read back as U+F600.

**C04 Serializer output conforms to the JSON grammar** (src/imtjson/serializer.h:Serializer)

* `C04_violation_precise`: C04 does not hold for precise numbers: the parser accepts `+5` (parser.h:761) and the serializer writes it back, which is not JSON.
* `C04_violation_astral`: C04 does not hold for characters above U+FFFF in escaped mode: the text denotes another string.

**C05 Parser accepts all JSON** (src/imtjson/parser.h:Parser::parse, src/imtjson/parser.h:readString, src/imtjson/parser.h:parseNumber)

* `C05_violation_surrogates`: C05 does not hold for surrogate pairs: the text `"😀"` written as two `\u` escapes denotes U+1F600 (F0 9F 98 80) but is parsed to the six bytes ED A0 BD ED B8 80.
* `C05_violation_pairs`: C05 fails for every string with a surrogate pair in it: the text is accepted, but what is read is longer by at least two bytes than what the text denotes.
* `C05_violation_infinity`: C05 does not hold for the string "∞": it becomes a floating point infinity.

**C07 Integer literals are exact or become floating point** (src/imtjson/parser.h:parseUnsigned, src/imtjson/parser.h:parseNumber)

* `C07_violation_min`: the most negative 64-bit integer is the one integer in range that is read as floating point (its decimal is still exact).

**C08 Integers are printed exactly** (src/imtjson/serializer.h:writeUnsigned, src/imtjson/serializer.h:writeSigned, src/imtjson/parser.h:parseNumber)

* `C08_violation_min`: C08 does not hold for the most negative integer (`-value` overflows, serializer.h:237).

**C11 Integer view of numeric strings** (src/imtjson/stringValue.cpp:numberFromStringRaw, src/imtjson/value.h:Value::getUInt)

* `C11_violation_wraps`: C11 does not hold for precise numbers: 3*10^19 is above 2^64, the overflow test `newval < acclm` (stringValue.cpp:297) does not notice and the integer view is the wrapped 11553255926290448384.

**C18 Binary JSON round trip** (src/imtjson/binjson.tcc:BinarySerializer, src/imtjson/binjson.tcc:BinaryParser)

* `C18_violation_first_byte`: C18 fails: a string whose first byte is 0x80-0xBF comes back with bit 6 of that byte set.
* `C18_violation_zero`: C18 fails: a double that is zero of either sign (a number kept as text such as `-0.0` is written as one) comes back as the integer zero, so the sign is lost.
* `C18_violation_diff`: C18 fails: an object flagged as a diff comes back as an ordinary object.
* `C18_violation_empty_binary`: C18 fails: an empty binary string comes back as an ordinary string.
* `C18_violation_compat32_sign`: C18 fails: under `maintain32BitComp` a negative integer below -2^32+1 and its positive counterpart are written as the same bytes, so the sign is lost.
* `C18_violation_min`: C18 fails: the most negative integer has no defined serialization.

**C19 Binary key dictionary stays synchronised** (src/imtjson/binjson.tcc:tryCompressKey, src/imtjson/binjson.tcc:storeKey, src/imtjson/binjson.tcc:parseItem)

* `C19_violation_wrap`: C19 fails once the 32-bit identifiers wrap: after 2^32-256 different keys, one more is sent in full, and the next key, never seen before, is sent as a reference to its predecessor.

**C21 Binary parser terminates on any stream** (src/imtjson/binjson.tcc:BinaryParser::parseItem)

* `C21_violation_eof`: C21 fails: with a source that returns -1 at the end of its data the parser, asked for an item where nothing is left, recurses without end: no depth suffices.

**C22 Hash is consistent with equality** (src/imtjson/value.cpp:std::hash<json::Value>, src/imtjson/abstractValue.cpp, src/imtjson/basicValues.h)

* `C22_violation_double`: C22, violation. `1` and `1.0` are equal, their hashes differ.
* `C22_violation_precise`: C22, violation. The precise number `1` equals `1`, the hashes differ.
* `C22_violation_binary`: C22, violation. A string equals the binary string with the same bytes, the hashes differ.
* `C22_violation_item_keys`: C22, violation. Keys bound to items of an array are ignored by equality but not by the hash.
* `C22_violation_rounding`: C22, violation. Integers which round to the same double: signed 2^53 and unsigned 2^53+1.
* `C22_violation_overflow`: C22, violation. The hash of the most negative integer is undefined behaviour (its negation overflows).

**C27 Iterating an Object builder shows its current content** (src/imtjson/object.cpp:Object::begin, src/imtjson/object.cpp:Object::end, src/imtjson/object.cpp:Object::clear)

* `C27_violation_clear`: C27 fails: after `clear` the builder is empty, yet the enumeration still shows the old member.
* `C27_violation_revert`: C27 fails likewise after `revert` …
* `C27_violation_assign`: … and after an assignment to a builder that was enumerated.

**C28 Diff/patch inverse** (src/imtjson/object.cpp:Object::createDiff, src/imtjson/object.cpp:Object::applyDiff, src/imtjson/object.cpp:applyDiffImpl)

* `C28_violation_undefined_member`: C28 fails for an object with an undefined member: the member is lost.

**C29 Recursive diff/patch inverse** (src/imtjson/object.cpp:Object::createDiff, src/imtjson/object.cpp:applyDiffImpl)

* `C29_violation_always`: C29 fails whenever some key has objects on both sides (even equal ones): the result has a member with an empty key.
* `C29_violation_equal`: The smallest case: nothing changed, yet patching adds a member.

**C30 setItems updates a map** (src/imtjson/value.cpp:Value::setItems)

* `C30_violation_repeated`: C30 fails for a repeated key: the result has the key twice and is not canonical.
* `C30_violation_removed`: C30 fails for a key that is set and then removed in the list: the set value survives.

**C32 Array builder behaves as a list** (src/imtjson/array.cpp:Array::insert, src/imtjson/array.cpp:Array::erase, src/imtjson/array.cpp:Array::set)

* `C32_violation_undefined_base`: Undefined items of the base are not dropped as long as no operation touches them: the same content commits to different arrays.
* `C32_violation_reverse_revert`: `reverse` forgets the base, so a following `revert` empties the builder instead of going back to the base.

**C33 Array::insertSet inserts at the given position** (src/imtjson/array.cpp:Array::insertSet)

* `C33_violation_always`: In every other case — a kept part of the base before the position, and at least one item — `insertSet` is wrong: it writes outside the vector or leaves a null pointer that the next `commit` follows.
* `C33_violation_middle`: For instance: inserting one item in the middle of an existing array of two, or of three; there the item at the position cannot be read either.

**C34 Array::slice keeps the requested window** (src/imtjson/array.cpp:Array::slice)

* `C34_violation_twice`: A negative `end` makes the builder slice twice.
* `C34_violation_start`: A negative `start` is counted from the new end.
* `C34_violation_smallest`: The smallest integer as an argument is undefined behaviour: its negative is taken.

**C35 Value::slice keeps the requested window** (src/imtjson/value.cpp:Value::slice)

* `C35_violation_negative`: C35 is false: with a negative start the end is ignored.
* `C35_violation_before`: C35 is false: a start before the beginning gives the whole array, whatever the end.
* `C35_violation_undefined`: C35 is false: undefined items of the window are dropped.
* `C35_violation_min`: C35 is false: negating the smallest index is undefined behaviour.

**C36 splitAt partitions a value** (src/imtjson/value.cpp:Value::splitAt, src/imtjson/string.cpp:String::splitAt)

* `C36_violation_large`: C36 is false for an array of 2^31 items: every negative position overflows.
* `C36_violation_string_zero`: C36 is false: splitting a string at 0 puts everything to the left.

**C37 push/pop/shift/unshift are deque operations** (src/imtjson/value.cpp:Value::push, src/imtjson/value.cpp:Value::pop, src/imtjson/value.cpp:Value::shift)

* `C37_violation_undefined`: C37 is false with undefined items: `shift` and `unshift` lose them.
* `C37_violation_push`: C37 is false for the undefined value: it is not pushed.

**C38 join concatenates with separators** (src/imtjson/value.cpp:Value::join)

* `C38_violation_empty`: C38 is false: joining an empty array with a (short) separator writes outside of the allocated memory.
* `C38_violation_long`: C38 is false: with a longer separator it asks for more memory than there is.

**C40 Path replace obeys get/put laws** (src/imtjson/value.cpp:Value::replace, src/imtjson/value.cpp:setToPathRev, src/imtjson/path.cpp:Value::operator[])

* `C40_violation_index_beyond_end`: C40, violation. An index above the size appends the value at the end; the path still leads nowhere.
* `C40_violation_undefined_item`: C40, violation. Putting undefined to an array removes the item: the path leads to the next item and the neighbours are shifted.
* `C40_violation_index_over_object`: C40, violation. An index over an object reads the member at that position, but replacing throws the object away.

**C43 Value comparison is a total order** (src/imtjson/abstractValue.cpp:AbstractValue::compare)

* `C43_violation_large_unsigned`: C43, violation. Unsigned integers from 2^63 are negative when compared with a signed integer: signed 5 = unsigned 5 < 2^63 (unsigned), yet signed 5 is above 2^63.
* `C43_violation_nan`: C43, violation. NaN compares as equal to every number, 1 and 2 included.
* `C43_violation_rounding`: C43, violation. Integers are compared with doubles after rounding: 2^53+1 = 2.0^53 = 2^53, yet 2^53+1 > 2^53.

**C44 Value equality is an equivalence** (src/imtjson/value.h:Value::operator==, src/imtjson/abstractValue.cpp, src/imtjson/basicValues.h)

* `C44_violation_transitivity`: C44, violation. 2^53+1 == 2.0^53 and 2.0^53 == 2^53, but 2^53+1 != 2^53.
* `C44_violation_symmetry`: C44, violation. A number that carries a custom object hides its class: the result depends on the order.
* `C44_violation_copies`: C44, violation. Values with the same content at different addresses differ when there is an undefined or a NaN in them.

**C45 Ordered find is correct** (src/imtjson/operations.h:Ordered::find, src/imtjson/operations.h:Ordered::lowerBound)

* `C45_violation_upperBound`: `upperBound` is not the first item above the needle when the needle is absent.
* `C45_violation_large`: C45 is false for 2^32 items: an item found in the second half is reported as absent.

**C48 split/group partition the input** (src/imtjson/operations.h:split, src/imtjson/operations.h:group)

* `C48_violation_empty`: C48 is false: the empty array has one group, which is empty.
* `C48_violation_undefined`: C48 is false: undefined items are lost and the item after them joins their group.

**C49 Comment filter preserves content** (src/imtjson/comments.h:CommentedJSON)

* `C49_violation_slash_quote`: C49, violation. A quote behind a slash is not recognised: in this text without comments the string is cut.

**C51 Decompressor is memory safe** (src/imtjson/compress.tcc:Decompress::decompress)

* `C51_violation_first`: C51 violated. The first code 102 refers to the sequence of the previous code, which does not exist: the dictionary is accessed at `initialChainCode - firstCode`.
* `C51_violation_optimize`: C51 violated. The same after an optimisation code in the middle of a stream.

**C53 Date/time validation is exact** (src/imtjson/validator.cpp:checkDateTimeGen)

* `C53_violation_offset`: C53 does not hold for formats with an offset: minutes of the offset are computed from its hours. `+09:05` is rejected and `+01:99` is accepted.
* `C53_violation_minutes`: With an offset of hours and minutes the test is on the last digit of the minutes with the hours before it: for all digits, offsets of up to five hours are accepted with any minutes, later ones never.
* `C53_violation_fields`: Without a month any day is accepted; without a year 29 February is accepted; ten digits wrap around.

**C54 Character-set rules are exact** (src/imtjson/validator.cpp:opTestCharset)

* `C54_violation_range`: C54 does not hold for a set that ends in a range: `[a-z]` accepts the minus sign and `[^a-z]` rejects it.
* `C54_violation_single`: C54 does not hold for sets of one character: `adjlen` is 2^64-1. Every subject whose first character is neither the listed one nor `]` makes the code read behind the end of the rule; `]` is accepted.

**C55 Object rules check every member** (src/imtjson/validator.cpp:Validator::evalRuleObject)

* `C55_violation_empty`: C55 does not hold for a subject without members behind the rules before `%`: the rule for other members is applied to undefined. `{"%":"string"}` rejects `{}` and accepts `{"a":"x"}`.
* `C55_violation_key`: C55 does not hold for the empty key: `{"%":"string"}` accepts `{"":5}` and rejects `{"a":5}`.
* `C55_violation_order`: C55 does not hold for keys that change their place when a percent sign is removed: `{"%!":"string","%%":"string"}` rejects `{"%":"x","%!":"x"}`; each of the two rules alone accepts its member.

**C56 A rejection is always reported** (src/imtjson/validator.cpp:Validator::addRejection, src/imtjson/validator.cpp:Validator::validate)

* `C56_violation_literal`: C56 does not hold for literal rules: null, booleans and numbers are rejected without a word.
* `C56_violation_second`: C56 does not hold for the second validation that fails for the same rule.
* `C56_violation_first`: C56 does not hold for the first validation either: `[[],["!","string"]]` rejects `[5,"x"]` and reports nothing. No rule is used twice in the definition.
* `C56_violation_version`: A wrong `_version` leaves the rejections of the previous validation in place.

**C57 Validator variables are scoped** (src/imtjson/validator.cpp:Validator::opSetVar, src/imtjson/validator.cpp:Validator::findVar)

* `C57_violation_throw`: C57 does not hold when the validation throws: a reference to an unknown class below `setvar` leaves the variable behind, and the next validation sees it.

**C58 At most one RPC response** (src/imtjson/rpc.cpp:RpcRequest::RequestData::sendResult, src/imtjson/rpc.cpp:RequestData::sendError)

* `C58_violation_reenter`: C58, violation. A callback which, given the result, sets the result once more, is given two responses: the flag is set only after the callback returns.
* `C58_violation_throw`: C58, violation. A callback which throws when given the result: the server then sends an error as the second response.
* `C58_violation_callbacks`: C58, violation. A request created with `Callbacks` has no guard: every `setResult` is handed out, here two of them.

**C59 Every RPC request is answered, notifications never** (src/imtjson/rpc.cpp:RpcServer::exec, src/imtjson/rpc.h:RpcRequest::create, src/imtjson/rpc.cpp:RpcRequest::setNoResultError)

* `C59_violation_callbacks`: C59, violation. A notification (no id) executed with `Callbacks` gets a response.

**C60 RPC client calls complete exactly once with their own result** (src/imtjson/rpc.cpp:AbstractRpcClient::processResponse, src/imtjson/rpc.cpp:AbstractRpcClient::cancelPendingCall, src/imtjson/rpc.cpp:AbstractRpcClient::genRequestID)

* `C60_violation_wrap`: C60, violation. The counter has 32 bits: if a call stays pending until the counter comes around, the new call with the same identifier is not registered; it is completed at once with the empty result although its request is sent.
* `C60_violation_throw`: C60, violation. If `sendRequest` throws in a synchronous call, its entry on the stack stays registered: cancelling the calls (e.g. after the connection is lost) touches storage that is gone.

**C63 JWT round trip** (src/imtjson/jwt.cpp:serializeJWT, src/imtjson/jwt.cpp:parseJWT)

* `C63_violation_astral`: C63 does not hold for characters above U+FFFF: a token for `{"name":"😀"}` is accepted with another name (U+F600). The text is escaped with four digits, see C02.
* `C63_violation_infinity`: C63 does not hold for the text "∞": it comes back as a number.
* `C63_violation_min`: C63 does not hold for the most negative integer: no token is made, printing it is undefined behaviour; for each cryptography.

**C64 JWT time window** (src/imtjson/jwt.cpp:checkJWTTime)

* `C64_violation_negative_exp`: C64, violation. A token that expired before 1970 (`exp` negative) is accepted now: `exp` becomes a huge unsigned number.
* `C64_violation_negative_nbf`: C64, violation. A token valid since before 1970 (`nbf` negative) is refused.
* `C64_violation_range`: C64, violation. Infinite bounds, and doubles from 2^64 on or at most -1, make the conversion of the number undefined behaviour, whatever the time is.

**C65 JWT cache is sound and bounded** (src/imtjson/jwt.cpp:JWTTokenCache)

* `C65_violation_stale`: C65, violation. The most recently stored content is not kept: storing a token again while it is in the first map has no effect.

**C67 Merge of values** (src/imtjson/value.cpp:Value::merge)

* `C67_violation_diff_array`: C67, violation. Merging a diff of an array may fail: after two removals the remembered position lies behind the end and the search wraps around over items that do not exist (`std::out_of_range` of `vector::at`).

**C68 Value::diff terminates and inverts merge on arrays** (src/imtjson/value.cpp:Value::diff)

* `C68_violation_endless`: C68, violation. Whenever one array continues the other one, `diff` never ends.

**C69 Binary decoders are total and stay in their buffers** (src/imtjson/base64.cpp:decoderCore, src/imtjson/binary.cpp:UrlEncoding::decodeBinaryValue, src/imtjson/binary.cpp:UTF8Encoding::decodeBinaryValue)

* `C69_violation_url`: C69 is violated by urlencoding: a byte above 0x7F after `%` is passed to `isdigit` as a negative number.
* `C69_violation_utf8`: C69 is violated by utf8encoding: this malformed text aborts the process, because the second pass of the shared converter produces a character the first pass did not count.

**C70 Binary parser is memory safe** (src/imtjson/binjson.tcc:BinaryParser::parseArray, src/imtjson/binjson.tcc:BinaryParser::parseString, src/imtjson/binjson.tcc:BinaryParser::storeKey)

* `C70_violation_array`: C70 fails: nine bytes announce an array of 2^61 items; the size computation wraps, a block without any item slot is allocated, and the first item is stored behind it.
* `C70_violation_string`: C70 fails: a string of announced length 2^64-1 is given a block for the fixed part only, and its terminator is stored far outside.
* `C70_violation_negint`: C70 fails: a negative integer of magnitude 2^63 overflows when negated.

**C71 Objects read from binary form are searchable** (src/imtjson/binjson.tcc:BinaryParser::parseObject, src/imtjson/objectValue.cpp:ObjectValue::findSorted)

* `C71_violation_unsorted`: C71 fails: the binary parser keeps the order of the stream, so a stream naming "b" before "a" yields an object whose members are not sorted, and looking up "b" finds nothing although the member is there.

**C72 Character classification is called with valid arguments** (src/imtjson/parser.h:Reader::nextWs)

* `C72_violation`: C72 fails for every source: a byte from 0x80 to 0xFE where a value, comma, colon or bracket is expected makes `isspace` take a negative number.

**C75 Reading behind the end of an array gives undefined** (src/imtjson/arrayValue.cpp:ArrayValue::itemAtIndex, src/imtjson/value.cpp:SubArray::itemAtIndex)

* `C75_violation`: C75 is false: the left part of a split shows the items of the right part behind its end, for every array and position.

**C76 findIndex, filter, map and reverse are the list operations** (src/imtjson/operations.h:Value::findIndex, src/imtjson/operations.h:Value::filter, src/imtjson/operations.h:Value::map)

* `C76_violation_reverse`: C76 is false with undefined items: `reverse` drops them.

**C80 Value::compare agrees with operator==** (src/imtjson/abstractValue.cpp:AbstractValue::compare, src/imtjson/value.h:Value::operator==, src/imtjson/basicValues.h:equal)

* `C80_violation`: C80, violation. Comparison of two undefined values gives 0 though they are not equal; the same for NaN.

**C81 NamedEnum::allEnums lists every name** (src/imtjson/namedEnum.h:allEnums)

* `C81_violation`: C81, violation. `allEnums` returns the separator instead of the list, whatever the (non-empty) table is.
* `C81_violation_witness`: The list is not returned even for one entry: `allEnums` of the table `1 ↦ "a"` is `", "`, not `"a"`.

**C82 String editing is list editing and stays in memory** (src/imtjson/string.cpp:String::insert, src/imtjson/string.cpp:String::replace, src/imtjson/string.cpp:String::String)

* `C82_violation_overflow`: C82, violation. "Replace all from position 1": with the size `npos` the sum overflows and the whole string is appended instead.

**C83 Merging the difference restores the other value** (src/imtjson/value.cpp:Value::merge, src/imtjson/value.cpp:Value::diff)

* `C83_violation_array`: C83, violation. For arrays with repeated items: the difference of `[1,1]` and `[1,2]`, merged into `[1,1]`, gives `[2,1]`.
* `C83_violation_string`: C83, violation. For strings the difference removes a suffix: `"ab" - "b"` merged into `"ab"` is not `"b"`.

**C84 JWT cache accepts any token text** (src/imtjson/jwt.cpp:JWTTokenCache::Hash::operator ())

* `C84_violation_short`: C84, violation. For every shorter token the hash is computed from uninitialised memory.

**C85 JWTCryptoContainer selects the item of the sign method** (src/imtjson/jwt.cpp:JWTCryptoContainer::sign, src/imtjson/jwt.cpp:JWTCryptoContainer::verify, src/imtjson/jwt.cpp:JWTCryptoContainer::isLess)

* `C85_violation_alg`: C85, violation. Two objects under the same key identifier with different algorithms ("each item is identified by SignMethods"): the one with the greater algorithm name is never used, whatever method is asked for.
* `C85_violation_null`: C85, violation. An item with a null pointer is dereferenced.

**C86 The RPC client understands the server's responses** (src/imtjson/rpc.cpp:RpcRequest::RequestData::sendResult, src/imtjson/rpc.cpp:RpcRequest::RequestData::sendError, src/imtjson/rpc.cpp:AbstractRpcClient::processResponse)

* `C86_violation_undefined`: C86, violation. The undefined result in version 2: the response is taken for a request and the call stays pending; in version 1 it is taken for an error.
* `C86_violation_null_error`: C86, violation. In version 1 the null error is taken for success.

**C87 Multicall collects one entry per call in order** (src/imtjson/rpc.cpp:MulticallContext::run, src/imtjson/rpc.cpp:RpcServer::add_multicall)

* `C87_violation_undefined`: C87, violation. A method answers with an undefined value: it is left out of `results` (array.cpp:158), so the results of later calls move to the places of earlier ones.
* `C87_violation_twice`: C87, violation. The last called method sets its result twice (harmless for a normal request): the context of the multicall is deleted inside the second answer and used after it.

**C88 Multicall returns context changes** (src/imtjson/rpc.cpp:MulticallContext::run)

* `C88_violation_context`: C88, violation. A called method changes the context; the change is collected but the result of the multicall carries no context.

**C89 RPC clients never read uninitialised state** (src/imtjson/rpc.h:AbstractRpcClient::AbstractRpcClient, src/imtjson/rpc.cpp:AbstractRpcClient::operator ())

* `C89_violation_copy`: C89, violation. A copy of a client has its protocol version uninitialised, so preparing a call reads it.

**C91 Compressor rejects what it cannot reproduce** (src/imtjson/compress.tcc:Compress::operator())

* `C91_violation_malformed`: C91 violated. A malformed sequence is not rejected, and the text which is decompressed is another one: the byte after the lead byte C3 is returned with the high bit set.

**C92 Decompressor after the end is as new** (src/imtjson/compress.tcc:Decompress::reset)

* `C92_violation_texts`: C92 violated. Two whole texts, each compressed by a new compressor, read by one decompressor: the first is `bbbb`, the second is a text of `a` only, long enough to fill the dictionary. The first is read. The second, which a new decompressor reads, is never read: whatever is returned has a `b`.
* `C92_violation_reuse`: C92 violated. At the end of a text the decompressor resets itself, but not the dictionary under construction. A stream which a new decompressor cannot decompress is then decompressed to a sequence of the earlier text.

**C93 Character-class rules are exact** (src/imtjson/validator.cpp:opHex, src/imtjson/validator.cpp:opBase64, src/imtjson/validator.cpp:opIsIdentifier)

* `C93_violation_empty`: C93 does not hold for the empty string: it is an identifier (and in no other class).

**C94 Validation terminates** (src/imtjson/validator.cpp:Validator::evalRule, src/imtjson/validator.cpp:Validator::checkClass)

* `C94_violation_self`: C94 does not hold for a class that names itself: no depth is enough, for any subject.

**C96 Range rules follow the order of numbers** (src/imtjson/validator.cpp:Validator::opRangeDef, src/imtjson/validator.cpp:isLess)

* `C96_violation_rounding`: C96 does not hold for large integers of different kinds: `["<=",9007199254740992]` accepts the signed number 9007199254740993.
* `C96_violation_nan`: C96 does not hold for NaN: `[">=",5]` and `["<=",5]` accept it.

**C97 Named rules are exact** (src/imtjson/validator.cpp:559-672, src/imtjson/validator.cpp:774-784, docs/validator_commands.md:5-28)

* `C97_violation_literal`: C97 does not hold for literals and other types: the rule `'` (the empty string) accepts every number, array, object, null, boolean, and the undefined value.
* `C97_violation_camelcase`: the documented rule `camelcase` is not known: it throws unless the definition has a class of the name.
* `C97_violation_types`: `unsigned` accepts 1.5, and `lowercase` accepts whatever has a lowercase text, like the constant true.

**C98 Rules with parameters are exact** (src/imtjson/validator.cpp:103-119, src/imtjson/validator.cpp:367-486, src/imtjson/validator.cpp:785-854)

* `C98_violation_tonumber`: C98 does not hold for `tonumber`: documented to reject what cannot be converted, it takes it as zero.
* `C98_violation_split`: C98 does not hold for positions from 2^31 on: the position is converted to `int`, so that it is taken modulo 2^32, and from 2^31 on (below 2^32) as a negative position, which `splitAt` counts from the end (C36).

**C99 References and emitted values** (src/imtjson/validator.cpp:885-988)

* `C99_violation_emit`: C99 does not hold for the accepted way: values emitted in an alternative that failed later stay. The rule `[["all",["emit","x","any"],"number"],"any"]` accepts a string by its second alternative, and `x` is emitted.
* `C99_violation_rejected`: C99 does not hold for rejected subjects: a failed validation leaves emitted values.

**C100 Integer getters: result for every value** (src/imtjson/stringValue.cpp:37-62, src/imtjson/basicValues.h:93-118, src/imtjson/value.h:260-310)

* `C100_violation_wraps`: C100 does not hold across the types: a stored integer that the type of the getter cannot hold is wrapped modulo 2^64 without notice (basicValues.h:99-100). Every unsigned number from 2^63 up reads as a negative integer, every negative number as a huge unsigned one.
* `C100_violation_undefined`: C100 does not hold for large floating point numbers: the conversion is undefined behaviour for every number whose integer part does not fit (and for infinities), and nothing in the library prevents it.
* `C100_violation_from_text`: C100 does not hold: the JSON texts `1e30` and `-1` lead to undefined behaviour and to 2^64-1 in `getUInt`, whatever the rounding of large numbers.
* `C100_violation_other_types`: C100 does not hold as documented: "Automatic conversion is limited to numbers only … The function returns zero for other types" (value.h:262-266), but booleans and strings are converted, and a string is even read as a JSON text that may hold another string; what follows the number is ignored.

**C101 Truth value as documented** (src/imtjson/value.h:303-311, src/imtjson/arrayValue.h:23, src/imtjson/objectValue.h:22)

* `C101_violation_empty`: C101 does not hold: an empty array or object that is not the shared empty value is true although "empty object or empty array" is documented as false. Such values come from `Value(StringView<Value>)`, from the binary parser, from set operations and from committing an array of undefined items. The same holds for an empty binary string.
* `C101_violation_equal_arrays`: C101 does not hold: the truth value of equal empty arrays depends on how they were made.
* `C101_violation_uninitialised`: C101 does not hold for precise floating point numbers: until a numeric getter has been called, `getBool` reads an uninitialised member (stringValue.cpp:214-217), for every such number.

**C102 getValueOrDefault** (src/imtjson/value.h:1100-1140)

* `C102_violation_narrow`: C102 does not hold for the 32-bit overloads: the stored number is silently reduced modulo 2^32; 2^32 reads as zero, and 3000000000 as a negative `int`.

**C103 Value::preciseNumber** (src/imtjson/value.cpp:727-747, src/imtjson/parser.h:753-807)

* `C103_violation_reads_behind`: C103 does not hold: the digit behind the view becomes part of the number. The view "12" of the text "123" gives 123.
* `C103_violation_out_of_bounds`: C103 does not hold: for every number, a view at the very end of its memory is read past that end.
* `C103_violation_accepts_non_json`: C103 does not hold: texts that are no JSON numbers are accepted and later written unchanged as JSON.

**C105 Doubles are printed as JSON numbers** (src/imtjson/serializer.h:257-364)

* `C105_violation_nan`: C105 does not hold for NaN: it is printed as infinity (serializer.h:272-276).

**C106 Printing a double is defined** (src/imtjson/serializer.h:285-322)

* `C106_violation_anywhere`: C106 does not hold for documents in which such a number occurs anywhere: writing the document is undefined.
* `C106_violation_subnormal`: C106 does not hold for numbers closer to zero: below 10^-309 the exponent found is less than -308, `pow(0.1, -309)` is infinite (it exceeds the largest double), and the infinite product is converted to an integer, which is undefined (serializer.h:305, 320).

**C107 Printed doubles are accurate** (src/imtjson/serializer.h:285-338)

* `C107_violation_lossy`: Printing a double does not determine it: at the highest precision two neighbouring doubles next to 1/3 have one text.

**C109 JSON numbers are read as numbers** (src/imtjson/parser.h:450-502, src/imtjson/parser.h:589-749)

* `C109_violation_zero`: C109 does not hold for zero with a large exponent: `0e309` is zero times infinity, that is NaN (parser.h:737), which is printed as infinity.
* `C109_violation_fraction`: C109 does not hold for long fractions: with 309 decimals, the first of them not zero, the number collected overflows, and so does the power of ten; infinity divided by infinity is NaN (parser.h:672, 681).
* `C109_violation_overflow`: A number in range is read as infinity when its exponent alone is not: `0.001e310`.

**C110 JSON numbers are read accurately** (src/imtjson/parser.h:589-749)

* `C110_violation_fraction`: C110 needs the bound on the fraction: with 309 decimals the power of ten is infinite and the number collected divided by it is zero, whatever the exponent (parser.h:672): `0.00…01e22` with 309 decimals is read as 0, not as 10^-287.

**C111 JSON numbers are read correctly rounded** (src/imtjson/parser.h:450-502, src/imtjson/parser.h:667-749)

* `C111_violation_sum`: C111 does not hold for numbers with integer part and fraction: `1.14` is the sum of 1 and the double next to 0.14, rounded again, and not the double next to 1.14 (parser.h:704).
* `C111_violation_negative`: C111 does not hold for negative exponents: `3e-1` is three times the double next to 0.1, which is not the double next to 0.3; so `3e-1` and `0.3` become different numbers (parser.h:733).

**C113 Nested editors edit in place** (src/imtjson/edit.h:10-31, src/imtjson/object.cpp:208-215, src/imtjson/array.cpp:164-171)

* `C113_violation_commit`: C113 does not hold with `commit()` of an editor: after `commit()` the editor is back at the value it was made from (`revert()`), not at the committed one. What is done with it afterwards replaces what was committed: for every object `ms` under a key, setting `x`, committing, setting `y` and leaving the block gives `ms` with `y`, without `x`.
* `C113_violation_reverse_clear`: C113 does not hold with `reverse()` (excluded by `Legal`): `reverse()` makes a new array without base, so a following `clear()` leaves an editor that counts as unchanged, and the parent keeps the old array `[null, true]` instead of the empty one.

**C115 Elliptic curve signatures are stored and read faithfully** (src/imtjson/jwtcrypto.h:105-124, src/imtjson/jwtcrypto.h:144-166, src/imtjson/jwtcrypto.h:261-285)

* `C115_violation_es512`: C115 does not hold for ES512: the length used is 64 bytes (jwtcrypto.h:164) while the numbers of that curve have up to 66. Whatever the second number is, a first number above 2^512 moves the pointer in front of the buffer (undefined behaviour).
* `C115_violation_es512_usual`: This is the rule: only one of 511 numbers of the curve is below 2^512.
* `C115_violation_es512_cut`: The other case: only the second number is too long. The signature is cut.

**C116 Only signatures of the right length are accepted** (src/imtjson/jwtcrypto.h:115-143, src/imtjson/jwtcrypto.h:280-285)

* `C116_violation_length`: C116 does not hold: the length of a signature is not checked (RFC 7518, 3.4: a signature of ES256 that is not a 64-octet sequence must be refused). A zero in front of each half changes the signature, not its acceptance.

**C117 RSA signing returns a signature or fails** (src/imtjson/jwtcrypto.h:25-70, src/imtjson/jwtcrypto.h:170-204)

* `C117_violation_failure`: C117 does not hold when `RSA_sign` fails (for instance without a private key): the result is not looked at (jwtcrypto.h:54, 61, 68), 1024 uninitialised bytes of the stack are returned as signature and become part of the token.
* `C117_violation_long`: C117 does not hold for keys of more than 8192 bits: the buffer of 1024 bytes is overrun.

**C119 A remote call returns what the method computes** (src/imtjson/rpc.cpp:559-576, src/imtjson/rpc.cpp:112-151, src/imtjson/rpc.cpp:656-677)

* `C119_violation_undefined`: C119, violation. In version 2 a method with an undefined result answers with a message the client does not take for a response: the call stays pending.

**C121 Values sharing one dictionary of keys** (src/imtjson/binjson.h:28-37, src/imtjson/binjson.h:80-96, src/imtjson/binjson.tcc:450-509)

* `C121_violation_values`: C121 does not hold for the values C18 fails for: a text whose first byte is above 0x7F and below 0xC0 and an empty binary value are read back as other values; what follows them is read right.

**C122 The dictionary of keys does not read released memory** (src/imtjson/binjson.h:75-109, src/imtjson/binjson.tcc:450-474)

* `C122_violation_released`: C122 fails: a value with a key is serialised and released, then the next value with that key is serialised; the key is compared with the released memory. Whatever the hash and the values.

**C123 A reset codec is as new** (src/imtjson/compress.tcc:22-29, src/imtjson/compress.tcc:298-303)

* `C123_violation_long`: C123 violated. Between whole texts: the dictionary the optimizer prepares is left by the reset, so a compressor that has compressed `bbbb` and was reset writes another stream for a text of many `a` followed by `bb` than a new compressor does. It uses the first code of the replaced dictionary for `bb`, where every reader has `aa`.
* `C123_violation_character`: C123 violated. A compressor reset after the first byte of a two-byte character takes the first character of the next text for the rest of that character: `A` is written as the code of `[`.
* `C123_violation_decompressor`: C123 violated. A decompressor reset between the characters of a sequence returns the rest of the sequence before the next text: of `aaa` two characters are read, then `b` is read as `ab`.
* `C123_violation_lost`: C123 violated. What a compressor writes after `bbbb` and reset is not the text: a new decompressor never returns the `b` the text ends with.

**C124 RPC notifications arrive whole and are never answered** (src/imtjson/rpc.cpp:formatNotify, src/imtjson/rpc.cpp:RpcNotify::RpcNotify, src/imtjson/rpc.cpp:RpcNotify::asRequest)

* `C124_violation_context`: C124 violated. A context is written to the message but not read from it: it is lost for every notification that has one.

**C125 Notifications are sent exactly while allowed** (src/imtjson/rpc.cpp:RpcRequest::RequestData::sendNotify, src/imtjson/rpc.cpp:RpcRequest::RequestData::postSendResponse, src/imtjson/rpc.h:RpcFlags)

* `C125_violation_reenter`: C125 violated. A callback that, given a notification, answers the request and then takes the notification: notifications are enabled after the response although the flag for that is missing.
* `C125_violation_enabled`: C125 violated. The documentation of `sendNotify` says that there is no way to enable notifications again once they are disabled, so the sender may forget the observer. A request with the flag for notifications after the response refuses them before the response and sends them after it.

**C126 Values one after another in a stream are read one after another** (src/imtjson/parser.h:Value::parse, src/imtjson/parser.h:Reader, src/imtjson/parser.h:parseNumber)

* `C126_violation_number`: C126 violated. A number takes one character more from the stream: `1` written before `[2,3]` is read as 1, and the next call finds `2,3]`, returns the number 2 without any error and takes the comma as well; the array is lost. With one parser for both the array is read.

**C128 Binary values survive JSON text** (src/imtjson/serializer.h:164-176, src/imtjson/serializer.h:403-430, src/imtjson/binary.cpp:22-160)

* `C128_violation_utf8`: C128 does not hold for the UTF-8 encoding: of 255 letters and one byte 0xFF the last byte is lost when the value is printed, because the two bytes of its text go to different chunks and each chunk is decoded on its own.
* `C128_violation_direct`: C128 does not hold for the direct encoding: the byte 0xC3 alone is dropped from the text.
* `C128_violation_infinity`: C128 does not hold for the direct encoding of the bytes of "∞": they come back as a number, whose bytes are none.

**C129 A decoded binary value remembers its encoding** (src/imtjson/base64.cpp:124-133, src/imtjson/binary.cpp:14-31, src/imtjson/binary.h:44-68)

* `C129_violation_base64url`: C129 does not hold for base64url: the decoder labels every value `base64` (base64.cpp:128), so the bytes come back as base64 text with another alphabet and padding, for every non-empty text.
* `C129_violation_text`: C129 does not hold for base64url: `"-w"` is printed as `"+w=="` after decoding.
* `C129_violation_keyed`: C129 does not hold for a binary value that is a member of an object: the `Binary` keeps the keyed proxy and `Binary::getEncoding` reads it as a `StringValue` (undefined, binary.cpp:14-16, stringValue.cpp:115).
* `C129_violation_wrapped`: C129 does not hold for a binary value wrapped by `makeValue`, with or without a key: printing it and `toString` read the wrapper as a `StringValue` (undefined, serializer.h:169, value.cpp:76).

**C130 c_str is the string with a terminating zero** (src/imtjson/string.cpp:25-61, src/imtjson/string.cpp:114-124, src/imtjson/string.cpp:164-200)

* `C130_violation_part`: C130 does not hold for parts of strings: for every part that does not reach the end of its string, `c_str` gives the rest of the whole string instead of the part.
* `C130_violation_split`: C130 does not hold: the first part of `"a,b"` split at the comma is `"a"`, its `c_str` reads `"a,b"`.
* `C130_violation_empty`: C130 does not hold for the empty string, nor for a `String` made from another value: `c_str` is a null pointer. With the length, which is zero, nothing is read.

**C131 getValueOrDefault for C strings returns a usable pointer** (src/imtjson/value.cpp:877-879, src/imtjson/value.cpp:61-83, src/imtjson/binary.cpp:110-153)

* `C131_violation_binary`: C131 does not hold for strings with a binary encoding: the pointer is into an object which is released before the caller gets it, whatever the encoding and the contents.
* `C131_violation_base64`: C131 does not hold: the pointer for the bytes `"abc"` in base64 is dangling.

**C132 Filling a string is checked** (src/imtjson/stringValue.h:48-57, src/imtjson/stringValue.cpp:18-24, src/imtjson/stringValue.cpp:74-78)

* `C132_violation_unwritten`: C132 (another limit of the check): a function which returns more than it wrote makes a string of bytes nobody wrote; reading it is undefined, except for the first seven bytes, which are the mark of the allocation.
* `C132_violation_overflow`: C132 (the limit of the check): a function which writes behind the block has done so before the check.

**C135 The RPC client uses its shared members under its lock** (src/imtjson/rpc.cpp:528-705, src/imtjson/rpc.cpp:764-771, src/imtjson/rpc.cpp:819-823)

* `C135_violation_parseResponse`: C135 does not hold with `parseResponse`: it searches and changes the map of pending calls without the lock (rpc.cpp:634-639), at once with another thread that cancels a call.

**C137 The parser's scratch memory does not influence its results** (src/imtjson/parser.h:60-67, src/imtjson/parser.h:193-197, src/imtjson/parser.h:284-388)

* `C137_violation_abandoned`: Violation: values read before an error stay in `tmpArr` for good; a parser used for a sequence of messages keeps one more set of values alive for every message with an error (parser.h:315-318, 336-338, 357-361 do not cut `tmpArr`).

**C138 A ParseError tells where the text is wrong** (src/imtjson/parser.h:209-254, src/imtjson/parser.h:299-332, src/imtjson/parser.h:354-382)

* `C138_violation_nested`: Violation: the error is in item 2 of item 0, reported is item 2 of item 2.
* `C138_violation_object`: Violation: the error is in the object that is item 0, reported is item 2, the number of its members read so far.

**C139 Numbers shared by threads can be read without synchronisation** (src/imtjson/stringValue.cpp:177-227, src/imtjson/stringValue.h:60-95, src/imtjson/basicValues.h:93-118)

* `C139_violation_race`: C139, violation. Two threads that ask a shared number parsed from `1.5` for its value reach a data race: both have found it not cached and are about to store `n`. A data race is undefined behaviour, although sharing of values is said to need no synchronisation.
* `C139_violation_order`: C139, violation. When the two stores of `cacheValue` take effect in the other order, which nothing forbids, a thread reads a number that has not been set.
* `C139_violation_bool`: C139, violation. What `getBool` of a shared number gives to one thread depends on whether another thread has asked for its value already: the number is read as set or as indeterminate, although no access overlaps another.

**C140 A request lives exactly as long as it is held and ends with one answer** (src/imtjson/rpc.cpp:714-734, src/imtjson/rpc.cpp:840-872, src/imtjson/rpc.h:268-300)

* `C140_violation_kept`: C140 is violated when the callback keeps the request it is given: the error sent from the destructor (rpc.cpp:714-726) hands out a pointer to the request being destroyed. The memory goes while that pointer is held, and letting go of the pointer touches it again (and the counter, reaching zero once more, runs the destructor a second time).
* `C140_violation_kept_always`: In general: after any program has let go of the last pointer to a request executed by a living server and not answered, with a callback that keeps at least one pointer, every further use of it (copy, answer, execution or drop) is undefined.
* `C140_violation_server`: C140 is violated when the server goes first: a request put aside by a method (an asynchronous answer) keeps the bare pointer `srvsvc` (rpc.h:278); letting go of it after the server has been destroyed calls `formatError` of an object that no longer exists (rpc.cpp:718).
* `C140_violation_unexecuted`: C140 is violated for a request nobody has executed: it is dropped without any answer (rpc.cpp:716 – no server, no error), though its callback waits for one.

**C141 Iteration visits every item once and walk every node not below a refused one** (src/imtjson/value.h:1188-1226, src/imtjson/value.h:1275-1283, src/imtjson/container.h:102-110)

* `C141_violation_index`: C141 is violated by containers of more than 2^32 items: `itemAtIndex` compares the whole index with the size, but `Container::operator[]` takes an `unsigned int` (container.h:102-110), so items from 2^32 on cannot be read – the first items are returned in their place.
* `C141_violation_index_list`: With distinct items the result is wrong: the loop over 0, 1, 2, ..., 2^32 sees 0 in the last place.
* `C141_violation_far`: C141 is violated for long steps: the type of distances is `Int` (64 bits, value.h:1224), but moving takes an `int` (value.h:1214-1217), so an algorithm which moves an iterator by 2^31 goes backwards, past the begin.
* `C141_violation_past`: C141 is violated by iterators past the end: they are equal to the end, but moved back by one they are not equal to the last item, and the difference of the two equal iterators is not zero.

**C142 Native data survive the conversion to a value and back** (src/imtjson/conv.h:6-140, src/imtjson/value.cpp:142-180, src/imtjson/value.cpp:278-290)

* `C142_violation_neg0`: C142 does not hold for negative zeros: `value == 0` is true for them too (value.cpp:279, 286), so they become the shared zero, whose sign is positive.

**C143 A multicall makes exactly the listed calls** (src/imtjson/rpc.cpp:40-66, src/imtjson/rpc.cpp:366-469)

* `C143_violation_stops`: C143 does not hold for a pair without a name: an empty array, or any value that is not a container, ends the multicall as if there were no more pairs (rpc.cpp:388, 428) – the calls after it are silently not made.

**C144 A remote call over a text stream returns what the method computes** (src/imtjson/rpc.cpp:22-66, src/imtjson/rpc.cpp:112-151, src/imtjson/rpc.cpp:284-318)

* `C144_violation_infinity`: C144, violation. A method called "∞" cannot be called over text: its name arrives as a number and every server answers "Invalid request", whatever it has registered.

**C145 RPC errors reach the caller with code, message and data** (src/imtjson/rpc.cpp:68-74, src/imtjson/rpc.cpp:251-278, src/imtjson/rpc.cpp:736-739)

* `C145_violation_no_server`: C145, violation. On a request not yet given to a server, where `setError` works, `checkArgs` calls a function of a null pointer, whatever the arguments.
* `C145_violation_wide`: C145, violation. A code of another implementation that does not fit `int` is changed by `getErrorCode`: 4294967301 is given as 5.

**C146 map, filter, reduce and sort on objects** (src/imtjson/operations.h:336-353, src/imtjson/operations.h:416-460, src/imtjson/operations.h:493-514)

* `C146_violation_keys`: C146 is false for a function that returns a member of its item, as in `v.map([](Value x){return x["p"];})`: members come with their key, so all results are stored under "p" and all but the last are lost.

**C147 Keys are labels and packed objects stay reachable** (src/imtjson/key.h:19-71, src/imtjson/key.cpp:17-45, src/imtjson/object.cpp:27-35)

* `C147_violation_key_object`: C147 is false for the key object: no function makes an `ObjectProxyString`, so whichever way a key is bound, also by a `String`, `getKeyObject` gives undefined, although "if the String object is used, the function returns the String".

**C148 Built-in RPC methods answer** (src/imtjson/rpc.cpp:335-364, src/imtjson/rpc.cpp:471-491, src/imtjson/rpc.h:740-777)

* `C148_violation_help`: C148, violation. A topic without an entry is not reported: with version 2 the answer is no response for the client and the call stays pending; with version 1 the call ends with the error null.
* `C148_violation_beat`: C148, violation. When the proxy reports by `hearthbeat` that it works on the forwarded request, the caller is answered at once with the registered names alone; the names the proxy sends then are lost.
* `C148_violation_twice`: C148, violation. A name registered on both servers is listed twice; so is the name of this very method when the other server has it as well.

**C150 Base64 decoding accepts only base64** (src/imtjson/base64.cpp:decoderCore, src/imtjson/base64.cpp:Base64Encoding::decodeBinaryValue, src/imtjson/base64.cpp:Base64EncodingUrl::decodeBinaryValue)

* `C150_violation_bits`: C150 is violated by unused bits: the last character of a text with padding can be changed without changing the content, so two different texts (of a JWT signature, say) are the same data.
* `C150_violation_characters`: C150 is violated by characters outside the alphabet: they are not reported, they decode to other data, and change the bits of their neighbour (`A!AA` reads as 0x0F 0xF0 0x00).
* `C150_violation_length`: C150 is violated by the length: a truncated base64 text is the empty string, a base64url text with one character too many loses it.

**C151 Recursive merge of objects** (src/imtjson/object.cpp:Object::recursiveMerge, src/imtjson/object.cpp:Object::applyDiff, src/imtjson/object.cpp:applyDiffImpl)

* `C151_violation_assoc`: C151 is violated: merging is not associative, so the changes of two steps cannot be merged into one in advance: a value that the first step replaces by a scalar comes back.
* `C151_violation_undefined`: C151 is violated by removals below a key the base does not have: the undefined member is copied into the result, which then is no plain object (the test `nw.type() & valueDiff` that should handle it is never true), and merging again changes the result.

**C152 UTF-8 output is one line of well-formed UTF-8** (src/imtjson/serializer.h:writeStringBody, src/imtjson/serializer.h:writeUnicode, src/imtjson/utf8.h:Utf8ToWide)

* `C152_violation_malformed`: C152 violated. Bytes of a string that encode a surrogate are written as they are.
* `C152_violation_long`: C152 violated. A string of 4 GiB continuation bytes: the counter of the decoder wraps around to zero, what it has collected is negative as an `int`, and its low byte, a line feed, is written raw.

**C153 Compressed documents round trip** (src/imtjson/serializer.h:Serializer, src/imtjson/compress.tcc:Compress::operator(), src/imtjson/compress.tcc:Decompress::operator())

* `C153_violation`: C153 does not hold where C01 and C02 do not: compressed with escaped output, the text U+1F600 comes back as U+F600, and the text "∞" as a number, although the decompressor gives back exactly what was compressed.

**C156 Array builders are independent values** (src/imtjson/array.cpp:Array::Array(Array&&), src/imtjson/array.cpp:Array::operator=, src/imtjson/array.cpp:Array::Changes::Changes(Changes&&))

* `C156_violation_moved`: C156 does not hold for builders that were moved away. The builder keeps the size of the part that came from the base although it has no base any more: `size()` is not zero, reading those items, `revert()` and making the array are undefined.
* `C156_violation_cleared`: Even `clear()` does not make it usable: items can be added and read, but an array that is not empty cannot be made.

**C157 toString gives the documented text** (src/imtjson/value.cpp:Value::toString, src/imtjson/value.cpp:Value::getValueOrDefault)

* `C157_violation_min`: C157 does not hold for trees with the smallest integer: undefined, as it is for `stringify` (C01).

**C158 Tokens made with the preferred method are accepted** (src/imtjson/jwt.cpp:58-66, src/imtjson/jwt.cpp:JWTCryptoContainer::getPreferredMethod, src/imtjson/jwt.cpp:JWTCryptoContainer::sign)

* `C158_violation_size`: C158 does not hold for `JWTCrypto_ES` made with another size (for instance 521, the size of the curve of ES512): the preferred method is ES256, which the object does not support. A token with an empty signature is returned without an exception, and the object itself refuses it.
* `C158_violation_container`: C158 does not hold for a container whose preferred key id is not registered (the constructor does not check it): tokens with an empty signature are returned, which the container refuses.

**C159 Keys of tokens survive export and import** (src/imtjson/jwtcrypto.h:JWTCrypto_ES::importPublicKey, src/imtjson/jwtcrypto.h:JWTCrypto_ES::importPrivateKey, src/imtjson/jwtcrypto.h:JWTCrypto_ES::exportPublicKey)

* `C159_violation_leak`: C159 does not hold for the memory of private keys: each successful import leaves a copy of the private number and of the point which nobody releases; a refused one leaves nothing.
* `C159_violation_size`: C159 does not hold for other sizes: importing a private key reads through a null pointer, where a public one is refused.
* `C159_violation_form`: C159 does not hold for exports: `exportPublicKey` (a `const` member) changes the form in which the key is written, so that `exportPublicKeyPEM` gives another text after it than before.

**C160 Numbers of the binary format are read exactly** (src/imtjson/binjson.tcc:BinaryParser<Fn>::parseInteger, src/imtjson/binjson.tcc:362-411, src/imtjson/binjson.tcc:BinaryParser<Fn>::parseNumberFloat)

* `C160_violation_sign`: -2^63 cannot be read, and beyond it the sign is lost.

**C161 Digits of numbers are counted and taken in chunks without loss** (src/imtjson/parser.h:Parser<Fn>::parseUnsigned, src/imtjson/parser.h:Parser<Fn>::parseLargeUnsigned, src/imtjson/parser.h:Parser<Fn>::parseDecimalPart)

* `C161_violation_zeros`: a number that starts with 2^31 or more zeros overflows the counter.

**C162 Character classes are asked for valid characters only** (src/imtjson/validator.cpp:opHex, src/imtjson/validator.cpp:opAlpha, src/imtjson/validator.cpp:opIsIdentifier)

* `C162_violation_rules`: C162 fails: one byte from 0x80 to 0xFE after characters of the class makes each of the tests undefined.
* `C162_violation_compress`: C162 fails: a string of five or more bytes written to the binary format with compression of tokens is undefined when a byte from 0x80 to 0xFE comes before any character that is not of a token. The text rules and identifiers likewise.
* `C162_violation_identifier`: C162 fails: the same for identifiers.
* `C162_violation_date`: C162 fails: a byte from 0x80 to 0xFE in place of the first digit of a date.

**C163 Reading and writing nested documents on a finite stack** (src/imtjson/parser.h:Parser<Fn>::parse, src/imtjson/parser.h:Parser<Fn>::parseArray, src/imtjson/parser.h:Parser<Fn>::parseObject)

* `C163_violation_binary`: C163 fails for the binary parser: whatever the stack is, that many heads of arrays exhaust it, whatever follows.
* `C163_violation_binary_keys`: C163 fails for the binary parser even without containers: each reference to a known key is a call inside of the other, so a value as small as `null` behind enough of them exhausts the stack; one call more is just enough.
* `C163_violation`: C163 fails: whatever the stack is, that many opening brackets exhaust it, whatever follows them. The text need not be a document; a program that reads from a socket is ended by the brackets alone.
* `C163_violation_document`: C163 fails for documents too: a document whose value has more levels than there is room for ends the program, although it is a correct document.
* `C163_violation_writing`: C163 fails when writing: for every stack there is a value, built by `lim` calls of `Array::push_back`, that cannot be written.

**C164 Prepared calls are sent once and their functions are called once** (src/imtjson/rpc.h:901-925, src/imtjson/rpc.h:1023-1035, src/imtjson/rpc.h:1088-1116)

* `C164_violation_resent`: C164, violation. When the sending throws in `>>`, the call is not marked as executed and stays registered. Used again, its request is sent a second time; the function of the sending that succeeded gets the empty result at once, the result goes to the function of the sending that failed.
* `C164_violation_copy`: C164, violation. A copy of a prepared call is not executed by executing the original: its request is sent again under the same identifier and its function gets the empty result.
* `C164_violation_destroy`: C164, violation. Functions of calls pending when the client is destroyed are called after its lock was destroyed: one that uses the client (to try again, for instance) uses what is gone.

**C165 Signing with a shared key works with the whole key or fails** (src/imtjson/jwtcrypto.h:25-33, src/imtjson/jwtcrypto.h:71-100, src/imtjson/jwtcrypto.h:206-238)

* `C165_violation_failure`: C165 does not hold when `HMAC` fails: signing gives the uninitialised bytes of the buffer, and verification accepts exactly these bytes as the signature of any message.
* `C165_violation_key`: C165 does not hold for long keys: the length is cut to 32 bits, so keys of 4 GiB all sign as the empty key does.

**C167 Values are destroyed exactly once, when nothing refers to them any more** (src/imtjson/ivalue.h:179-184, src/imtjson/container.h:90-92, src/imtjson/container.h:123-156)

* `C167_violation_depth`: C167 does not hold on a finite stack: for every stack there is a value that can be built in a loop that needs almost no stack, and the program ends when the value is destroyed.

**C169 Texts of exceptions stay valid and tell what was wrong** (src/imtjson/namedEnum.cpp:15-38, src/imtjson/value.cpp:749-754, src/imtjson/namedEnum.h:92-107)

* `C169_violation_number`: C169 does not hold for numbers asked twice: each `what()` releases the text the one before returned, although only functions that leave the exception unchanged are called; reading it then is undefined. For every text.
* `C169_violation_zero`: C169 does not hold for names with a zero byte: the text ends there, the list of known names is not seen.

**C170 A document cut short is not taken for a whole one** (src/imtjson/parser.h:265-386, src/imtjson/parser.h:575-584, src/imtjson/binjson.tcc:341-347)

* `C170_violation_number`: C170 fails for numbers: of any integer with more than one digit every first part is accepted, as another number.
* `C170_violation_binary`: C170 fails for binary documents from a source that returns -1 at its end, like those of streams.h:26-73: the missing bytes are taken for 0xFF. The number 1500 cut in the middle is read as 65500.

**C171 Equal values have equal texts, and equal texts come from equal values** (src/imtjson/value.cpp:323-326, src/imtjson/basicValues.cpp:109-150, src/imtjson/basicValues.h:104-112)

* `C171_violation_equal`: C171, violation. Equal numbers have other texts: the integer 2^62 and the double 2^62; the number 1 and the precise number 1.0; integers which round to the same double. A string and a binary string with the same bytes are equal and have other texts.
* `C171_violation_text`: C171, violation. Values with the same text are not equal: undefined and another undefined or the string `undefined`; the infinity and the string `∞` or not a number; neighbouring doubles; a string and the same string with an incomplete character; in escaped output a character above U+FFFF and the one with the same low 16 bits.

**C172 A compressed text cut short gives a first part of the text or an error** (src/imtjson/compress.tcc:71-135, src/imtjson/compress.tcc:179-345, src/imtjson/compress.h:158-198)

* `C172_violation`: C172, what goes wrong. The compressed form of a text of 287 letters, cut inside its last but two codes: the decompressor ends without an error, and what it made is not a first part of the text (`…adca` for `…adheo`).

**C173 A compressed document cut short gives its value or an error** (src/imtjson/compress.tcc:71-135, src/imtjson/compress.tcc:179-345, src/imtjson/compress.tcc:15-20)

* `C173_violation`: C173, what goes wrong. The compressed form of the document `[["…"],"YZnh"]` with 278 letters in the place of the dots has 293 bytes. The first 288 of them are read, without any error, as the document `[["…"],"YZ"]`.
* `C173_violation_number`: C173 for numbers. The compressed form of the number 12, cut after its first byte, is read as 1.

**C174 What was read is written and read again as the same value** (src/imtjson/parser.h:257-572, src/imtjson/serializer.h:90-253, src/imtjson/value.cpp:85-126)

* `C174_violation`: C174 does not hold for a byte that begins no character: the text `"þA"` of another code page (bytes 0xFE 0x41) is read as the string of these bytes; it is written as U+00FE and `A`, and that is read as another string.
* `C174_violation_astral`: C174 does not hold for escaped output of characters above U+FFFF.
