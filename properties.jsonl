{"id": "C01", "title": "Text round trip (UTF-8 output)", "statement": "Serialising a value with stringify(emitUtf8) and parsing the text back with Value::fromString gives an equal value, and parsing stops exactly at the end of the text.", "quantifier": "every value tree built from null, booleans, 64-bit integers, precise numbers, well-formed UTF-8 strings, arrays and objects with distinct keys; every nesting depth and size", "why_tests_cant": "Tests try a handful of documents; the claim ranges over all trees, all strings and all nesting depths, and over the interplay of escaping, number formatting and key ordering.", "anchors": ["src/imtjson/serializer.h:Serializer", "src/imtjson/parser.h:Parser", "src/imtjson/value.cpp:Value::fromString"]}
{"id": "C02", "title": "Text round trip (escaped output)", "statement": "Serialising with stringify() (default escaped output) and parsing back gives an equal value.", "quantifier": "every value tree as in C01, with strings over all Unicode scalar values", "why_tests_cant": "Needs every string; characters outside the BMP are rarely used in unit tests and are exactly where the escaped form loses bits.", "anchors": ["src/imtjson/serializer.h:writeUnicode", "src/imtjson/parser.h:parseUnicode"]}
{"id": "C03", "title": "Escaped output is printable ASCII", "statement": "In escaped mode every byte emitted by stringify is in 0x20..0x7F, whatever bytes the strings and keys contain, so the output is safe for any ASCII transport and never contains raw control characters.", "quantifier": "every value tree, strings being arbitrary byte sequences (also malformed UTF-8)", "why_tests_cant": "Ranges over all byte strings, including malformed UTF-8 that tests do not enumerate.", "anchors": ["src/imtjson/serializer.h:writeStringBody", "src/imtjson/serializer.h:writeUnicode", "src/imtjson/utf8.h:Utf8ToWide"]}
{"id": "C04", "title": "Serializer output conforms to the JSON grammar", "statement": "stringify always emits text derivable from an independent RFC 8259 grammar, denoting the same value (unprintable values such as undefined become a defined JSON value).", "quantifier": "every value tree with finite numbers and well-formed strings", "why_tests_cant": "Grammar conformance over all trees is a universally quantified statement; tests check a few strings.", "anchors": ["src/imtjson/serializer.h:Serializer"]}
{"id": "C05", "title": "Parser accepts all JSON", "statement": "Every text derivable from the RFC 8259 grammar (any whitespace, any escapes, any nesting, unique keys) is accepted and yields the value the grammar assigns to it.", "quantifier": "every grammatical text; every placement of whitespace and escape choice", "why_tests_cant": "An infinite language; tests sample it.", "anchors": ["src/imtjson/parser.h:Parser::parse", "src/imtjson/parser.h:readString", "src/imtjson/parser.h:parseNumber"]}
{"id": "C06", "title": "Parser is total and stays inside its input", "statement": "fromString terminates on every byte string, either returns a value or throws ParseError, and what it leaves unread is a suffix of its input (it never invents or reorders input).", "quantifier": "every byte sequence", "why_tests_cant": "Non-termination/over-read on some adversarial input cannot be excluded by examples.", "anchors": ["src/imtjson/parser.h:Reader", "src/imtjson/parser.h:Parser", "src/imtjson/value.cpp:Value::fromString"]}
{"id": "C07", "title": "Integer literals are exact or become floating point", "statement": "A decimal integer literal that fits the 64-bit range is parsed to exactly that integer; any other one is never silently wrapped but goes to the floating point path.", "quantifier": "every digit string of any length, with or without sign", "why_tests_cant": "Overflow detection is correct only if it is correct for each of the 2^64 boundary situations.", "anchors": ["src/imtjson/parser.h:parseUnsigned", "src/imtjson/parser.h:parseNumber"]}
{"id": "C08", "title": "Integers are printed exactly", "statement": "The text written for a 64-bit integer is its canonical decimal representation (no leading zeros, '-' only for negatives), and the parser reads it back to the same integer.", "quantifier": "every signed and unsigned 64-bit integer", "why_tests_cant": "2^65 cases.", "anchors": ["src/imtjson/serializer.h:writeUnsigned", "src/imtjson/serializer.h:writeSigned", "src/imtjson/parser.h:parseNumber"]}
{"id": "C09", "title": "Duplicate keys are rejected", "statement": "Parsing an object text in which a key occurs twice throws; with the allowDupKeys flag it is accepted and the result has one member per key.", "quantifier": "every list of members, every position of the duplicates", "why_tests_cant": "Detection relies on sort+dedupe counting; must hold for all orders of all keys.", "anchors": ["src/imtjson/parser.h:parseObject", "src/imtjson/value.cpp:Value::Value(ValueType,StringView<Value>,bool)", "src/imtjson/objectValue.cpp:ObjectValue::sort"]}
{"id": "C10", "title": "Precise numbers keep their text", "statement": "With allowPreciseNumbers the parser keeps the exact source text of a number, and serialising writes that text back unchanged.", "quantifier": "every number token", "why_tests_cant": "All numerals of any length.", "anchors": ["src/imtjson/parser.h:parsePreciseNumber", "src/imtjson/stringValue.h:PreciseNumberValue", "src/imtjson/serializer.h:serializeNumber"]}
{"id": "C11", "title": "Integer view of numeric strings", "statement": "Asking a numeric string (or precise number) for an integer returns exactly the integer when it fits 64 bits and never a wrapped value.", "quantifier": "every decimal numeral of any length", "why_tests_cant": "The overflow check must be right for each numeral length and leading digits.", "anchors": ["src/imtjson/stringValue.cpp:numberFromStringRaw", "src/imtjson/value.h:Value::getUInt"]}
{"id": "C12", "title": "UTF-8 codec round trip", "statement": "Encoding code points to UTF-8 and decoding gives the original code points, and decoding well-formed UTF-8 and re-encoding gives the original bytes.", "quantifier": "every sequence of Unicode code points (0..0x10FFFF, surrogates included), every decoder state left by earlier input; every well-formed byte sequence", "why_tests_cant": "All sequences, streaming state across characters.", "anchors": ["src/imtjson/utf8.h:WideToUtf8", "src/imtjson/utf8.h:Utf8ToWide"]}
{"id": "C13", "title": "Wide string round trip", "statement": "String(std::wstring).wstr() returns the original wide string.", "quantifier": "every wide string of Unicode code points (0..0x10FFFF)", "why_tests_cant": "All strings.", "anchors": ["src/imtjson/string.cpp:String::wstr", "src/imtjson/utf8.h"]}
{"id": "C14", "title": "Base64 round trip", "statement": "Decoding the base64 text of a byte string gives the byte string; the text has length 4*ceil(n/3), uses only the base64 alphabet and '=' padding.", "quantifier": "every byte string, including lengths crossing the internal chunk size of the encoder", "why_tests_cant": "All lengths mod 3 and all chunk boundaries; content-dependent.", "anchors": ["src/imtjson/base64.cpp:Base64Encoding", "src/imtjson/base64.cpp:decoderCore", "src/imtjson/base64.cpp:encodeCore"]}
{"id": "C15", "title": "Base64url round trip without padding", "statement": "Encoding bytes with base64url and decoding gives the same bytes; the text contains no padding and only URL-safe characters.", "quantifier": "every byte string", "why_tests_cant": "All lengths and contents.", "anchors": ["src/imtjson/base64.cpp:Base64EncodingUrl"]}
{"id": "C16", "title": "URL encoding round trip", "statement": "Percent-encoding any byte string and decoding gives it back, and the encoded text contains only unreserved characters and %XX triplets.", "quantifier": "every byte string", "why_tests_cant": "All 256 byte values in all combinations.", "anchors": ["src/imtjson/binary.cpp:UrlEncoding"]}
{"id": "C17", "title": "UTF-8 binary encoding round trip", "statement": "The utf8 binary encoding (each byte emitted as one code point) decodes back to the same bytes and always emits well-formed UTF-8.", "quantifier": "every byte string", "why_tests_cant": "All byte values in all sequences; streaming converter state.", "anchors": ["src/imtjson/binary.cpp:UTF8Encoding"]}
{"id": "C18", "title": "Binary JSON round trip", "statement": "parseBinary(serializeBinary(v)) reproduces v, including keys bound to array items, undefined, 64-bit integers, doubles bit for bit, and consumes exactly the bytes written.", "quantifier": "every value tree, every combination of the flags compressKeys / compressTokenStrings / maintain32BitComp", "why_tests_cant": "State shared by writer and reader (key dictionary) depends on the whole history.", "anchors": ["src/imtjson/binjson.tcc:BinarySerializer", "src/imtjson/binjson.tcc:BinaryParser"]}
{"id": "C19", "title": "Binary key dictionary stays synchronised", "statement": "For every sequence of keys the back-references emitted by the serializer are resolved by the parser to the same keys, including after more than 128 distinct keys (ring overwrite).", "quantifier": "every finite sequence of keys", "why_tests_cant": "Ring overwrite and distance limit interplay over unbounded histories.", "anchors": ["src/imtjson/binjson.tcc:tryCompressKey", "src/imtjson/binjson.tcc:storeKey", "src/imtjson/binjson.tcc:parseItem"]}
{"id": "C20", "title": "Token string compression is lossless", "statement": "The 6-bit packing of token strings ([A-Za-z0-9_-], longer than 4) decodes to the same string and never writes or reads outside its buffers.", "quantifier": "every token string", "why_tests_cant": "All lengths mod 4 and contents; uninitialised tail bytes must not matter.", "anchors": ["src/imtjson/binjson.tcc:serializeString", "src/imtjson/binjson.tcc:parseString"]}
{"id": "C21", "title": "Binary parser terminates on any stream", "statement": "parseBinary on any byte stream (also truncated, where the source keeps returning end-of-file) terminates with a value or an exception.", "quantifier": "every byte stream", "why_tests_cant": "Adversarial and truncated inputs are unbounded.", "anchors": ["src/imtjson/binjson.tcc:BinaryParser::parseItem"]}
{"id": "C22", "title": "Hash is consistent with equality", "statement": "Values that compare equal have equal std::hash.", "quantifier": "every pair of values", "why_tests_cant": "Quantifies over pairs; needs the canonical-form argument.", "anchors": ["src/imtjson/value.cpp:std::hash<json::Value>", "src/imtjson/abstractValue.cpp", "src/imtjson/basicValues.h"]}
{"id": "C23", "title": "Objects are canonical: sorted, unique, last one wins", "statement": "Constructing an object from a list of keyed values gives members sorted by key, without duplicates, each key mapped to the last value given for it (undefined entries dropped).", "quantifier": "every list of keyed values in every order", "why_tests_cant": "All permutations and duplicates; two code paths (already ordered / unordered).", "anchors": ["src/imtjson/value.cpp:Value::Value(ValueType,StringView<Value>,bool)", "src/imtjson/objectValue.cpp:ObjectValue::sort"]}
{"id": "C24", "title": "Member lookup is correct", "statement": "value[key] returns the member with that key if present and undefined otherwise.", "quantifier": "every object value and every key", "why_tests_cant": "Binary search correctness for all sizes.", "anchors": ["src/imtjson/objectValue.cpp:ObjectValue::findSorted", "src/imtjson/objectValue.cpp:ObjectValue::member"]}
{"id": "C25", "title": "Object builder behaves as a map", "statement": "After any sequence of set/unset/clear/revert on an Object builder over any base, reading a key and committing give exactly the finite map those operations describe; reads are the same before and after internal reorganisation.", "quantifier": "every base object and every finite sequence of operations", "why_tests_cant": "History-dependent: reorganisation is triggered by the number of operations (8, 16, 32...).", "anchors": ["src/imtjson/object.cpp:Object::set_internal", "src/imtjson/object.cpp:Object::operator[]", "src/imtjson/object.cpp:Object::optimize", "src/imtjson/object.cpp:Object::commit"]}
{"id": "C26", "title": "Committed values are snapshots", "statement": "A Value obtained from an Object or Array builder, the builder's base and copies of the builder are never changed by later operations on any builder.", "quantifier": "every interleaving of operations on any number of builders sharing structure", "why_tests_cant": "Aliasing over all histories.", "anchors": ["src/imtjson/object.cpp:Object", "src/imtjson/array.cpp:Array", "src/imtjson/container.h:Container"]}
{"id": "C27", "title": "Iterating an Object builder shows its current content", "statement": "begin()/end() on an Object builder enumerate exactly the members its commit would have.", "quantifier": "every sequence of operations, with iterations interleaved at any points", "why_tests_cant": "Stale cached snapshot appears only for particular interleavings.", "anchors": ["src/imtjson/object.cpp:Object::begin", "src/imtjson/object.cpp:Object::end", "src/imtjson/object.cpp:Object::clear", "src/imtjson/object.cpp:Object::revert"]}
{"id": "C28", "title": "Diff/patch inverse", "statement": "Applying the diff created between two objects to the first gives the second.", "quantifier": "every pair of object values", "why_tests_cant": "All pairs of key sets and values, added/removed/changed interleavings in the merge.", "anchors": ["src/imtjson/object.cpp:Object::createDiff", "src/imtjson/object.cpp:Object::applyDiff", "src/imtjson/object.cpp:applyDiffImpl"]}
{"id": "C29", "title": "Recursive diff/patch inverse", "statement": "Applying a recursively created diff (depth > 0) gives the second object.", "quantifier": "every pair of objects and every recursion depth", "why_tests_cant": "All nestings.", "anchors": ["src/imtjson/object.cpp:Object::createDiff", "src/imtjson/object.cpp:applyDiffImpl"]}
{"id": "C30", "title": "setItems updates a map", "statement": "v.setItems(list) has the members of v overridden by the list, with undefined removing the key; other members unchanged; the result is again a sorted object.", "quantifier": "every object, every list of updates", "why_tests_cant": "Merge of two sorted sequences, all interleavings.", "anchors": ["src/imtjson/value.cpp:Value::setItems"]}
{"id": "C31", "title": "Object equality ignores construction order", "statement": "Two objects built from lists describing the same key/value map are equal.", "quantifier": "every pair of lists with the same last-value map", "why_tests_cant": "All permutations.", "anchors": ["src/imtjson/value.cpp:Value::Value(ValueType,StringView<Value>,bool)", "src/imtjson/objectValue.cpp"]}
{"id": "C32", "title": "Array builder behaves as a list", "statement": "Any sequence of push_back/add/insert/erase/set/trunc/clear/revert/reverse on an Array builder followed by size/[]/commit equals the same operations on a plain list (undefined items dropped on commit).", "quantifier": "every base array and every finite sequence of in-range operations", "why_tests_cant": "Split base/changes representation; offsets depend on the history.", "anchors": ["src/imtjson/array.cpp:Array::insert", "src/imtjson/array.cpp:Array::erase", "src/imtjson/array.cpp:Array::set", "src/imtjson/array.cpp:Array::trunc", "src/imtjson/array.cpp:Array::commit"]}
{"id": "C33", "title": "Array::insertSet inserts at the given position", "statement": "insertSet(pos, items) inserts the items at pos without touching memory outside the array.", "quantifier": "every builder state, position in range and item list", "why_tests_cant": "State-dependent index arithmetic.", "anchors": ["src/imtjson/array.cpp:Array::insertSet"]}
{"id": "C34", "title": "Array::slice keeps the requested window", "statement": "slice(start,end) of an Array builder leaves exactly the items between start and end, negative values counting from the end.", "quantifier": "every length, every pair of signed indices", "why_tests_cant": "All sign combinations and clamps.", "anchors": ["src/imtjson/array.cpp:Array::slice"]}
{"id": "C35", "title": "Value::slice keeps the requested window", "statement": "slice(start,end) returns the items in [start,end) with negative indices counted from the end, as in JavaScript.", "quantifier": "every array and every pair of signed indices", "why_tests_cant": "All sign combinations and clamps.", "anchors": ["src/imtjson/value.cpp:Value::slice"]}
{"id": "C36", "title": "splitAt partitions a value", "statement": "splitAt(pos) returns two parts whose concatenation is the original, for arrays and strings, and the left part has pos items (or size-|pos| for negative pos), capped.", "quantifier": "every value, every signed position", "why_tests_cant": "All clamps.", "anchors": ["src/imtjson/value.cpp:Value::splitAt", "src/imtjson/string.cpp:String::splitAt"]}
{"id": "C37", "title": "push/pop/shift/unshift are deque operations", "statement": "push then pop returns the pushed value and restores the array, unshift then shift likewise; shift/pop on any array return first/last item.", "quantifier": "every array and item", "why_tests_cant": "All arrays.", "anchors": ["src/imtjson/value.cpp:Value::push", "src/imtjson/value.cpp:Value::pop", "src/imtjson/value.cpp:Value::shift", "src/imtjson/value.cpp:Value::unshift"]}
{"id": "C38", "title": "join concatenates with separators", "statement": "join(sep) returns the string forms of all items separated by sep, using exactly the computed amount of memory, also for an empty array.", "quantifier": "every array of values and every separator", "why_tests_cant": "Length pre-computation must match for all inputs.", "anchors": ["src/imtjson/value.cpp:Value::join"]}
{"id": "C39", "title": "indexOf/lastIndexOf find first/last occurrence", "statement": "indexOf(v,start) returns the smallest index >= start holding an equal item, lastIndexOf the largest one below start, npos iff there is none.", "quantifier": "every array, item and start", "why_tests_cant": "All positions.", "anchors": ["src/imtjson/value.cpp:Value::indexOf", "src/imtjson/value.cpp:Value::lastIndexOf"]}
{"id": "C40", "title": "Path replace obeys get/put laws", "statement": "After replace(path,v) reading the same path gives v, and reading any diverging object path gives what it was before; missing parents are created.", "quantifier": "every value, path and new value", "why_tests_cant": "All depths and mixtures of keys and indices.", "anchors": ["src/imtjson/value.cpp:Value::replace", "src/imtjson/value.cpp:setToPathRev", "src/imtjson/path.cpp:Value::operator[]"]}
{"id": "C41", "title": "Path serialisation round trip", "statement": "Path::fromValue(path.toValue()) denotes the same path.", "quantifier": "every path", "why_tests_cant": "All lengths and mixtures.", "anchors": ["src/imtjson/path.cpp:Path::toValue", "src/imtjson/path.cpp:Path::fromValue"]}
{"id": "C42", "title": "Path comparison is a total order", "statement": "Path compare is reflexive, antisymmetric, transitive and 0 only for paths with the same elements.", "quantifier": "every triple of paths", "why_tests_cant": "Triples of unbounded lists.", "anchors": ["src/imtjson/path.cpp:Path::compare"]}
{"id": "C43", "title": "Value comparison is a total order", "statement": "Value::compare is antisymmetric and transitive, so sorting by it is well defined.", "quantifier": "every triple of values", "why_tests_cant": "Triples of trees, mixtures of number classes.", "anchors": ["src/imtjson/abstractValue.cpp:AbstractValue::compare"]}
{"id": "C44", "title": "Value equality is an equivalence", "statement": "operator== is reflexive, symmetric and transitive.", "quantifier": "every triple of values", "why_tests_cant": "Triples of trees; number classes compared through different paths.", "anchors": ["src/imtjson/value.h:Value::operator==", "src/imtjson/abstractValue.cpp", "src/imtjson/basicValues.h"]}
{"id": "C45", "title": "Ordered find is correct", "statement": "On a container sorted by the comparator, find returns an equal item iff one exists.", "quantifier": "every sorted array, every key and every total preorder", "why_tests_cant": "Binary search for all sizes.", "anchors": ["src/imtjson/operations.h:Ordered::find", "src/imtjson/operations.h:Ordered::lowerBound"]}
{"id": "C46", "title": "uniq keeps one item per class", "statement": "uniq on an ordered container returns a strictly increasing array with the same set of equivalence classes.", "quantifier": "every sorted array", "why_tests_cant": "All repetition patterns.", "anchors": ["src/imtjson/operations.h:Ordered::uniq"]}
{"id": "C47", "title": "Set operations on ordered arrays", "statement": "merge/intersection/complement/symdiff of ordered containers contain exactly the items prescribed by set algebra and remain ordered.", "quantifier": "every pair of sorted arrays", "why_tests_cant": "Two-pointer merge over all interleavings.", "anchors": ["src/imtjson/operations.h:Ordered::comm"]}
{"id": "C48", "title": "split/group partition the input", "statement": "Splitting an array by a comparator yields non-empty consecutive groups whose concatenation is the input.", "quantifier": "every array and comparator", "why_tests_cant": "All boundaries.", "anchors": ["src/imtjson/operations.h:split", "src/imtjson/operations.h:group"]}
{"id": "C49", "title": "Comment filter preserves content", "statement": "CommentedJSON removes exactly the comments: text without comments passes unchanged, comment markers inside strings are kept, and a commented document parses as the document without comments.", "quantifier": "every text", "why_tests_cant": "State machine over all character sequences, including escapes and unterminated comments.", "anchors": ["src/imtjson/comments.h:CommentedJSON"]}
{"id": "C50", "title": "Compression round trip", "statement": "Decompressing the output of the stream compressor gives the original text.", "quantifier": "every UTF-8 text without control characters, of any length, also beyond dictionary overflow and optimisation", "why_tests_cant": "Dictionary states evolve over tens of thousands of symbols; synchronisation must hold at every step, incl. the just-created-code case and dictionary rebuild.", "anchors": ["src/imtjson/compress.tcc:Compress", "src/imtjson/compress.tcc:Decompress"]}
{"id": "C51", "title": "Decompressor is memory safe", "statement": "Decompressing any byte sequence never accesses the dictionary out of range.", "quantifier": "every byte sequence", "why_tests_cant": "Adversarial inputs.", "anchors": ["src/imtjson/compress.tcc:Decompress::decompress"]}
{"id": "C52", "title": "NamedEnum maps names and values both ways", "statement": "Looking up a name gives its value, looking up a value gives its name, unknown names are reported as absent.", "quantifier": "every table with distinct names/values, every query", "why_tests_cant": "All tables; sort + binary search.", "anchors": ["src/imtjson/namedEnum.h:NamedEnum"]}
{"id": "C53", "title": "Date/time validation is exact", "statement": "The validator accepts a 'date' string iff it is YYYY-MM-DD with a real calendar day (leap years included, year >= 1000); likewise 'time' and 'datetime'.", "quantifier": "every string", "why_tests_cant": "10^8 dates and all malformed strings.", "anchors": ["src/imtjson/validator.cpp:checkDateTimeGen"]}
{"id": "C54", "title": "Character-set rules are exact", "statement": "A rule '[...]' accepts a string iff all of its characters are in the listed characters/ranges (or none for '^').", "quantifier": "every set description and every string", "why_tests_cant": "All descriptions; index arithmetic at ends.", "anchors": ["src/imtjson/validator.cpp:opTestCharset"]}
{"id": "C55", "title": "Object rules check every member", "statement": "An object template accepts an object iff each member matches the rule of its key, members without own rule match the '%' rule, and missing keys match as undefined.", "quantifier": "every template and subject", "why_tests_cant": "Merge of two sorted sequences.", "anchors": ["src/imtjson/validator.cpp:Validator::evalRuleObject"]}
{"id": "C56", "title": "A rejection is always reported", "statement": "Whenever validate returns false, getRejections is non-empty.", "quantifier": "every definition, subject and sequence of validate calls", "why_tests_cant": "Depends on the state left by previous calls.", "anchors": ["src/imtjson/validator.cpp:Validator::addRejection", "src/imtjson/validator.cpp:Validator::validate"]}
{"id": "C57", "title": "Validator variables are scoped", "statement": "setvar bindings are visible exactly inside their rule; after validation the variable list is what it was before.", "quantifier": "every rule and subject", "why_tests_cant": "All nestings of rules.", "anchors": ["src/imtjson/validator.cpp:Validator::opSetVar", "src/imtjson/validator.cpp:Validator::findVar"]}
{"id": "C58", "title": "At most one RPC response", "statement": "However a method uses its request object (setResult/setError/exceptions/drop), at most one response with the request's id is sent.", "quantifier": "every sequence of calls on the request", "why_tests_cant": "All interleavings of API calls.", "anchors": ["src/imtjson/rpc.cpp:RpcRequest::RequestData::sendResult", "src/imtjson/rpc.cpp:RequestData::sendError"]}
{"id": "C59", "title": "Every RPC request is answered, notifications never", "statement": "A request with an id executed by the server receives exactly one response once it is released; a request without id (or null id) receives none.", "quantifier": "every method behaviour", "why_tests_cant": "All behaviours.", "anchors": ["src/imtjson/rpc.cpp:RpcServer::exec", "src/imtjson/rpc.h:RpcRequest::create", "src/imtjson/rpc.cpp:RpcRequest::setNoResultError"]}
{"id": "C60", "title": "RPC client calls complete exactly once with their own result", "statement": "Each call issued by the client is completed at most once, by the response carrying its id or by cancellation; responses with unknown ids complete nothing.", "quantifier": "every interleaving of calls, responses, cancellations", "why_tests_cant": "All schedules.", "anchors": ["src/imtjson/rpc.cpp:AbstractRpcClient::processResponse", "src/imtjson/rpc.cpp:AbstractRpcClient::cancelPendingCall", "src/imtjson/rpc.cpp:AbstractRpcClient::genRequestID"]}
{"id": "C61", "title": "RPC context updates", "statement": "Applying a context change sets the non-null members, removes null members and keeps the others.", "quantifier": "every context and change", "why_tests_cant": "All key sets.", "anchors": ["src/imtjson/rpc.cpp:AbstractRpcClient::updateContext"]}
{"id": "C62", "title": "parseJWT never returns unverified content", "statement": "With a crypto object, parseJWT returns a defined value only if verify accepted the exact bytes header.body with the presented signature.", "quantifier": "every token string and every crypto implementation", "why_tests_cant": "All forged tokens.", "anchors": ["src/imtjson/jwt.cpp:parseJWT"]}
{"id": "C63", "title": "JWT round trip", "statement": "A token produced by serializeJWT is accepted by parseJWT with the same crypto object and yields the payload.", "quantifier": "every payload and correct crypto", "why_tests_cant": "All payloads.", "anchors": ["src/imtjson/jwt.cpp:serializeJWT", "src/imtjson/jwt.cpp:parseJWT"]}
{"id": "C64", "title": "JWT time window", "statement": "checkJWTTime returns the token iff nbf <= now <= exp (missing bounds are open).", "quantifier": "every body and time", "why_tests_cant": "All times.", "anchors": ["src/imtjson/jwt.cpp:checkJWTTime"]}
{"id": "C65", "title": "JWT cache is sound and bounded", "statement": "The cache returns for a token only content stored under exactly that token, holds at most 2*limit entries and keeps the most recently stored ones.", "quantifier": "every sequence of store/get/clear", "why_tests_cant": "Histories with swaps.", "anchors": ["src/imtjson/jwt.cpp:JWTTokenCache"]}
{"id": "C66", "title": "String split is inverse of join", "statement": "Splitting a string by a non-empty separator and joining the parts with the separator gives the string back; parts contain no separator when unlimited.", "quantifier": "every string, separator and limit", "why_tests_cant": "All overlaps of separators.", "anchors": ["src/imtjson/string.cpp:String::split"]}
{"id": "C67", "title": "Merge of values", "statement": "merge concatenates arrays and strings, and merges objects key-wise with the other value winning, recursively.", "quantifier": "every pair of values", "why_tests_cant": "All key interleavings.", "anchors": ["src/imtjson/value.cpp:Value::merge"]}
{"id": "C68", "title": "Value::diff terminates and inverts merge on arrays", "statement": "diff of two arrays terminates and gives the remaining part.", "quantifier": "every pair of arrays", "why_tests_cant": "All length combinations.", "anchors": ["src/imtjson/value.cpp:Value::diff"]}
{"id": "C69", "title": "Binary decoders are total and stay in their buffers", "statement": "decodeBinaryValue of every encoding (base64, base64url, urlencoding, utf8encoding) returns a value for any text, malformed or not, without undefined behaviour or abort.", "quantifier": "every byte string", "why_tests_cant": "All malformed texts; overflow detection aborts the process only for rare shapes.", "anchors": ["src/imtjson/base64.cpp:decoderCore", "src/imtjson/binary.cpp:UrlEncoding::decodeBinaryValue", "src/imtjson/binary.cpp:UTF8Encoding::decodeBinaryValue"]}
{"id": "C70", "title": "Binary parser is memory safe", "statement": "parseBinary never executes undefined behaviour (out-of-bounds store, signed overflow), whatever bytes it is given and whichever allocations fail.", "quantifier": "every byte stream, every outcome of memory allocation", "why_tests_cant": "Needs the size arithmetic for all 64-bit lengths and the ring invariant of the key history for all histories.", "anchors": ["src/imtjson/binjson.tcc:BinaryParser::parseArray", "src/imtjson/binjson.tcc:BinaryParser::parseString", "src/imtjson/binjson.tcc:BinaryParser::storeKey", "src/imtjson/container.h:operator new", "src/imtjson/stringValue.cpp:StringValue::operator new"]}
{"id": "C71", "title": "Objects read from binary form are searchable", "statement": "Every object produced by parseBinary has its members sorted by key, so that lookup by name finds every member.", "quantifier": "every byte stream accepted", "why_tests_cant": "Only streams not produced by the library can break it; all of them must be considered.", "anchors": ["src/imtjson/binjson.tcc:BinaryParser::parseObject", "src/imtjson/objectValue.cpp:ObjectValue::findSorted"]}
{"id": "C72", "title": "Character classification is called with valid arguments", "statement": "The parser calls isspace and its relatives only with EOF or values 0..255, so no input makes the call undefined.", "quantifier": "every byte sequence and every kind of source", "why_tests_cant": "Undefined behaviour shows no symptom with common C libraries.", "anchors": ["src/imtjson/parser.h:Reader::nextWs"]}
{"id": "C73", "title": "Parser accepts only JSON and its documented liberties", "statement": "Whenever the parser returns a value, the text consumed is white space followed by a value of an explicit superset of JSON (extra white space characters, '+', leading zeros, '.5', arbitrary characters in strings), brackets, commas, colons, keys and keywords being as in JSON, and the returned value is what the text denotes.", "quantifier": "every byte sequence, every mode", "why_tests_cant": "Acceptance of wrong texts cannot be enumerated.", "anchors": ["src/imtjson/parser.h:Parser::parse", "src/imtjson/parser.h:Parser::parseObject", "src/imtjson/parser.h:Parser::parseArray", "src/imtjson/parser.h:Parser::parseNumber"]}
{"id": "C74", "title": "URL decoder reads every well-formed text", "statement": "Every form-urlencoded text (percent triplets with digits of either case, '+' for a space, other characters for themselves) decodes to the bytes it stands for.", "quantifier": "every well-formed text", "why_tests_cant": "All texts, not only those the encoder produces.", "anchors": ["src/imtjson/binary.cpp:UrlEncoding"]}
{"id": "C75", "title": "Reading behind the end of an array gives undefined", "statement": "For every array value and every index at or above its size, operator[] returns the undefined value.", "quantifier": "every array value, including the windows made by splitAt, and every index", "why_tests_cant": "Windows of windows of any size; a test would have to know which array is a window.", "anchors": ["src/imtjson/arrayValue.cpp:ArrayValue::itemAtIndex", "src/imtjson/value.cpp:SubArray::itemAtIndex"]}
{"id": "C76", "title": "findIndex, filter, map and reverse are the list operations", "statement": "findIndex/rfindIndex return the first/last index whose item satisfies the predicate, filter keeps exactly these items in order, map replaces each item, and reverse reverses the items.", "quantifier": "every array, predicate and function", "why_tests_cant": "All arrays and functions.", "anchors": ["src/imtjson/operations.h:Value::findIndex", "src/imtjson/operations.h:Value::filter", "src/imtjson/operations.h:Value::map", "src/imtjson/value.cpp:Value::reverse"]}
{"id": "C77", "title": "Sorting is a stable sort", "statement": "Ordered::sort returns the items of the container in the order of the comparison function, equivalent items keep their order.", "quantifier": "every container and every lawful comparison function", "why_tests_cant": "All arrays and orders.", "anchors": ["src/imtjson/operations.h:Ordered::SortFn::sort"]}
{"id": "C78", "title": "The generic merge visits everything once", "statement": "merge(liter,lend,riter,rend,fn,undefined) presents each item of both sequences to the function exactly once as a consumed item, in order, and on sorted sequences pairs equal items as often as possible.", "quantifier": "every two sequences and every function", "why_tests_cant": "All sequences and functions.", "anchors": ["src/imtjson/operations.h:merge"]}
{"id": "C79", "title": "Path::copy stays inside its block and copies faithfully", "statement": "Path::copy asks for a block large enough for all elements and all keys with their terminators; its recursive placement never writes outside the block, never overwrites a key already placed, and the copied path has the elements of the original one.", "quantifier": "every path, every size of the Path and PathRef objects, every previous content of the block", "why_tests_cant": "Layout arithmetic for unbounded numbers of keys and indices; an overlap shows only as a damaged key.", "anchors": ["src/imtjson/path.cpp:Path::copy", "src/imtjson/path.cpp:Path::copyRecurse"]}
{"id": "C80", "title": "Value::compare agrees with operator==", "statement": "Value::compare(a,b)==0 exactly when a==b.", "quantifier": "every pair of values", "why_tests_cant": "Two independent recursive definitions over all pairs of trees and number classes.", "anchors": ["src/imtjson/abstractValue.cpp:AbstractValue::compare", "src/imtjson/value.h:Value::operator==", "src/imtjson/basicValues.h:equal"]}
{"id": "C81", "title": "NamedEnum::allEnums lists every name", "statement": "allEnums(sep) returns all the names of the enumeration joined by the separator.", "quantifier": "every enumeration definition and separator", "why_tests_cant": "Holds or fails depending on table contents and sizes; a test fixes one enumeration.", "anchors": ["src/imtjson/namedEnum.h:allEnums"]}
{"id": "C82", "title": "String editing is list editing and stays in memory", "statement": "String concatenation, left, right, insert and replace give the corresponding list operation on bytes and never read or write outside of the allocated buffers.", "quantifier": "every string, position, size (including npos) and inserted text", "why_tests_cant": "Positions range over all of size_t; overflows occur only at its end.", "anchors": ["src/imtjson/string.cpp:String::insert", "src/imtjson/string.cpp:String::replace", "src/imtjson/string.cpp:String::String", "src/imtjson/string.cpp:String::left", "src/imtjson/string.cpp:String::right"]}
{"id": "C83", "title": "Merging the difference restores the other value", "statement": "a.merge(a.diff(b)) equals b.", "quantifier": "every pair of values of the same type", "why_tests_cant": "Pairs of trees of arbitrary depth and arrays of arbitrary repetition patterns.", "anchors": ["src/imtjson/value.cpp:Value::merge", "src/imtjson/value.cpp:Value::diff"]}
{"id": "C84", "title": "JWT cache accepts any token text", "statement": "Looking up or storing a token in JWTTokenCache never reads uninitialised or foreign memory.", "quantifier": "every token text, including short ones", "why_tests_cant": "Uninitialised reads usually go unnoticed in tests.", "anchors": ["src/imtjson/jwt.cpp:JWTTokenCache::Hash::operator ()"]}
{"id": "C85", "title": "JWTCryptoContainer selects the item of the sign method", "statement": "sign and verify of the container use an item registered under the key id (and algorithm) of the method and refuse if there is none.", "quantifier": "every map of keys and every method", "why_tests_cant": "All sorted sequences with equal key ids.", "anchors": ["src/imtjson/jwt.cpp:JWTCryptoContainer::sign", "src/imtjson/jwt.cpp:JWTCryptoContainer::verify", "src/imtjson/jwt.cpp:JWTCryptoContainer::isLess"]}
{"id": "C86", "title": "The RPC client understands the server's responses", "statement": "The response the server sends for a result (error) is taken by the client as completion of the call with that id, as success (failure) with that value.", "quantifier": "every id, result, error and both protocol versions", "why_tests_cant": "Two components with arbitrary values between them; undefined and null values are rarely tested.", "anchors": ["src/imtjson/rpc.cpp:RpcRequest::RequestData::sendResult", "src/imtjson/rpc.cpp:RpcRequest::RequestData::sendError", "src/imtjson/rpc.cpp:AbstractRpcClient::processResponse"]}
{"id": "C87", "title": "Multicall collects one entry per call in order", "statement": "A multicall ends with exactly one result, holding for every called method in order its result or null, and the errors in order, without touching freed memory.", "quantifier": "every list of calls, answered at once, later, never or repeatedly", "why_tests_cant": "All mixtures of synchronous and delayed answers.", "anchors": ["src/imtjson/rpc.cpp:MulticallContext::run", "src/imtjson/rpc.cpp:RpcServer::add_multicall"]}
{"id": "C88", "title": "Multicall returns context changes", "statement": "Context changes made by methods called through multicall are returned to the caller with the result.", "quantifier": "every list of calls", "why_tests_cant": "All lists of calls and contexts.", "anchors": ["src/imtjson/rpc.cpp:MulticallContext::run"]}
{"id": "C89", "title": "RPC clients never read uninitialised state", "statement": "No sequence of operations on a client, including a copied one, reads an uninitialised member.", "quantifier": "every client and every sequence of operations", "why_tests_cant": "Uninitialised reads usually go unnoticed.", "anchors": ["src/imtjson/rpc.h:AbstractRpcClient::AbstractRpcClient", "src/imtjson/rpc.cpp:AbstractRpcClient::operator ()"]}
{"id": "C90", "title": "Compressor is safe for any bytes", "statement": "Feeding any byte sequence to a compressor either reports an error or keeps all codes initialised and far below the 32-bit limit; codes that are written fit into two bytes.", "quantifier": "every byte sequence of any length", "why_tests_cant": "The dictionary grows over millions of steps and is replaced; the bound follows from the uniqueness of keys, not from samples.", "anchors": ["src/imtjson/compress.tcc:Compress::compress", "src/imtjson/compress.h:Compress::Optimizer::addCode"]}
{"id": "C91", "title": "Compressor rejects what it cannot reproduce", "statement": "A byte sequence which the compressor accepts decompresses to the same bytes; others are rejected with an error.", "quantifier": "every byte sequence", "why_tests_cant": "Malformed sequences are unbounded in variety.", "anchors": ["src/imtjson/compress.tcc:Compress::operator()"]}
{"id": "C92", "title": "Decompressor after the end is as new", "statement": "After the flush code the decompressor behaves as a new one on the input that follows.", "quantifier": "every pair of streams", "why_tests_cant": "Stale state matters only after a dictionary replacement in the second stream.", "anchors": ["src/imtjson/compress.tcc:Decompress::reset"]}
{"id": "C93", "title": "Character-class rules are exact", "statement": "The rules hex, uppercase, lowercase, alpha, alnum, digits, base64, base64url and identifier accept exactly the strings whose characters belong to the class (with padding rules for base64).", "quantifier": "every string", "why_tests_cant": "All strings of all lengths; padding interacts with length.", "anchors": ["src/imtjson/validator.cpp:opHex", "src/imtjson/validator.cpp:opBase64", "src/imtjson/validator.cpp:opIsIdentifier"]}
{"id": "C94", "title": "Validation terminates", "statement": "The evaluation of a rule ends for every subject whenever the references between classes are well founded, and its outcome is determined by definition, subject and state.", "quantifier": "every definition, subject and validator state", "why_tests_cant": "Recursion through class names is unbounded in depth.", "anchors": ["src/imtjson/validator.cpp:Validator::evalRule", "src/imtjson/validator.cpp:Validator::checkClass"]}
{"id": "C95", "title": "List, negation and array rules are exact", "statement": "A list of rules accepts iff one of them accepts, a negated list iff none accepts, and an array rule iff each leading place matches its rule and each further item matches one of the remaining rules.", "quantifier": "every rule list and subject", "why_tests_cant": "All lengths and combinations; index offsets between subject and rule.", "anchors": ["src/imtjson/validator.cpp:Validator::evalRuleArray", "src/imtjson/validator.cpp:Validator::evalRuleAlternatives"]}
{"id": "C96", "title": "Range rules follow the order of numbers", "statement": "A rule of signs <, <=, >, >= with operands accepts a number iff every relation holds between the number and the operand.", "quantifier": "every number and list of operands", "why_tests_cant": "Three kinds of numbers with different precision meet in one comparison.", "anchors": ["src/imtjson/validator.cpp:Validator::opRangeDef", "src/imtjson/validator.cpp:isLess"]}
{"id": "C97", "title": "Named rules are exact", "statement": "Each simple rule of the validator accepts exactly the documented values: type names accept the values of the type, empty/nonempty decide by length, integer and unsigned by the number, text classes and dates by the text of the subject, a quoted literal only that string, and other names the class of the definition.", "quantifier": "every subject, definition, path, state and name of a rule", "why_tests_cant": "A test tries a few subjects per rule; the claim is about every value of every type for every one of the twenty-seven names, and about names that are not known.", "anchors": ["src/imtjson/validator.cpp:559-672", "src/imtjson/validator.cpp:774-784", "docs/validator_commands.md:5-28"]}
{"id": "C98", "title": "Rules with parameters are exact", "statement": "minsize/maxsize bound the size; key, tostring and tonumber apply the rules to the key, text and number; prefix and suffix accept iff the value begins or ends with the argument and one of the following rules accepts the rest; split, explode, all and literal rules accept exactly what they describe.", "quantifier": "every subject, arguments, state and behaviour of the inner rules", "why_tests_cant": "The result depends on how arbitrary nested rules behave on derived values; tests cover a handful of nestings.", "anchors": ["src/imtjson/validator.cpp:103-119", "src/imtjson/validator.cpp:367-486", "src/imtjson/validator.cpp:785-854"]}
{"id": "C99", "title": "References and emitted values", "statement": "A reference [name,step,...] stands for the value reached from the innermost variable of the name; usevar and comparisons use that value; emit appends the value with its references replaced when the rule accepts, and the emitted values belong to the accepted rules.", "quantifier": "every list of variables, reference, subject and nesting of rules", "why_tests_cant": "Emitted values depend on the whole order of evaluation including alternatives that fail later.", "anchors": ["src/imtjson/validator.cpp:885-988"]}
{"id": "C100", "title": "Integer getters: result for every value", "statement": "getInt and getUInt terminate for every value, also for strings that hold JSON texts of strings; the number finally reached decides. An integer that the result type can hold is returned exactly, a floating point number gives its integer part when that fits, true gives one, everything without a number gives zero; the cases where the result is wrapped or undefined are exactly the numbers that do not fit.", "quantifier": "every value, every text stored in strings, every integer and floating point number", "why_tests_cant": "The text in a string is parsed again and may hold another string; all numbers at and beyond the limits of 64 bits matter.", "anchors": ["src/imtjson/stringValue.cpp:37-62", "src/imtjson/basicValues.h:93-118", "src/imtjson/value.h:260-310"]}
{"id": "C101", "title": "Truth value as documented", "statement": "getBool is false exactly for false, zero, null, undefined, the empty string, the empty array and the empty object.", "quantifier": "every class of stored values and every constructor", "why_tests_cant": "It depends on how the value was made, not on what it holds.", "anchors": ["src/imtjson/value.h:303-311", "src/imtjson/arrayValue.h:23", "src/imtjson/objectValue.h:22", "src/imtjson/stringValue.cpp:214-217"]}
{"id": "C102", "title": "getValueOrDefault", "statement": "The stored value is returned when its type is that of the default, otherwise the default.", "quantifier": "every value and every default", "why_tests_cant": "Narrowing happens only for numbers above 32 bits.", "anchors": ["src/imtjson/value.h:1100-1140"]}
{"id": "C103", "title": "Value::preciseNumber", "statement": "preciseNumber accepts exactly the JSON numbers, reads only the given text, keeps it and is exact for integers of 64 bits.", "quantifier": "every text and every character behind it", "why_tests_cant": "The result depends on memory behind the view.", "anchors": ["src/imtjson/value.cpp:727-747", "src/imtjson/parser.h:753-807"]}
{"id": "C104", "title": "The hash is FNV-1a", "statement": "Bytes are hashed by 64-bit FNV-1a; no state is lost on the way, so strings that differ in one byte never collide.", "quantifier": "every byte string", "why_tests_cant": "The absence of collisions for all one-byte differences cannot be enumerated.", "anchors": ["src/imtjson/fnv.h:13-24", "src/imtjson/value.cpp:932-937"]}
{"id": "C105", "title": "Doubles are printed as JSON numbers", "statement": "Whatever writeDouble prints for a finite double is a JSON number token with the sign of the number; a number that is not finite keeps its meaning.", "quantifier": "every finite double, every precision, every behaviour of pow and log10", "why_tests_cant": "The text depends on log10, pow, rounding and carries; no sample covers every double.", "anchors": ["src/imtjson/serializer.h:257-364"]}
{"id": "C106", "title": "Printing a double is defined", "statement": "writeDouble has no undefined conversion for any finite double.", "quantifier": "every finite double, every precision", "why_tests_cant": "The failing range is a tiny set of numbers near zero.", "anchors": ["src/imtjson/serializer.h:285-322"]}
{"id": "C107", "title": "Printed doubles are accurate", "statement": "The printed decimal number is the nearest with the requested number of decimals, up to a stated error, in fixed and in scientific notation; different doubles have different texts.", "quantifier": "every normal double, every precision, every C library within the stated accuracy", "why_tests_cant": "The error bound composes four roundings for 2^63 arguments.", "anchors": ["src/imtjson/serializer.h:285-338"]}
{"id": "C108", "title": "Decimal numbers survive", "statement": "A double nearest to a decimal number of up to fifteen digits and `maxPrecisionDigits` decimals is printed as exactly that number.", "quantifier": "every such decimal number, precision, and C library within the stated accuracy", "why_tests_cant": "10^15 numbers for each precision.", "anchors": ["src/imtjson/serializer.h:285-351"]}
{"id": "C109", "title": "JSON numbers are read as numbers", "statement": "Every well-formed JSON number token is read as a double that is not NaN, as a finite one if the number written is below 2^1022, and exactly the token is consumed.", "quantifier": "every token, text after it, and C library within the stated accuracy", "why_tests_cant": "Infinity and NaN come from intermediate overflow for particular lengths of the digits and exponents.", "anchors": ["src/imtjson/parser.h:450-502", "src/imtjson/parser.h:589-749"]}
{"id": "C110", "title": "JSON numbers are read accurately", "statement": "The double read differs from the number written by a relative error of at most 2^-40 (proportional to the number of digits and the exponent).", "quantifier": "every token up to 307 decimals and exponent 307 whose integer part is below 2^1022", "why_tests_cant": "The error accumulates over an unbounded number of roundings.", "anchors": ["src/imtjson/parser.h:589-749"]}
{"id": "C111", "title": "JSON numbers are read correctly rounded", "statement": "The double read is the one nearest to the number written.", "quantifier": "every token", "why_tests_cant": "Double rounding shows only for particular digits.", "anchors": ["src/imtjson/parser.h:450-502", "src/imtjson/parser.h:667-749"]}
{"id": "C112", "title": "Decimal numbers survive reading and printing", "statement": "A JSON number of at most fifteen digits, without exponent and with no more decimals than the serializer prints, is printed as the same number after it was read, and as the same text if it has no superfluous zero; printing, reading and printing again gives the first text.", "quantifier": "every such token, precision, following text and C library within the stated accuracy", "why_tests_cant": "10^15 numbers for each precision, and the reader does not round correctly.", "anchors": ["src/imtjson/parser.h:450-502", "src/imtjson/parser.h:667-749", "src/imtjson/serializer.h:257-364"]}
{"id": "C113", "title": "Nested editors edit in place", "statement": "Objects and arrays edited through editors of their members and items (Object::object, Object::array, Array::object, Array::array), nested to any depth and each left at the end of its block, give the value that the same edits done in place give; members not named keep their values; an editor with which nothing was done changes nothing, even if the member is missing or of another type.", "quantifier": "every canonical object or array, every nesting of editors, every sequence of edits with positions in range", "why_tests_cant": "Whether an editor writes back depends on a flag that is a function of the whole history of the inner builder; nesting is unbounded.", "anchors": ["src/imtjson/edit.h:10-31", "src/imtjson/object.cpp:208-215", "src/imtjson/array.cpp:164-171"]}
{"id": "C114", "title": "References write their member and keep a copy", "statement": "A reference to a member or item writes, when assigned, exactly the member or position it was made for, and the copy it keeps; sync() renews the copy with the current value; other references and other changes of the container do not change the copy.", "quantifier": "every object and array, every number of references, every sequence of assignments, synchronisations and direct changes", "why_tests_cant": "Any number of references to the same place can be mixed with direct changes in any order.", "anchors": ["src/imtjson/valueref.cpp:15-81", "src/imtjson/valueref.h:30-118"]}
{"id": "C115", "title": "Elliptic curve signatures are stored and read faithfully", "statement": "For each of ES256, ES384 and ES512 a signature (r, s) produced by the library for OpenSSL's numbers has twice the length of the algorithm, its halves are r and s, it is read back as the same numbers, a signature that is returned verifies with the same key, and storing it stays inside the buffer.", "quantifier": "every pair of numbers below the order of the curve, every message, every behaviour of the random signing", "why_tests_cant": "Signing is randomised: whether numbers need padding or do not fit depends on random values; a test sees a few of 2^512 pairs.", "anchors": ["src/imtjson/jwtcrypto.h:105-124", "src/imtjson/jwtcrypto.h:144-166", "src/imtjson/jwtcrypto.h:261-285"]}
{"id": "C116", "title": "Only signatures of the right length are accepted", "statement": "An elliptic curve signature is accepted only for the algorithm of the key and only if it has the length of that algorithm and its halves verify; so an accepted signature cannot be changed into another accepted one without the key holder's numbers changing.", "quantifier": "every byte string as signature, every message and method", "why_tests_cant": "Ranges over all byte strings of all lengths.", "anchors": ["src/imtjson/jwtcrypto.h:115-143", "src/imtjson/jwtcrypto.h:280-285"]}
{"id": "C117", "title": "RSA signing returns a signature or fails", "statement": "Signing with RSA returns the signature computed by OpenSSL, or reports a failure; it never writes outside its buffer nor returns uninitialised memory; verification accepts only the listed algorithms.", "quantifier": "every key (any length, with or without private part), every message and method", "why_tests_cant": "Failures and long keys are not met by tests using one fixed key.", "anchors": ["src/imtjson/jwtcrypto.h:25-70", "src/imtjson/jwtcrypto.h:170-204"]}
{"id": "C118", "title": "RPC requests are dispatched by name", "statement": "A message is handed to the function first registered under its method name since that name was last removed, with the parameters as an array (a single value becomes an array of one, missing ones an empty array, an object stays only with the flag for named parameters); an unknown name is answered with -32601 and the name, a malformed request with -32600; every message with an identifier gets one response, others none.", "quantifier": "every message value, every sequence of registrations and removals, every behaviour of methods, proxy, handler and callback", "why_tests_cant": "Ranges over all messages, directories and behaviours of user functions.", "anchors": ["src/imtjson/rpc.cpp:22-66", "src/imtjson/rpc.cpp:284-333", "src/imtjson/rpc.h:825-855"]}
{"id": "C119", "title": "A remote call returns what the method computes", "statement": "When the message of a pending call is served and the response is received, the call completes with the result or error the registered method computes from the arguments and context, whatever else the client did before; other calls stay pending.", "quantifier": "every history of the client, every server, method, arguments and context, both protocol versions", "why_tests_cant": "Ranges over all histories, all methods and all values.", "anchors": ["src/imtjson/rpc.cpp:559-576", "src/imtjson/rpc.cpp:112-151", "src/imtjson/rpc.cpp:656-677"]}
{"id": "C120", "title": "checkArgs accepts exactly matching argument lists", "statement": "Arguments are accepted iff they are an array not longer than the list of rules and every rule accepts the argument at its place, missing arguments being undefined; a definition that is not an array is one rule.", "quantifier": "every argument value, every definition, every behaviour of the rules", "why_tests_cant": "Ranges over all values and definitions.", "anchors": ["src/imtjson/rpc.cpp:232-258", "src/imtjson/rpc.cpp:477-481", "src/imtjson/validator.cpp:488-510"]}
{"id": "C121", "title": "Values sharing one dictionary of keys", "statement": "Any sequence of serialized values, preloaded keys and emptied dictionaries on one binary serializer is read back exactly by one parser given the same calls, provided the keys the serializer refused are not preloaded there; distinct keys are never refused, and each of up to 128 of them costs one byte from its first use.", "quantifier": "every sequence of calls, every list of distinct keys, every value as in C18, every flags", "why_tests_cant": "Ranges over all interleavings of values and dictionary operations, beyond any number of overwrites of the ring of 128 keys.", "anchors": ["src/imtjson/binjson.h:28-37", "src/imtjson/binjson.h:80-96", "src/imtjson/binjson.tcc:450-509"]}
{"id": "C122", "title": "The dictionary of keys does not read released memory", "statement": "Serializing values one after another through one binary serializer never reads memory of a value that has been released.", "quantifier": "every sequence of values, preloads, clears and releases, every hash function", "why_tests_cant": "The outcome of reading released memory in a test is accidental; the claim is about every order of releases.", "anchors": ["src/imtjson/binjson.h:75-109", "src/imtjson/binjson.tcc:450-474"]}
{"id": "C123", "title": "A reset codec is as new", "statement": "After reset() a compressor writes for any text what a new compressor writes, and a decompressor reads any stream as a new one.", "quantifier": "every history before the reset, every text after it", "why_tests_cant": "Ranges over all histories; the leftovers show only in some of them (inside a character, inside a sequence, or after tens of thousands of codes).", "anchors": ["src/imtjson/compress.tcc:22-29", "src/imtjson/compress.tcc:298-303"]}
{"id": "C124", "title": "RPC notifications arrive whole and are never answered", "statement": "A notification written by a client or a server is recognised as a notification by the receiver, read back with the same name, data and context, runs the method registered under its name, and nothing is ever answered to it.", "quantifier": "every name, data, context, both protocol versions, every behaviour of methods, handlers and callbacks", "why_tests_cant": "All data and all behaviours.", "anchors": ["src/imtjson/rpc.cpp:formatNotify", "src/imtjson/rpc.cpp:RpcNotify::RpcNotify", "src/imtjson/rpc.cpp:RpcNotify::asRequest", "src/imtjson/rpc.cpp:RpcServer::exec"]}
{"id": "C125", "title": "Notifications are sent exactly while allowed", "statement": "A request sends a notification exactly when notifications are allowed: before the response by one flag, after a response that was taken by the other, and no more once a message was refused.", "quantifier": "every sequence of operations on a request, every reply of the callback", "why_tests_cant": "All sequences and replies.", "anchors": ["src/imtjson/rpc.cpp:RpcRequest::RequestData::sendNotify", "src/imtjson/rpc.cpp:RpcRequest::RequestData::postSendResponse", "src/imtjson/rpc.h:RpcFlags"]}
{"id": "C126", "title": "Values one after another in a stream are read one after another", "statement": "Reading JSON values with Value::fromStream (or fromFile, or parse with the same source) takes from the stream exactly the text of each value, so that values written one after another are read back one after another: texts separated by white space, texts that delimit themselves, and values written by toStream with a separator; when only white space is left the next call reports the end.", "quantifier": "every list of JSON texts and values, every white space between them, every source and number mode, whatever follows in the stream", "why_tests_cant": "Tests parse one text per stream, mostly from strings; whether a character behind the value is lost shows only with the second value, and depends on the kind of value and on what follows.", "anchors": ["src/imtjson/parser.h:Value::parse", "src/imtjson/parser.h:Reader", "src/imtjson/parser.h:parseNumber", "src/imtjson/value.cpp:Value::fromStream", "src/imtjson/value.cpp:Value::fromFile", "src/imtjson/value.cpp:Value::toStream"]}
{"id": "C127", "title": "The parser uses each character of its source once and in order, and asks for no more than it needs", "statement": "The parser, written over its one-character reader as the code is, accepts the same texts with the same values as the parser on the list of characters. When it ends, the source keeps everything behind the text, but for one character behind a number. The source is never asked for anything behind an object, array, string or keyword, and is asked behind its end only for a number that ends there, once. A parser used for several values loses no character.", "quantifier": "every text (valid or not), every source (signed or unsigned characters), number mode and duplicate mode, every monotone test for too long numbers, whatever follows in the source; any number of values read by one parser", "why_tests_cant": "A character that is dropped, read twice or fetched too early between next, commit, putBack and readFast shows only for particular token borders, and fetching too early shows only as a hang on a source that blocks.", "anchors": ["src/imtjson/parser.h:Reader", "src/imtjson/parser.h:nextWs", "src/imtjson/parser.h:readFast", "src/imtjson/parser.h:putBack", "src/imtjson/parser.h:parseNumber", "src/imtjson/parser.h:parsePreciseNumber", "src/imtjson/parser.h:readString"]}
{"id": "C128", "title": "Binary values survive JSON text", "statement": "A binary string value, printed by the serializer through its encoding in chunks and parsed again, gives its bytes back through getBinary with the same encoding; toString gives the text of the encoding; asking a binary value for its bytes gives them unchanged whatever encoding is asked for.", "quantifier": "all byte strings of any length, all five encodings, both output modes, values with and without a key, all parser configurations and any following text", "why_tests_cant": "Bytes are lost only where a two-byte character meets the end of a 256-byte chunk, or for particular byte strings; a test would need the right length and contents.", "anchors": ["src/imtjson/serializer.h:164-176", "src/imtjson/serializer.h:403-430", "src/imtjson/binary.cpp:22-160", "src/imtjson/base64.cpp:52-136", "src/imtjson/value.cpp:61-83", "src/imtjson/value.cpp:349-351"]}
{"id": "C129", "title": "A decoded binary value remembers its encoding", "statement": "A value decoded with an encoding remembers it: Binary::getEncoding returns that encoding and printing the value gives the original text again. The encoding of every binary value can be looked up.", "quantifier": "all non-empty byte strings, all encodings, all values: plain, with a key, wrapped by makeValue", "why_tests_cant": "The wrong label shows only when a decoded value is printed again, and the look-up on a proxy reads foreign memory, which often passes unnoticed.", "anchors": ["src/imtjson/base64.cpp:124-133", "src/imtjson/binary.cpp:14-31", "src/imtjson/binary.h:44-68", "src/imtjson/stringValue.cpp:107-120", "src/imtjson/wrap.h:18-63", "src/imtjson/key.h:18-71"]}
{"id": "C130", "title": "c_str is the string with a terminating zero", "statement": "String::c_str returns a pointer to the characters of the string followed by a zero (as documented), for every String: made from characters, from a Value with or without a key, or a part of another string.", "quantifier": "all strings of any length, all parts and parts of parts, all keys", "why_tests_cant": "The pointer is right for every string made directly; parts made by split or splitAt show the rest of the whole string, which a test sees only if it prints such a part through c_str.", "anchors": ["src/imtjson/string.cpp:25-61", "src/imtjson/string.cpp:114-124", "src/imtjson/string.cpp:164-200", "src/imtjson/string.h:140-146", "src/imtjson/stringValue.cpp:16-35", "src/imtjson/stringValue.cpp:74-99", "src/imtjson/basicValues.cpp:30-33"]}
{"id": "C131", "title": "getValueOrDefault for C strings returns a usable pointer", "statement": "Value::getValueOrDefault(const char *) returns the default for a value that is not a string and otherwise a pointer that is usable as long as the value is held.", "quantifier": "all string values: plain, parts, members of objects, binary strings with any encoding, all contents", "why_tests_cant": "A dangling pointer into memory just released usually still shows the old text.", "anchors": ["src/imtjson/value.cpp:877-879", "src/imtjson/value.cpp:61-83", "src/imtjson/binary.cpp:110-153", "src/imtjson/string.cpp:122-124"]}
{"id": "C132", "title": "Filling a string is checked", "statement": "String(sz, fn) with a function that writes at most sz characters and returns how many to keep gives exactly these, zero-terminated; a function that returns more than sz, or overwrites the byte behind the sz characters with something else than zero, makes the program abort.", "quantifier": "all sizes, all contents written, all returned counts", "why_tests_cant": "The check must hold for any function and any size, in particular for sizes below the length of the magic word in the block.", "anchors": ["src/imtjson/stringValue.h:48-57", "src/imtjson/stringValue.cpp:18-24", "src/imtjson/stringValue.cpp:74-78", "src/imtjson/string.cpp:32-33", "src/imtjson/string.h:69-86"]}
{"id": "C133", "title": "Concatenation of values to a string", "statement": "Value(string, values) and String({...}) give the characters of the parts one after another, in exactly the memory asked for, followed by a zero.", "quantifier": "all lists of strings of any length, including parts of strings, empty strings, the empty list", "why_tests_cant": "Memory safety of the copying loop for all lists and lengths is not a matter of samples.", "anchors": ["src/imtjson/value.cpp:414-432", "src/imtjson/string.cpp:69-82", "src/imtjson/stringValue.h:48-57"]}
{"id": "C134", "title": "Parts of a string stay valid by themselves", "statement": "Every part returned by String::split gives the right characters through its own handle alone: the whole string may be released first.", "quantifier": "all strings, separators, limits on the number of parts, splits of parts", "why_tests_cant": "Use of released memory rarely shows; the claim is about all owners being gone.", "anchors": ["src/imtjson/string.cpp:164-200"]}
{"id": "C135", "title": "The RPC client uses its shared members under its lock", "statement": "When any number of threads use one client, no two of them use the map of pending calls, the context or the counter of identifiers at the same time with one of them writing, and no thread releases the lock without holding it.", "quantifier": "all numbers of threads, all sequences of calls, cancellations, responses and context changes, nested to any depth in sendRequest and in result functions, all interleavings", "why_tests_cant": "A data race needs two threads at the same two instructions; a test run that passes says nothing about the other interleavings.", "anchors": ["src/imtjson/rpc.cpp:528-705", "src/imtjson/rpc.cpp:764-771", "src/imtjson/rpc.cpp:819-823", "src/imtjson/rpc.h:990-1116"]}
{"id": "C136", "title": "A synchronous RPC call waits for its result", "statement": "A synchronous call returns the result of the one thread that completed it; the object on its stack is not used by another thread after the call returned, nobody writes the result while the caller reads it, no notification is lost, and once the call is taken by a completing thread the caller can always get to its end.", "quantifier": "all numbers of threads completing or cancelling the same call, all interleavings, spurious wake-ups, completion inside of sendRequest", "why_tests_cant": "Use of the stack of a function that has returned and lost wake-ups depend on the exact interleaving.", "anchors": ["src/imtjson/rpc.cpp:502-550", "src/imtjson/rpc.cpp:582-591", "src/imtjson/rpc.cpp:703-705"]}
{"id": "C137", "title": "The parser's scratch memory does not influence its results", "statement": "Whatever the vectors tmpstr and tmpArr of a parser object hold, parse reads the same value and the same part of the input as with empty vectors, no assertion of freeString fails, and afterwards the vectors are as before; so one parser object can read any number of texts, also after errors.", "quantifier": "all texts, all contents of the vectors, all sequences of texts with and without errors, all parser flags", "why_tests_cant": "The vectors are shared by all levels of recursion; whether a position in them is still right depends on everything read and undone before, including errors at any place.", "anchors": ["src/imtjson/parser.h:60-67", "src/imtjson/parser.h:193-197", "src/imtjson/parser.h:284-388", "src/imtjson/parser.h:505-572", "src/imtjson/parser.h:753-807"]}
{"id": "C138", "title": "A ParseError tells where the text is wrong", "statement": "The position in the text of a ParseError is the way from the root to the place where reading failed: the names of members and the indexes of items, outermost first; the text is up to date whenever it is asked for.", "quantifier": "all texts with an error at any depth, all histories of the parser object, all sequences of what and addContext", "why_tests_cant": "There are unboundedly many places for an error; a test that looks at the position of an error in a flat array finds it right.", "anchors": ["src/imtjson/parser.h:209-254", "src/imtjson/parser.h:299-332", "src/imtjson/parser.h:354-382"]}
{"id": "C139", "title": "Numbers shared by threads can be read without synchronisation", "statement": "Threads may read the same values at the same time without locks (docs/navod.md:29): no execution of functions of values by several threads contains a data race, and every call returns what the value denotes, whatever the other threads do.", "quantifier": "all numbers of threads, all lists of calls of each, all interleavings of their accesses to memory, all sets of shared values", "why_tests_cant": "A race shows itself only under particular timing or reordering by the compiler or processor; tests run a few schedules of the machine at hand, the statement is about all of them.", "anchors": ["src/imtjson/stringValue.cpp:177-227", "src/imtjson/stringValue.h:60-95", "src/imtjson/basicValues.h:93-118"]}
{"id": "C140", "title": "A request lives exactly as long as it is held and ends with one answer", "statement": "Whatever a program does with its pointers to an RPC request - copies them, drops them, answers it, lets callbacks keep further pointers, lets the server that executed it go - no destroyed request or server is touched, the destructor and Callbacks::release run exactly once when the last pointer goes, and an answerable request that was executed has been answered exactly once by then.", "quantifier": "all sequences of copies, drops, answers and executions, all numbers of pointers kept by callbacks, answerable and unanswerable requests", "why_tests_cant": "A use after free depends on who holds the last pointer when the destructor answers; a run of a test fixes one order of drops and callbacks that keep nothing, and freed memory often still looks right.", "anchors": ["src/imtjson/rpc.cpp:714-734", "src/imtjson/rpc.cpp:840-872", "src/imtjson/rpc.h:268-300", "src/imtjson/rpc.h:625-645"]}
{"id": "C141", "title": "Iteration visits every item once and walk every node not below a refused one", "statement": "A loop over a value, forwards or backwards, gives each of its items once in the order of storage and ends; iterators compare as an equivalence and move like positions (moving by n changes the position by n, equal iterators stay equal when moved); walk calls its function with each node of the tree exactly once, parents before children in their order, except for nodes below one for which the function returned false.", "quantifier": "all containers of any size, all iterators and distances, all trees, all functions with any state", "why_tests_cant": "Trees and containers are unbounded and the function of walk is arbitrary code; wrong items appear only beyond sizes no test builds.", "anchors": ["src/imtjson/value.h:1188-1226", "src/imtjson/value.h:1275-1283", "src/imtjson/container.h:102-110", "src/imtjson/arrayValue.cpp:16-20"]}
{"id": "C142", "title": "Native data survive the conversion to a value and back", "statement": "Value::from<T>(x).as<T>() gives back x for every type with conversions both ways: integers, double, float, bool, strings and vectors of these nested to any depth; different data give different values, and a vector taken from any value has as many elements as the value has items.", "quantifier": "all types built from the basic ones by std::vector, all data of them", "why_tests_cant": "Both the types and the data are unbounded; special numbers and empty strings and vectors take paths of their own in the constructors.", "anchors": ["src/imtjson/conv.h:6-140", "src/imtjson/value.cpp:142-180", "src/imtjson/value.cpp:278-290", "src/imtjson/stringValue.cpp:96-99"]}
{"id": "C143", "title": "A multicall makes exactly the listed calls", "statement": "A multicall request with a method name and parameters calls that method once for each of them in order; with pairs of a name and parameters it makes each of these calls in order; results has an entry for each; the request is refused exactly when it has no arguments or the first is neither a string nor an array. Parameters of every request are a list (or an object where named parameters are allowed): arrays are kept, nothing gives the empty list, anything else the list with it.", "quantifier": "all lists of arguments, all values as parameters, all methods answering once", "why_tests_cant": "Arguments are arbitrary values; that one malformed pair hides the calls after it shows only for lists nobody writes by hand in a test.", "anchors": ["src/imtjson/rpc.cpp:40-66", "src/imtjson/rpc.cpp:366-469"]}
{"id": "C144", "title": "A remote call over a text stream returns what the method computes", "statement": "When the message of a pending call is written as text into a stream, read from it by a server, executed by the registered method, and the response is written into a stream and read by the client, then exactly that call is completed, with the result or error the method computed from the arguments and context of the caller, and both streams are left at what follows the messages.", "quantifier": "all states of the client, all method names, arguments, contexts and methods, both versions of the protocol, all texts following the messages", "why_tests_cant": "It composes printing, parsing, dispatch and matching of responses; tests cover each with samples, the composition has unboundedly many messages and client states.", "anchors": ["src/imtjson/rpc.cpp:22-66", "src/imtjson/rpc.cpp:112-151", "src/imtjson/rpc.cpp:284-318", "src/imtjson/rpc.cpp:559-677", "src/imtjson/serializer.h:143-162", "src/imtjson/value.cpp:85-126"]}
{"id": "C145", "title": "RPC errors reach the caller with code, message and data", "statement": "Whatever way a method reports an error - setError, setArgError with or without rejections, setInternalError - the pending call is completed as an error and getErrorCode, getErrorMessage and getErrorData give the code, message and data reported (for argument errors the rejections of the last failed check); so also after transport as text; makeError forms the same. Arguments can be checked on any request.", "quantifier": "all codes of type int, messages, data, sequences of checks, client states, protocol versions", "why_tests_cant": "Codes, messages, data and histories of checks are unbounded; the server, message and client parts are written independently and only their composition matters.", "anchors": ["src/imtjson/rpc.cpp:68-74", "src/imtjson/rpc.cpp:251-278", "src/imtjson/rpc.cpp:736-739", "src/imtjson/rpc.cpp:891-896", "src/imtjson/rpc.h:55-57"]}
{"id": "C146", "title": "map, filter, reduce and sort on objects", "statement": "Value::map on an object gives an object whose values are the results of the function, bound with the same keys, undefined results removed; map to an array gives the results in order; filter on an object keeps exactly the members that pass; reduce folds over the members in the order of keys; Array::sort and Object::sort give a sorted permutation of the items.", "quantifier": "for every canonical object, every function (whatever keys its results carry), every predicate, every comparison that is a weak order and every sorting algorithm that keeps the promise of std::sort", "why_tests_cant": "The result depends on whether the value returned by the function carries a key of its own; the only test of map on objects returns freshly made strings. A function that returns a member of its item silently renames and overwrites members.", "anchors": ["src/imtjson/operations.h:336-353", "src/imtjson/operations.h:416-460", "src/imtjson/operations.h:493-514", "src/imtjson/operations.h:569-581", "src/imtjson/value.h:636-660", "src/imtjson/value.h:1265-1273"]}
{"id": "C147", "title": "Keys are labels and packed objects stay reachable", "statement": "Binding a key to a value changes nothing but the key: every read function answers as before, the result is a copy of the original, stripping the key gives the stripped original, keys never nest. A packed custom object (makeValue) answers as its substitute and cast returns it through any number of keys and objects, and only for matching types. getKeyObject returns the String a key was bound with.", "quantifier": "for all values made by any sequence of binding, storing, stripping and packing, all keys, all types, all class layouts and key lengths", "why_tests_cant": "Nesting of proxies and wrappers arises from unbounded sequences of operations; whether flags, keys and identities stay consistent is an invariant over all of them.", "anchors": ["src/imtjson/key.h:19-71", "src/imtjson/key.cpp:17-45", "src/imtjson/object.cpp:27-35", "src/imtjson/object.cpp:111-128", "src/imtjson/wrap.h:18-138", "src/imtjson/value.h:387-411", "src/imtjson/value.h:851-884"]}
{"id": "C148", "title": "Built-in RPC methods answer", "statement": "The built-in methods answer every call: ping returns its arguments, help returns the entry of the topic and reports unknown topics, the list of methods has every registered method once and, with a proxy, also the methods of the proxied server, whatever the proxy does before it answers.", "quantifier": "for every client state reached by any calls, responses and cancellations, every sequence of registrations, all arguments and contexts, all help contents, every behaviour of the proxy on the forwarded request (any operations before and after it returns)", "why_tests_cant": "The answer depends on the whole history of registrations and on everything the proxy may do with the forwarded request, in any order; a topic without an entry only shows as a call that never returns.", "anchors": ["src/imtjson/rpc.cpp:335-364", "src/imtjson/rpc.cpp:471-491", "src/imtjson/rpc.h:740-777"]}
{"id": "C149", "title": "Selecting pending calls loses none", "statement": "filterPendingCalls keeps exactly the pending calls with the given identifiers, each with its own call object, and hands out every other pending call exactly once; no call object is lost, duplicated or left null in the map.", "quantifier": "for every map of pending calls with unique identifiers and every list of identifiers, in any order, with repetitions and unknown identifiers", "why_tests_cant": "Ownership is moved between two maps; an identifier listed twice or a call moved twice would leave a null pointer or lose a call only for particular lists.", "anchors": ["src/imtjson/rpc.cpp:603-618", "src/imtjson/rpc.h:1029-1033"]}
{"id": "C150", "title": "Base64 decoding accepts only base64", "statement": "decodeBinaryValue of base64 and base64url accepts exactly the texts an encoder writes: whatever is decoded is encoded to the same text again, so two different texts never have the same content and malformed text is not turned into data.", "quantifier": "every byte string as text, of any length, well-formed or not", "why_tests_cant": "All malformed texts: wrong characters, wrong lengths, unused bits and misplaced padding at all positions.", "anchors": ["src/imtjson/base64.cpp:decoderCore", "src/imtjson/base64.cpp:Base64Encoding::decodeBinaryValue", "src/imtjson/base64.cpp:Base64EncodingUrl::decodeBinaryValue", "src/imtjson/base64.cpp:Base64Table"]}
{"id": "C151", "title": "Recursive merge of objects", "statement": "Object::recursiveMerge (and applyDiff with it) combines two trees of objects path by path: a path the diff does not mention keeps its value, a value in the diff replaces the one of the base, an undefined member removes it; the result is a plain ordered object, merging twice is merging once, and merging changes one after another equals merging their combination.", "quantifier": "every pair (triple) of trees of objects of any depth and every path", "why_tests_cant": "Nesting of arbitrary depth with objects, scalars and removals meeting in all combinations.", "anchors": ["src/imtjson/object.cpp:Object::recursiveMerge", "src/imtjson/object.cpp:Object::applyDiff", "src/imtjson/object.cpp:applyDiffImpl"]}
{"id": "C152", "title": "UTF-8 output is one line of well-formed UTF-8", "statement": "stringify(emitUtf8) never writes a raw control character (no byte below 0x20), so a document is one line, and its output is well-formed UTF-8.", "quantifier": "every value tree; strings and keys are arbitrary byte sequences of any length", "why_tests_cant": "Strings of arbitrary bytes drive the decoder into any state; the failing input needs 2^32 bytes.", "anchors": ["src/imtjson/serializer.h:writeStringBody", "src/imtjson/serializer.h:writeUnicode", "src/imtjson/utf8.h:Utf8ToWide", "src/imtjson/utf8.h:WideToUtf8"]}
{"id": "C153", "title": "Compressed documents round trip", "statement": "A value that is serialised, compressed, decompressed and parsed comes back, and the decompressor leaves exactly the bytes after the document in the stream.", "quantifier": "every value tree in the scope of C01 and C02, UTF-8 and escaped output, any bytes after the document", "why_tests_cant": "All values and all states of the dictionary.", "anchors": ["src/imtjson/serializer.h:Serializer", "src/imtjson/compress.tcc:Compress::operator()", "src/imtjson/compress.tcc:Decompress::operator()", "src/imtjson/parser.h:Parser"]}
{"id": "C154", "title": "Containers have room for everything put into them", "statement": "A container of fixed capacity behaves as a list of at most that many items and touches only its own block; and wherever the library fills one (arrays and objects from lists of values, applied diffs, setItems, builders from a list of fields) the capacity reserved is enough, so that no item is silently refused.", "quantifier": "every sequence of container operations; every list of values, base object, diff and list of fields", "why_tests_cant": "push_back into a full container fails silently; only particular mixes of common, removed and repeated keys would show a capacity that is too small.", "anchors": ["src/imtjson/container.h:Container", "src/imtjson/value.cpp:Value::Value(ValueType, const StringView<Value>&, bool)", "src/imtjson/value.cpp:Value::setItems", "src/imtjson/object.cpp:applyDiffImpl", "src/imtjson/object.cpp:Object::Object(initializer_list)"]}
{"id": "C155", "title": "The context of a connection keeps what requests store", "statement": "RpcConnContext::retrieve returns the value stored last under the key on the same connection, undefined if there is none or if it was removed by storing undefined; connections do not influence each other.", "quantifier": "every sequence of stores and retrieves on any number of connections", "why_tests_cant": "The builder behind it reorganises itself after 8, 16, 32... changes and on reads.", "anchors": ["src/imtjson/rpc.h:RpcConnContext::store", "src/imtjson/rpc.h:RpcConnContext::retrieve"]}
{"id": "C156", "title": "Array builders are independent values", "statement": "Array builders can be copied and moved, by construction and by assignment, to themselves as well: each behaves as a list of its own, whatever is done to the others, and one that was moved away can be filled again after clear().", "quantifier": "every program of making, copying, moving, editing, reading and committing any number of array builders", "why_tests_cant": "What a builder keeps of its base and what it copied depends on the history; a moved-from builder works or not depending on where its items came from.", "anchors": ["src/imtjson/array.cpp:Array::Array(Array&&)", "src/imtjson/array.cpp:Array::operator=", "src/imtjson/array.cpp:Array::Changes::Changes(Changes&&)", "src/imtjson/array.cpp:Array::commit"]}
{"id": "C157", "title": "toString gives the documented text", "statement": "toString returns strings as they are (binary ones encoded), undefined as <undefined>, null and booleans as words, precise numbers as their text, everything else as stringify does; getValueOrDefault(String) returns that text for strings and the default otherwise.", "quantifier": "every value", "why_tests_cant": "Values are trees of any size with any bytes.", "anchors": ["src/imtjson/value.cpp:Value::toString", "src/imtjson/value.cpp:Value::getValueOrDefault"]}
{"id": "C158", "title": "Tokens made with the preferred method are accepted", "statement": "A token made by serializeJWT(payload, crypto) or serializeJWT(payload, crypto, kid), that is with the method the object prefers, is accepted by the same object and gives the payload; for a container the object registered under the key id and its preferred algorithm are used, and for an unknown key id the preferred method of the container.", "quantifier": "every payload, key, size, key id, and every container of objects", "why_tests_cant": "The preferred method is computed apart from what sign and verify support; tests use the listed sizes and complete containers.", "anchors": ["src/imtjson/jwt.cpp:58-66", "src/imtjson/jwt.cpp:JWTCryptoContainer::getPreferredMethod", "src/imtjson/jwt.cpp:JWTCryptoContainer::sign", "src/imtjson/jwtcrypto.h:JWTCrypto_ES::getPreferredMethod"]}
{"id": "C159", "title": "Keys of tokens survive export and import", "statement": "A public key exported to text and imported again is the same key; private keys are imported as the numbers written; refused keys give a null pointer; nothing allocated is left without an owner; exporting does not change the key.", "quantifier": "every key, size and text", "why_tests_cant": "Leaks and changed forms do not show in results; wrong sizes are not tried.", "anchors": ["src/imtjson/jwtcrypto.h:JWTCrypto_ES::importPublicKey", "src/imtjson/jwtcrypto.h:JWTCrypto_ES::importPrivateKey", "src/imtjson/jwtcrypto.h:JWTCrypto_ES::exportPublicKey"]}
{"id": "C160", "title": "Numbers of the binary format are read exactly", "statement": "Every form of an integer (a digit within the tag, or 1, 2, 4 or 8 bytes) is read as that integer, with the tag for negative numbers as its negation; a 32-bit floating point number is read as a double of the same value, infinities and NaN stay what they are; a 64-bit one is kept bit for bit; a zero of either sign becomes the shared integer zero.", "quantifier": "every integer below 2^64 in every form, every pattern of 32 and of 64 bits, whatever follows in the stream", "why_tests_cant": "The serializer writes only the shortest forms and never single precision, so round trips do not reach the other forms; subnormal numbers and NaN are single points among 2^32.", "anchors": ["src/imtjson/binjson.tcc:BinaryParser<Fn>::parseInteger", "src/imtjson/binjson.tcc:362-411", "src/imtjson/binjson.tcc:BinaryParser<Fn>::parseNumberFloat", "src/imtjson/binjson.tcc:BinaryParser<Fn>::parseNumberDouble", "src/imtjson/value.cpp:278-290"]}
{"id": "C161", "title": "Digits of numbers are counted and taken in chunks without loss", "statement": "parseUnsigned takes as many characters as its counter says and never overflows the counter; reading a large number in chunks that fit an integer gives the number all its digits denote; the number of decimals is counted exactly.", "quantifier": "every text and every number of digits", "why_tests_cant": "Overflow of the counters needs texts of gigabytes; the borders of chunks depend on the digits.", "anchors": ["src/imtjson/parser.h:Parser<Fn>::parseUnsigned", "src/imtjson/parser.h:Parser<Fn>::parseLargeUnsigned", "src/imtjson/parser.h:Parser<Fn>::parseDecimalPart"]}
{"id": "C162", "title": "Character classes are asked for valid characters only", "statement": "The rules hex, alpha, alnum, digits, base64, base64url, identifier and the dates of the validator, and the test whether a string can be compressed in the binary format, pass only values of unsigned char or EOF to the functions of <ctype.h>.", "quantifier": "every text, every format of dates", "why_tests_cant": "With the library the tests run on, a negative argument happens to read a table entry in front of the table and nothing is seen; which texts reach the call depends on every character before.", "anchors": ["src/imtjson/validator.cpp:opHex", "src/imtjson/validator.cpp:opAlpha", "src/imtjson/validator.cpp:opIsIdentifier", "src/imtjson/validator.cpp:checkDateTimeGen", "src/imtjson/binjson.tcc:canCompressString"]}
{"id": "C163", "title": "Reading and writing nested documents on a finite stack", "statement": "Parsing a text or a binary document and writing a value need a number of nested calls that does not grow without bound; a run that fits its stack gives the same result as one with unlimited stack.", "quantifier": "every size of the stack, every text, every byte stream, every value", "why_tests_cant": "Tests use documents a few levels deep; the size of the stack differs between platforms and threads.", "anchors": ["src/imtjson/parser.h:Parser<Fn>::parse", "src/imtjson/parser.h:Parser<Fn>::parseArray", "src/imtjson/parser.h:Parser<Fn>::parseObject", "src/imtjson/serializer.h:Serializer<Fn>::serialize", "src/imtjson/binjson.tcc:BinaryParser<Fn>::parseItem"]}
{"id": "C164", "title": "Prepared calls are sent once and their functions are called once", "statement": "A prepared call of the RPC client sends its request at most once; every function taken by a call is called exactly once until the client is destroyed, with a result that arrived or was given to a cancellation for the identifier of its own call, never with the empty result while the client exists; functions called during the destruction of the client may use it.", "quantifier": "all sequences of preparing, copying and executing calls synchronously or asynchronously, sendings that return or throw, responses and cancellations with any identifiers", "why_tests_cant": "Sequences are unbounded; sendings that throw, calls used again and clients destroyed with pending calls are rare.", "anchors": ["src/imtjson/rpc.h:901-925", "src/imtjson/rpc.h:1023-1035", "src/imtjson/rpc.h:1088-1116", "src/imtjson/rpc.cpp:528-550", "src/imtjson/rpc.cpp:582-591", "src/imtjson/rpc.cpp:703-705"]}
{"id": "C165", "title": "Signing with a shared key works with the whole key or fails", "statement": "Signatures of tokens with a shared key are the HMAC of the message with the whole key; when OpenSSL fails, signing fails and nothing is accepted; only the listed algorithms are accepted.", "quantifier": "every key of any length, every message, every signature, every HMAC function which may fail, every previous content of the stack", "why_tests_cant": "HMAC does not fail on test machines and keys of gigabytes are not tested; what is left in an uninitialised buffer differs between runs.", "anchors": ["src/imtjson/jwtcrypto.h:25-33", "src/imtjson/jwtcrypto.h:71-100", "src/imtjson/jwtcrypto.h:206-238"]}
{"id": "C166", "title": "Loops over array builders", "statement": "A loop over an array builder gives each item once in order and ends, also when its body appends to the builder or replaces items; whatever legal changes the body makes, the loop ends and either gives as many items as there were or throws out_of_range; a value made of a range is the array of its defined items; an added empty container is at the position given to its editor.", "quantifier": "all builders over all bases and changes, all loop bodies made of legal operations, all ranges", "why_tests_cant": "Loops that change what they go through depend on how items are spread between base and changes; all sizes and bodies cannot be tried.", "anchors": ["src/imtjson/array.h:293-332", "src/imtjson/array.cpp:121-138", "src/imtjson/array.cpp:194-218"]}
{"id": "C167", "title": "Values are destroyed exactly once, when nothing refers to them any more", "statement": "Whatever programs do with values (making arrays, objects and members, copying, reading items, ending variables), no destroyed value is used; between any two steps the memory of a value was given back exactly once if no variable reaches it, and never otherwise; items of a value never change; destroying a value always succeeds.", "quantifier": "all sequences of making, copying, reading and dropping values, all sharing of items, all stack sizes", "why_tests_cant": "Sharing and orders of destruction are unbounded; leaks and early frees depend on counters along whole histories, and stack overflow on nesting of any depth.", "anchors": ["src/imtjson/ivalue.h:179-184", "src/imtjson/container.h:90-92", "src/imtjson/container.h:123-156", "src/imtjson/abstractValue.cpp:5-16", "src/imtjson/key.h:18-41", "src/imtjson/value.cpp:54-59"]}
{"id": "C168", "title": "A rejection names the place and a rule not met there", "statement": "However validate ends - also by an exception - every entry of getRejections names a place at or below the path given to validate, and a part of the definition (a rule, a class, a member of a template, a list of alternatives) that was evaluated for the value found at that place by following the path from the subject (or for a value made of it by tostring, key, split, explode, usevar and the like) and was not met; the text undefined stands for a rule that is not there. Rejections of earlier validations with the same object are gone. A wrong _version is reported as that version at /_version.", "quantifier": "all definitions, subjects, class names, paths, depths, states of the validator and functions of the environment", "why_tests_cant": "Rules nest without a bound and call each other; rejections are appended, truncated and merged at each level, so a wrong entry appears only for particular nestings.", "anchors": ["src/imtjson/validator.cpp:72-84", "src/imtjson/validator.cpp:316-365", "src/imtjson/validator.cpp:488-510", "src/imtjson/validator.cpp:698-773", "src/imtjson/validator.cpp:859-873"]}
{"id": "C169", "title": "Texts of exceptions stay valid and tell what was wrong", "statement": "However often what() is called on the exception for an unknown enum name or an invalid number, every pointer it returned stays valid as long as the exception lives, and the text tells the whole offending name or number; for enums it is followed by all known names in order.", "quantifier": "all tables, names, number texts, numbers of calls and states of memory", "why_tests_cant": "A pointer to released memory usually still shows the old text; names with zero bytes are rare.", "anchors": ["src/imtjson/namedEnum.cpp:15-38", "src/imtjson/value.cpp:749-754", "src/imtjson/namedEnum.h:92-107"]}
{"id": "C170", "title": "A document cut short is not taken for a whole one", "statement": "When the parser reads a value from a document up to some place, then every shorter first part of the document is rejected, in the text format and in the binary one; and what follows a value does not change it.", "quantifier": "all documents, all places to cut, all flags of the parser", "why_tests_cant": "Tests cut few documents at few places; a failed read of a file looks like the end of the data, so any place is possible.", "anchors": ["src/imtjson/parser.h:265-386", "src/imtjson/parser.h:575-584", "src/imtjson/binjson.tcc:341-347", "src/imtjson/binjson.tcc:362-411", "src/imtjson/value.cpp:96-108", "src/imtjson/streams.h:26-73"]}
{"id": "C171", "title": "Equal values have equal texts, and equal texts come from equal values", "statement": "Two values are equal by operator== if and only if stringify gives the same text for them: a value can be compared, stored or looked up by its text.", "quantifier": "All pairs of values of any shape and size (signed, unsigned and shared zero numbers, doubles, strings, arrays, objects, wrapped values, shared subvalues), both outputs (UTF-8 and escaped), any printer of finite doubles.", "why_tests_cant": "It relates two independent recursive algorithms on all pairs of trees; the converse is injectivity of the serializer, which no number of sample pairs can show.", "anchors": ["src/imtjson/value.cpp:323-326", "src/imtjson/basicValues.cpp:109-150", "src/imtjson/basicValues.h:104-112", "src/imtjson/serializer.h:90-253", "src/imtjson/value.cpp:110-126"]}
{"id": "C172", "title": "A compressed text cut short gives a first part of the text or an error", "statement": "When only a first part of the bytes of a compressed text arrives, the decompressor gives a first part of the text or reports an error; it never gives characters that are not those of the text. A text that lost only its mark of the end is whole.", "quantifier": "All well-formed texts without control characters of any length, all places of the cut, all lists of codes, all states of the decompressor (for the mark of the end), all dictionaries.", "why_tests_cant": "The codes mean what the dictionary built so far says, so the same cut is harmless or harmful according to all of the text before; the wrong text needs a dictionary of at least 282 entries and a cut inside a code of two bytes.", "anchors": ["src/imtjson/compress.tcc:71-135", "src/imtjson/compress.tcc:179-345", "src/imtjson/compress.h:158-198"]}
{"id": "C173", "title": "A compressed document cut short gives its value or an error", "statement": "When only a first part of a compressed document arrives, decompressing and parsing it gives the value of the document or an error (from the decompressor or from the parser), never another value.", "quantifier": "All documents (well-formed, without control characters) of any length, all places of the cut, all settings of the parser.", "why_tests_cant": "Harmful cuts need a dictionary of more than 281 entries, a cut inside a code of two bytes and a text in which the wrong entry closes the document; sampled cuts of sampled documents all report errors.", "anchors": ["src/imtjson/compress.tcc:71-135", "src/imtjson/compress.tcc:179-345", "src/imtjson/compress.tcc:15-20", "src/imtjson/parser.h:257-300"]}
{"id": "C174", "title": "What was read is written and read again as the same value", "statement": "A value that was read from a text can be written, and the text written is read as the very same value (so that the text written is a normal form: reading and writing it again changes nothing).", "quantifier": "All texts in which the parser finds a value (JSON or not), both outputs, any printer of doubles; values of any size and depth.", "why_tests_cant": "It quantifies over every input the lenient parser accepts, including texts no generator of JSON produces, and composes the parser, the canonical order of objects, the serializer and the parser again.", "anchors": ["src/imtjson/parser.h:257-572", "src/imtjson/serializer.h:90-253", "src/imtjson/value.cpp:85-126"]}
{"id": "C175", "title": "A number kept as text is read again as it was, whatever liberties its text takes", "statement": "With numbers kept as text, a number read from any text (also `+1`, `007` or `1.`, which are no JSON numbers) is written as a text which, before anything that does not continue a number, is read as the very same number: same text, same classification as unsigned, signed or floating point, and nothing of what follows is taken.", "quantifier": "All texts in which the parser finds a number, all white space before and all texts after it that do not continue a number, both outputs; numbers of any length.", "why_tests_cant": "It quantifies over every token the lenient reader accepts, of any length, and over every continuation; a test samples tokens a generator of JSON numbers produces.", "anchors": ["src/imtjson/parser.h:753-807", "src/imtjson/stringValue.cpp:282-311", "src/imtjson/serializer.h:90-253"]}
{"id": "C176", "title": "A document is read back as soon as each of its leaves is", "statement": "If every number and string of a document, written alone, is read back as itself, and every key is, then the whole document written by the serializer is read back as the very same value, and nothing of what follows it is taken: nesting, separators, neighbours and the order of keys lose nothing more.", "quantifier": "All values of any size and depth, any printer of doubles, any bytes in strings and keys, both outputs, both number modes, any white space before and any text after that does not continue a number.", "why_tests_cant": "It reduces the round trip of unboundedly many documents to that of their leaves, for printers and byte strings no test enumerates; a test checks one document and one printer at a time.", "anchors": ["src/imtjson/parser.h:265-386", "src/imtjson/serializer.h:90-140", "src/imtjson/parser.h:753-807"]}
{"id": "C177", "title": "What was read from well-formed UTF-8 text is written and read again as it was", "statement": "A value without floating point numbers (or any value, with numbers kept as text) read from a well-formed UTF-8 text, JSON or not, is written and read again as the very same value, also when escapes have put halves of surrogate pairs into its strings. The text is below 2^32 bytes or has only ASCII in the four bytes after each \\u, and for escaped output the text has no character above U+FFFF.", "quantifier": "All well-formed UTF-8 texts in which the parser finds a value, both outputs, both number modes, signed and unsigned sources, any printer of doubles; values of any size and depth.", "why_tests_cant": "It asks nothing of the value read, only of the text: every mixture of raw characters and escapes of any length, including escapes that make strings which are no UTF-8, has to survive decoder, encoder and decoder again.", "anchors": ["src/imtjson/parser.h:265-572", "src/imtjson/utf8.h:59-99", "src/imtjson/serializer.h:371-430"]}
{"id": "C178", "title": "What was read from any binary stream is written and read again as it was", "statement": "A value read from any binary JSON stream, also one no serializer wrote (members out of order, repeated or dangling key references, wider encodings than needed, shortened texts, single precision numbers), can be written with or without compressed keys and texts; reading that gives the same value and takes exactly the bytes written, and writing it again gives the same bytes. Only the mark of a diff is lost, and a positive number kept as signed is read as unsigned.", "quantifier": "All byte streams shorter than 2^32-256 bytes on which the parser returns, any behaviour of the source at its end, with or without an encoding for binary strings, all flags except maintain32BitComp.", "why_tests_cant": "It asks nothing of the value, so every stream the parser accepts counts, including crafted ones; tests of round trips start from values made by the library.", "anchors": ["src/imtjson/binjson.tcc:75-225", "src/imtjson/binjson.tcc:240-411", "src/imtjson/binjson.tcc:476-485"]}
{"id": "C179", "title": "What was read from text survives binary JSON", "statement": "A value read from a well-formed UTF-8 text, JSON or not, is written as binary JSON and read from it as the very same value: keys, order, nesting, integers, doubles bit for bit, strings also when escapes made them no UTF-8. Numbers kept as text are read as the numbers of their class, zeros as the integer zero.", "quantifier": "All well-formed UTF-8 texts (below 2^32 bytes, or with ASCII after each \\u) in which the parser finds a value of fewer than 2^32-256 nodes, both number modes, signed and unsigned sources, all flags except maintain32BitComp.", "why_tests_cant": "The binary form spoils texts whose first byte is 0x80-0xBF and has no form for the least integer (C18); that the text parser makes neither, whatever the escapes, is a statement on all texts.", "anchors": ["src/imtjson/parser.h:265-749", "src/imtjson/binjson.tcc:75-225", "src/imtjson/binjson.tcc:240-411", "src/imtjson/stringValue.cpp:282-311"]}
