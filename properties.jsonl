{"id": "C01", "title": "Binary round trip", "statement": "For every type that implements SerBin and DeBin (all built-in impls and derived structs, tuple structs and enums, including recursive and proxied ones) and every value v of it without SystemTime before the epoch, deserialize_bin(serialize_bin(v)) is Ok and equals v; a field marked skip comes back as its Default value.", "quantifier": "all supported types (any nesting, any set of derived definitions) and all values", "why_tests_cant": "values and type nestings are unbounded", "anchors": ["src/serde_bin.rs:SerBin,DeBin impls", "derive/src/serde_bin.rs:derive_ser_bin_struct,derive_de_bin_struct,derive_ser_bin_enum,derive_de_bin_enum"]}
{"id": "C02", "title": "Binary encodings are self-delimiting at any offset", "statement": "de_bin called with the offset of an encoding embedded between arbitrary bytes returns the encoded value and leaves the offset exactly at the first byte after the encoding.", "quantifier": "all types, values, prefixes and suffixes", "why_tests_cant": "arbitrary surrounding bytes", "anchors": ["src/serde_bin.rs:DeBin::de_bin", "src/serde_bin.rs:impl DeBin for Vec<T>"]}
{"id": "C03", "title": "Truncated binary input is rejected", "statement": "Decoding any strict prefix of serialize_bin(v) returns Err: never a value and never a panic.", "quantifier": "all types, values and truncation points", "why_tests_cant": "every cut point of every encoding", "anchors": ["src/serde_bin.rs:DeBin impls"]}
{"id": "C04", "title": "Binary decoding is local and never runs past the input", "statement": "If de_bin succeeds then the new offset is between the old offset and the input length, and appending or changing bytes at or after the new offset (or before the old one) does not change the value or the offset.", "quantifier": "all types, all byte strings, all offsets", "why_tests_cant": "arbitrary bytes", "anchors": ["src/serde_bin.rs:DeBin impls"]}
{"id": "C05", "title": "Where binary decoding can panic", "statement": "deserialize_bin on arbitrary bytes returns Ok or Err without panicking, except in exactly four situations, in each of which it does panic: a String length prefix whose end overflows usize (with overflow checks on, or the wrapped end inside the input), a Vec/HashSet/HashMap length prefix whose allocation size overflows, a Duration of u64::MAX seconds and 10^9 nanoseconds, and a SystemTime whose seconds do not fit i64. In particular no input whose length prefixes are small panics.", "quantifier": "all types and all byte strings, with and without overflow checks", "why_tests_cant": "hostile length prefixes need specific values", "anchors": ["src/serde_bin.rs:impl DeBin for String", "src/serde_bin.rs:impl DeBin for Vec<T>", "src/serde_bin.rs:impl DeBin for Duration", "src/serde_bin.rs:impl DeBin for std::time::SystemTime"]}
{"id": "C06", "title": "Binary serialization is injective and prefix-free", "statement": "Two values of one type with the same encoding are equal, and no value's encoding is a proper prefix of another's.", "quantifier": "all types, all pairs of values", "why_tests_cant": "pairs of values are unbounded", "anchors": ["src/serde_bin.rs:SerBin impls"]}
{"id": "C07", "title": "Binary enum discriminants", "statement": "A derived enum value is written as the 16-bit little-endian index of its variant in declaration order followed by its fields; decoding a tag that is not a declared index returns UnknownDiscriminant(tag).", "quantifier": "all enum definitions, variants and tags", "why_tests_cant": "arbitrary definitions", "anchors": ["derive/src/serde_bin.rs:derive_ser_bin_enum,derive_de_bin_enum"]}
{"id": "C08", "title": "Binary layout", "statement": "Integers occupy exactly their width in little-endian two's complement, usize and lengths are 8 bytes, String is length plus UTF-8 bytes, sequences are length plus items, arrays, tuples and structs are plain concatenation, so byte i of an integer is (n >> 8i) & 255 and sizes add up.", "quantifier": "all integers of all widths, all strings and containers", "why_tests_cant": "whole integer ranges", "anchors": ["src/serde_bin.rs:impl_ser_de_bin_for", "src/serde_bin.rs:impl SerBin for usize"]}
{"id": "C09", "title": "Lenient binary decoding is canonicalised by re-encoding", "statement": "bool decodes any non-zero byte as true and Option decodes any tag other than 1 as None; whenever bytes decode to a value, re-encoding that value and decoding again gives the same value.", "quantifier": "all types, all byte strings", "why_tests_cant": "arbitrary bytes", "anchors": ["src/serde_bin.rs:impl DeBin for bool", "src/serde_bin.rs:impl DeBin for Option<T>"]}
{"id": "C10", "title": "Binary map and set decoding", "statement": "Decoding a BTreeMap/HashMap from an entry sequence gives for each key the value of its last entry and no other keys; BTreeMap/BTreeSet results are strictly sorted; the result does not depend on the order in which distinct entries were written.", "quantifier": "all entry sequences, all comparison orders", "why_tests_cant": "all sequences and permutations", "anchors": ["src/serde_bin.rs:impl DeBin for BTreeMap<K, V>", "src/serde_bin.rs:impl DeBin for std::collections::HashMap<K, V>", "src/serde_bin.rs:impl DeBin for BTreeSet<T>"]}
{"id": "C11", "title": "Binary Duration and SystemTime", "statement": "Every Duration round-trips; nanos above 1_000_000_000 are rejected with a Range error; a SystemTime at or after the epoch round-trips and one before the epoch decodes as the epoch.", "quantifier": "all seconds and nanos, all instants", "why_tests_cant": "u64 x u32 range", "anchors": ["src/serde_bin.rs:impl DeBin for Duration", "src/serde_bin.rs:impl DeBin for std::time::SystemTime"]}
{"id": "C12", "title": "Binary length errors are accurate", "statement": "When a fixed-size primitive cannot be read the error carries the current offset, the size that was needed and the input length, the offset is left unchanged, and it occurs exactly when fewer bytes than needed remain.", "quantifier": "all primitive types, bytes and offsets", "why_tests_cant": "all offsets and lengths", "anchors": ["src/serde_bin.rs:impl_ser_de_bin_for", "src/serde_bin.rs:DeBinErr"]}
{"id": "C13", "title": "Binary strings are exactly the valid UTF-8 byte strings", "statement": "String decoding succeeds exactly when the length prefix fits in the input and the addressed bytes are well-formed UTF-8, and returns the string with exactly those bytes; overlong, surrogate and out-of-range encodings are errors.", "quantifier": "all byte strings", "why_tests_cant": "all byte strings", "anchors": ["src/serde_bin.rs:impl DeBin for String"]}
{"id": "C14", "title": "Fixed-size binary types", "statement": "A type built only from fixed-size parts (integers, floats, bool, unit, Duration, arrays, tuples and structs of these) encodes every value to the same number of bytes, and decoding consumes exactly that number.", "quantifier": "all such types and values", "why_tests_cant": "all nestings", "anchors": ["src/serde_bin.rs:impl_ser_de_bin_for", "src/serde_bin.rs:impl DeBin for [T; N]"]}
{"id": "C15", "title": "JSON string round trip", "statement": "For every Unicode string s, deserialize_json(serialize_json(s)) == Ok(s), including quotes, backslashes, control characters and NUL.", "quantifier": "all strings", "why_tests_cant": "all strings", "anchors": ["src/serde_json.rs:impl_ser_json_string", "src/serde_json.rs:DeJsonState::next_tok"]}
{"id": "C16", "title": "JSON string output is a legal RFC 8259 string", "statement": "serialize_json of any string is a double-quoted literal whose body contains no raw control character, quote or lone backslash, only legal escapes, and denotes exactly the string under RFC 8259's own reading.", "quantifier": "all strings", "why_tests_cant": "all strings", "anchors": ["src/serde_json.rs:impl_ser_json_string"]}
{"id": "C17", "title": "JSON unicode escapes", "statement": "Each \\uXXXX escape of a non-surrogate code unit decodes to that scalar and each lead/trail surrogate pair of escapes to the scalar of the UTF-16 pair, for any letter case of the hex digits; an unpaired or reversed surrogate or a non-hex digit is an error.", "quantifier": "all 65536 code units and all pairs, all hex spellings, anywhere in a string", "why_tests_cant": "2^20 pairs times spellings and contexts", "anchors": ["src/serde_json.rs:hex_unescape_char", "src/serde_json.rs:xdigit4"]}
{"id": "C18", "title": "JSON unsigned range", "statement": "Deserializing an unsigned integer type from a decimal numeral succeeds with exactly its value when that value fits the type and is an error otherwise; never a truncated value.", "quantifier": "all numerals (any number of digits, leading zeros, optional +), all unsigned types", "why_tests_cant": "unbounded numerals", "anchors": ["src/serde_json.rs:u64_range", "src/serde_json.rs:impl_ser_de_json_unsigned"]}
{"id": "C19", "title": "JSON signed range", "statement": "Deserializing a signed integer type from a decimal numeral outside [2^63, 2^64) succeeds with exactly its value when that value fits the type and is an error otherwise. The exception: every numeral in [2^63, 2^64) is accepted at every signed type, i8 included, as the value congruent to it modulo the size of the type.", "quantifier": "all numerals, all signed types", "why_tests_cant": "unbounded numerals", "anchors": ["src/serde_json.rs:i64_range", "src/serde_json.rs:impl_ser_de_json_signed"]}
{"id": "C20", "title": "JSON integer round trip", "statement": "Every value of every supported integer type round-trips through JSON as its canonical decimal numeral.", "quantifier": "all integer types and values", "why_tests_cant": "full 64-bit ranges", "anchors": ["src/serde_json.rs:impl_ser_de_json_unsigned", "src/serde_json.rs:impl_ser_de_json_signed"]}
{"id": "C21", "title": "JSON round trip", "statement": "For every type that implements SerJson and DeJson (built-in impls, derived structs with skip/rename/default/serialize_none_as_null, tuple and transparent structs, enums, recursive definitions, proxies) whose member names are distinct within a struct and need no escaping, and every value without non-finite floats, without nested nullable values under Option, without SystemTime before the epoch and in which an omitted None is the field's default, deserialize_json(serialize_json(v)) is Ok and equals v up to skipped fields. Struct variants with skip or rename on their fields are excluded (they do not round-trip).", "quantifier": "all types, definitions and values", "why_tests_cant": "unbounded types and values", "anchors": ["src/serde_json.rs:SerJson,DeJson impls", "derive/src/serde_json.rs:derive_ser_json_struct,derive_de_json_named,derive_ser_json_enum,derive_de_json_enum"]}
{"id": "C22", "title": "JSON output is valid RFC 8259", "statement": "serialize_json produces a text that is a JSON value under the RFC 8259 grammar, for every value without non-finite floats, without maps that have non-string keys, without struct variants that end in an omitted None, and for names without characters that need escaping. In each of these four excluded cases it can produce text that is not JSON.", "quantifier": "all types and values", "why_tests_cant": "unbounded outputs", "anchors": ["src/serde_json.rs:SerJson impls", "derive/src/serde_json.rs:derive_ser_json_enum"]}
{"id": "C23", "title": "JSON layout is irrelevant", "statement": "Inserting or removing whitespace, line comments and block comments between tokens does not change the result of deserialize_json (value or error reason).", "quantifier": "all types, all token sequences, all layouts", "why_tests_cant": "unbounded layouts", "anchors": ["src/serde_json.rs:DeJsonState::next_tok"]}
{"id": "C24", "title": "Trailing JSON content", "statement": "What follows the value: if the next thing is not a legible JSON token the input is rejected; if it is one of , : ] } everything from there on is ignored, so the result is that of the value alone (deserialize_json does not check that the input ends).", "quantifier": "all types and inputs", "why_tests_cant": "unbounded suffixes", "anchors": ["src/serde_json.rs:DeJson::deserialize_json"]}
{"id": "C25", "title": "JSON object key order is irrelevant", "statement": "Reordering the members of an object with distinct keys does not change the derived struct that is read.", "quantifier": "all definitions, all members, all permutations", "why_tests_cant": "all permutations", "anchors": ["derive/src/serde_json.rs:derive_de_json_named"]}
{"id": "C26", "title": "Unknown JSON keys are ignored", "statement": "A member whose key is not a field of the derived struct (which has at least one field) is skipped whatever well-formed JSON value it has, and the rest is read as if it were absent. In a struct without fields any member is an error.", "quantifier": "all definitions, keys and values of any nesting", "why_tests_cant": "unbounded nested values", "anchors": ["src/serde_json.rs:whole_field", "derive/src/serde_json.rs:derive_de_json_named"]}
{"id": "C27", "title": "Missing JSON keys", "statement": "If a key of a field without default is absent the result is the error MissingKey with the field's name; an absent Option field is None and an absent field with a default takes that default.", "quantifier": "all definitions and objects", "why_tests_cant": "all definitions", "anchors": ["derive/src/serde_json.rs:derive_de_json_named"]}
{"id": "C28", "title": "Repeated JSON keys", "statement": "When a key occurs more than once in an object the last occurrence wins, for derived structs and for maps.", "quantifier": "all definitions and member sequences", "why_tests_cant": "all sequences", "anchors": ["derive/src/serde_json.rs:derive_de_json_named", "src/serde_json.rs:impl DeJson for BTreeMap<K, V>"]}
{"id": "C29", "title": "Skipped JSON fields", "statement": "A struct field marked skip never appears in the output and its value does not influence the output; on input it always takes its default whatever the text says under that key, in structs and in struct variants. (When writing a struct variant the attribute is ignored.)", "quantifier": "all definitions, values and inputs", "why_tests_cant": "all values", "anchors": ["derive/src/serde_json.rs:derive_ser_json_struct,derive_de_json_named"]}
{"id": "C30", "title": "JSON rename is symmetric", "statement": "A renamed struct field or variant is written and read under the same new name, so renaming to distinct names that need no escaping never breaks a round trip. The exceptions: fields of struct variants are written under the old name and read under the new one, and names with quotes or backslashes are written unescaped.", "quantifier": "all definitions and names", "why_tests_cant": "all definitions", "anchors": ["derive/src/serde_json.rs:derive_ser_json_struct,derive_ser_json_enum,derive_de_json_enum"]}
{"id": "C31", "title": "JSON parsing terminates", "statement": "deserialize_json returns on every input, unless the input consists of JSON tokens among which some bracket is never closed; in particular on every JSON value, and on every input if no type has named fields. On an object with an unknown key followed by an unclosed bracket it never returns.", "quantifier": "all types and all input texts", "why_tests_cant": "non-termination needs particular unbounded searches", "anchors": ["src/serde_json.rs:whole_field", "src/serde_json.rs:next_tok"]}
{"id": "C32", "title": "Where JSON parsing can panic", "statement": "If deserialize_json panics then in the input a colon is not followed by a value, or the type involves Duration or SystemTime and the input has an integer of at least 2^63 - 1; so on a JSON value without such integers it returns Ok or Err. On an object with an unknown key followed by something that cannot begin a value it does panic.", "quantifier": "all types and all input texts", "why_tests_cant": "all inputs", "anchors": ["src/serde_json.rs:whole_field"]}
{"id": "C33", "title": "JSON error positions", "statement": "The line of an error is the number of newlines read so far and the column the number of characters read since the last newline, so the reported position is where reading stopped.", "quantifier": "all inputs and all failure points", "why_tests_cant": "all inputs", "anchors": ["src/serde_json.rs:DeJsonState::next", "src/serde_json.rs:DeJsonErr"]}
{"id": "C34", "title": "JSON enum representation", "statement": "A derived enum is read from exactly the representation it is written as (a string for unit variants, a one-member object otherwise); an unknown variant name is NoSuchEnum with that name, unless a string stands where the contents of the variant should be, or another string follows the name (then that string is taken for the name).", "quantifier": "all enum definitions, names and following text", "why_tests_cant": "all definitions", "anchors": ["derive/src/serde_json.rs:derive_ser_json_enum,derive_de_json_enum"]}
{"id": "C35", "title": "JSON Option and null", "statement": "None is written as null (or the member is omitted) and null reads back as None; Some(v) reads back as Some(v) unless v is itself written as null.", "quantifier": "all inner types and values", "why_tests_cant": "all types", "anchors": ["src/serde_json.rs:impl DeJson for Option<T>"]}
{"id": "C36", "title": "JSON floats", "statement": "Every finite f64/f32 round-trips (given that std's shortest formatting re-parses); every RFC 8259 number is accepted at a float type, with the value std's parser gives it when it has a fraction or exponent, except numbers with + in the exponent and integers outside the u64 and i64 ranges, which are errors; non-finite values do not produce a readable text.", "quantifier": "all float values and all number spellings", "why_tests_cant": "2^64 values, unbounded spellings", "anchors": ["src/serde_json.rs:impl_ser_de_json_float", "src/serde_json.rs:as_f64", "src/serde_json.rs:next_tok"]}
{"id": "C37", "title": "JSON fixed-arity sequences", "statement": "[T; N] and tuples accept exactly the arrays with the right number of elements (a trailing comma is tolerated) and yield the elements in order; any other length is an error.", "quantifier": "all N, element types and arrays", "why_tests_cant": "all N", "anchors": ["src/serde_json.rs:impl DeJson for [T; N]", "src/serde_json.rs:de_json_comma_block"]}
{"id": "C38", "title": "Where serializing arrays can panic", "statement": "serialize_json and serialize_ron return a text for every value of a program without [T; 0], and without overflow checks for every value; [T; 0] panics when overflow checks are on.", "quantifier": "all lengths and element types", "why_tests_cant": "needs N = 0", "anchors": ["src/serde_json.rs:impl SerJson for [T]", "src/serde_ron.rs:impl SerRon for [T]"]}
{"id": "C39", "title": "RON string round trip", "statement": "For every Unicode string s, deserialize_ron(serialize_ron(s)) == Ok(s).", "quantifier": "all strings", "why_tests_cant": "all strings", "anchors": ["src/serde_ron.rs:impl SerRon for String", "src/serde_ron.rs:DeRonState::next_tok"]}
{"id": "C40", "title": "RON round trip", "statement": "For every type that implements SerRon and DeRon (no proxies) whose names are distinct identifiers other than true and false, and every value without non-finite floats, without Some(v) where the text of v begins with None, without SystemTime before the epoch and in which an omitted None is the field's default, deserialize_ron(serialize_ron(v)) is Ok and equals v up to skipped fields. Struct variants with skip or rename on their fields are excluded (they do not round-trip).", "quantifier": "all types, definitions and values", "why_tests_cant": "unbounded", "anchors": ["src/serde_ron.rs:SerRon,DeRon impls", "derive/src/serde_ron.rs:derive_ser_ron_struct,derive_de_ron_named,derive_ser_ron_enum,derive_de_ron_enum"]}
{"id": "C41", "title": "RON layout is irrelevant", "statement": "Inserting or removing whitespace and comments between tokens does not change the result of deserialize_ron (value or error reason).", "quantifier": "all types, token sequences and layouts", "why_tests_cant": "unbounded layouts", "anchors": ["src/serde_ron.rs:DeRonState::next_tok"]}
{"id": "C42", "title": "Unknown RON fields are rejected", "statement": "A field name that the derived struct (or struct variant, with at least one field) does not declare is the error UnexpectedKey with that name; in a struct without fields it is a token error.", "quantifier": "all definitions and names", "why_tests_cant": "all definitions", "anchors": ["derive/src/serde_ron.rs:derive_de_ron_named"]}
{"id": "C43", "title": "RON missing and repeated fields", "statement": "An absent field without default is MissingKey with its name, an absent optional or defaulted field takes its default, and of a repeated field the last occurrence wins, in any order of fields.", "quantifier": "all definitions and member sequences", "why_tests_cant": "all sequences", "anchors": ["derive/src/serde_ron.rs:derive_de_ron_named"]}
{"id": "C44", "title": "RON error positions", "statement": "The reported line of an error is the number of newlines read when it was detected; the reported column is always 0.", "quantifier": "all inputs", "why_tests_cant": "all inputs", "anchors": ["src/serde_ron.rs:DeRonState::next"]}
{"id": "C45", "title": "RON parsing terminates without panicking", "statement": "deserialize_ron returns on every input for every type, and returns Ok or Err unless the type involves Duration or SystemTime and the input has a run of digits of value at least 2^63 - 1 (two such inputs that panic are given).", "quantifier": "all types and inputs", "why_tests_cant": "all inputs", "anchors": ["src/serde_ron.rs:DeRonState::next_tok"]}
{"id": "C46", "title": "RON lexical edge cases", "statement": "Character literals and a block comment that is never closed are treated as white space; other malformed tokens (a quote that begins no string literal, a slash that begins no comment, an unclosed character literal, a character that begins no token) are errors at every type.", "quantifier": "all inputs", "why_tests_cant": "all inputs", "anchors": ["src/serde_ron.rs:DeRonState::next_tok"]}
{"id": "C47", "title": "RON numbers and booleans", "statement": "Unsigned integers are accepted exactly when in range and signed ones too, except that every numeral in [2^63, 2^64) is accepted at every signed type as the value congruent to it modulo the size of the type; nothing but an integer numeral is accepted; bool accepts true, false and unsigned numerals (0 is false) and nothing else.", "quantifier": "all numerals and types", "why_tests_cant": "unbounded numerals", "anchors": ["src/serde_ron.rs:u64_range", "src/serde_ron.rs:i64_range", "src/serde_ron.rs:as_bool"]}
{"id": "C48", "title": "TOML parsing terminates; where it can panic", "statement": "TomlParser::parse returns on every input, and it panics only on an input in which a [[name]] header follows a part that parses to a map where name is bound to something that is not an array of tables; documents without such a header never panic.", "quantifier": "all inputs", "why_tests_cant": "all inputs", "anchors": ["src/toml.rs:TomlParser::parse", "src/toml.rs:Out::start_array"]}
{"id": "C49", "title": "TOML documents mean what they say", "statement": "Parsing a document of [section] headers and key = value lines yields exactly the map from section.key (or key) to value, the last assignment of a key winning.", "quantifier": "all documents of that shape, all layouts", "why_tests_cant": "unbounded documents", "anchors": ["src/toml.rs:parse_line", "src/toml.rs:parse_key_value"]}
{"id": "C50", "title": "TOML arrays of tables", "statement": "Each [[name]] header appends one table to the array stored under name and the following assignments, up to the next [[..]] header and including those under [section] headers (with the section's prefix), go to that last table; earlier tables are never changed. If name was assigned before, the parser panics.", "quantifier": "all documents of that shape", "why_tests_cant": "unbounded documents", "anchors": ["src/toml.rs:Out::start_array", "src/toml.rs:Out::out"]}
{"id": "C51", "title": "TOML comments and blank space", "statement": "Comments and whitespace between tokens do not change the parsed map.", "quantifier": "all layouts", "why_tests_cant": "unbounded layouts", "anchors": ["src/toml.rs:next_tok"]}
{"id": "C52", "title": "TOML strings", "statement": "A double-quoted non-empty string without quotes and backslashes denotes exactly its characters. The exception is the empty string, whose closing quote is taken for the start of a triple quote or of content.", "quantifier": "all strings", "why_tests_cant": "all strings", "anchors": ["src/toml.rs:next_tok"]}
{"id": "C53", "title": "TOML arrays", "statement": "An array of values denotes the list of its element values, at any nesting, with or without trailing comma, provided that an element which is a word (true, false, inf, nan) is followed by white space or a bracket; a word directly followed by a comma is an error.", "quantifier": "all nested arrays", "why_tests_cant": "unbounded nesting", "anchors": ["src/toml.rs:to_val"]}
{"id": "C54", "title": "TOML integers", "statement": "An integer literal (with optional sign and underscores) within the i64 range denotes its value, and one outside it is an error.", "quantifier": "all literals", "why_tests_cant": "unbounded literals", "anchors": ["src/toml.rs:parse_num"]}
{"id": "C55", "title": "TOML error positions", "statement": "The line of a TOML error is the number of newlines read; the column is always 0.", "quantifier": "all inputs", "why_tests_cant": "all inputs", "anchors": ["src/toml.rs:TomlParser::next"]}
{"id": "C56", "title": "Derive attribute reading", "statement": "Reading the #[nserde(...)] attributes of an item yields each listed option with its value in order, and each lookup (proxy, rename, default, default_with, skip, transparent, crate, serialize_none_as_null) returns the first matching one.", "quantifier": "all attribute lists", "why_tests_cant": "unbounded lists", "anchors": ["derive/src/parse.rs:next_attribute,next_attributes_list", "derive/src/shared.rs:attrs_*"]}
{"id": "C57", "title": "Container attributes", "statement": "The crate and proxy options of a struct are the first such options written on it and the generated code uses them; on an enum no container option has any effect (the crate name is nanoserde and there is no proxy, whatever is written).", "quantifier": "all items of the supported fragment and all attributes", "why_tests_cant": "all items", "anchors": ["derive/src/parse.rs:parse_data,next_enum", "derive/src/shared.rs:attrs_crate,attrs_proxy"]}
{"id": "C58", "title": "Derive reads struct declarations as written", "statement": "For every struct declaration built from attributes, visibility, generics with bounds and where clauses, and named, tuple or no fields whose types are paths with arguments, references, arrays, tuples, function types and closure bounds with at most one argument, trait objects, associated type bindings and combinations of these, the derive sees exactly its name, its options, its fields in order (name, type, options) and its generics. The declarations outside the fragment that the macro misreads or panics on are named.", "quantifier": "all declarations of the fragment, any nesting of types, any number of fields and attributes", "why_tests_cant": "unbounded declarations", "anchors": ["derive/src/parse.rs:parse_data,next_struct,next_fields,next_type"]}
{"id": "C59", "title": "Derive reads enum declarations as written", "statement": "The same for enum declarations: name, variants in order with names, options and contents (unit, discriminant, tuple, named), generics.", "quantifier": "all enum declarations of the fragment", "why_tests_cant": "unbounded declarations", "anchors": ["derive/src/parse.rs:parse_data,next_enum"]}
{"id": "C60", "title": "Derived default expressions", "statement": "The default of a field is that of the first default option on it, else the call of default_with, else absent; a value default is a string literal exactly for text types and is wrapped in Some for Option fields.", "quantifier": "all fields, options and types", "why_tests_cant": "all options and types", "anchors": ["derive/src/serde_json.rs:derive_de_json_named", "derive/src/serde_ron.rs:derive_de_ron_named"]}
{"id": "C61", "title": "Derived impl headers", "statement": "The generated impl lists the generic parameters in order, each type parameter with the bounds written on it and in the where clause plus the derived trait, and names the item with the same parameters.", "quantifier": "all generics of the fragment, all traits", "why_tests_cant": "all generics", "anchors": ["derive/src/shared.rs:struct_bounds_strings,enum_bounds_strings", "derive/src/parse.rs:get_all_bounds"]}
{"id": "C62", "title": "The derive goes from tokens to the type that is serialized", "statement": "Composing reading and generation, the definition used by the SerBin/DeBin, SerJson/DeJson and SerRon/DeRon code is the one read off the declaration text; in particular the bytes of a value are those of its fields not marked skip, in declaration order.", "quantifier": "all declarations of the fragment, all values", "why_tests_cant": "unbounded declarations and values", "anchors": ["derive/src/serde_bin.rs:derive_ser_bin_struct", "derive/src/serde_json.rs:derive_ser_json_struct", "derive/src/serde_ron.rs:derive_ser_ron_struct", "derive/src/parse.rs:parse_data"]}
{"id": "C63", "title": "JSON values are read as exactly what they mean", "statement": "A text of a JSON value, in any layout, is read at a type as the value v exactly if the JSON value denotes v (rules per kind of type: scalars, sequences, sets, maps, tuples, structs with defaults, skip, rename and optional fields, enums, transparent and proxied types), and is an error exactly if it denotes nothing (integers so large that a time overflows excepted); it denotes at most one value.", "quantifier": "all programs with distinct names, all types, JSON values and layouts", "why_tests_cant": "unbounded types, values and layouts", "anchors": ["src/serde_json.rs:DeJson impls", "derive/src/serde_json.rs:derive_de_json_named,derive_de_json_enum,derive_de_json_struct_unnamed"]}
{"id": "C64", "title": "RON readers return exactly what the text stands for", "statement": "On every text whatever, a RON reader for a type returns v exactly if the text begins with a RON value that denotes v at that type, followed by the end or by one more legible lexeme; the only exception is two words in a row at top level, where an enum reader takes the second word as the name of a unit variant. No text stands for two values.", "quantifier": "all texts, programs with distinct names, types", "why_tests_cant": "unbounded texts, types and layouts", "anchors": ["src/serde_ron.rs:DeRonState::next_tok,DeRon impls", "derive/src/serde_ron.rs:derive_de_ron_named,derive_de_ron_enum,derive_de_ron_struct_unnamed"]}
{"id": "C65", "title": "RON readers reject exactly the texts that stand for nothing", "statement": "A RON reader fails with an error exactly if the text begins with no RON value of its type (huge integers in a program with times excepted); whatever follows the first lexeme after a value is never looked at.", "quantifier": "all texts, well-formed programs with distinct names, types", "why_tests_cant": "unbounded texts", "anchors": ["src/serde_ron.rs:DeRonState::next_tok,DeRon impls", "derive/src/serde_ron.rs:derive_de_ron_named,derive_de_ron_enum,derive_de_ron_struct_unnamed"]}
{"id": "C66", "title": "JSON readers return exactly what the text stands for", "statement": "On every text whatever, JSON or not, a JSON reader for a type returns v exactly if the text begins with lexemes that denote v at that type, followed by the end or by one more legible lexeme (the value of an unknown member may be any bracketed run of lexemes, with kinds not matching); the only exception is two strings in a row at top level, where an enum reader takes the second string as the name of a unit variant. No text stands for two values.", "quantifier": "all texts, programs with distinct names, types", "why_tests_cant": "unbounded texts, types and layouts", "anchors": ["src/serde_json.rs:DeJsonState::next_tok,whole_field,DeJson impls", "derive/src/serde_json.rs:derive_de_json_named,derive_de_json_enum,derive_de_json_struct_unnamed"]}
{"id": "C67", "title": "JSON readers reject exactly the texts that stand for nothing", "statement": "A JSON reader fails with an error exactly if the text stands for no value of its type, provided every bracket is closed, no colon is left without a value and no huge integer meets a time; without named fields and times there is no proviso. Whatever follows the first lexeme after a value is never looked at.", "quantifier": "all texts, well-formed programs with distinct names, types", "why_tests_cant": "unbounded texts", "anchors": ["src/serde_json.rs:DeJsonState::next_tok,whole_field,DeJson impls", "derive/src/serde_json.rs:derive_de_json_named,derive_de_json_enum,derive_de_json_struct_unnamed"]}
{"id": "C68", "title": "Binary readers return exactly what the bytes stand for", "statement": "At every offset of every input, de_bin for a type returns v and advances past the bytes bs exactly if bs stand for v (rules per kind of type: little-endian two's complement, length-prefixed UTF-8, tags of which only 1 is Some, a billion nanoseconds carried, repeated set elements and keys merged, skipped fields defaulted, variants by number); deserialize_bin ignores what follows. The bytes written for a value stand for it, and no input has two readings.", "quantifier": "all inputs up to isize::MAX bytes, all offsets, programs and types", "why_tests_cant": "unbounded inputs and types", "anchors": ["src/serde_bin.rs:DeBin impls", "derive/src/serde_bin.rs:derive_de_bin_struct,derive_de_bin_enum"]}
{"id": "C69", "title": "Binary readers always stop and reject exactly what stands for nothing", "statement": "deserialize_bin stops on every input for every type that does not contain itself unconditionally, with an error exactly if no beginning of the input stands for a value of the type, unless a length or time near the end of the 64-bit range makes it panic. For a type such as struct T(Box<T>) it never returns.", "quantifier": "all inputs up to isize::MAX bytes, well-formed programs and types", "why_tests_cant": "unbounded inputs and types", "anchors": ["src/serde_bin.rs:DeBin impls", "derive/src/serde_bin.rs:derive_de_bin_struct,derive_de_bin_enum"]}
{"id": "C70", "title": "TOML parsing returns exactly what the text says", "statement": "On every text whatever, TOML or not, parse returns a map exactly if the text consists of spellings of the tokens of a document (every accepted spelling is listed, including doubled quotes, runs of quotes in long strings, signs and underscores lost from words, missing commas and missing closing brackets at the end, and a NUL taken for the end) without a [[name]] header for a key assigned before, and the map is the one the document stands for. No text is two documents.", "quantifier": "all texts", "why_tests_cant": "unbounded texts", "anchors": ["src/toml.rs:TomlParser::parse,next_tok,parse_line,parse_val"]}
{"id": "C71", "title": "TOML parsing rejects or panics on exactly the other texts", "statement": "parse panics exactly if the text begins with statements among which a [[name]] header names a key assigned before the first such header, whatever follows; it fails with an error exactly if the text is no document and does not begin so.", "quantifier": "all texts", "why_tests_cant": "unbounded texts", "anchors": ["src/toml.rs:TomlParser::parse,next_tok,parse_line,parse_val", "src/toml.rs:Out::start_array"]}
{"id": "C72", "title": "Generated binary writers", "statement": "The ser_bin code the derive generates for a struct (without container proxy) or enum declaration, when it compiles, appends exactly the bytes of the declared type: the fields not marked skip in declaration order (through the proxy where one is named), after a 16-bit variant number for enums. It compiles when names are distinct, no tuple-struct field is marked skip, no struct variant has a field called s and there are at most 65536 variants.", "quantifier": "all declarations of the supported fragment, all values", "why_tests_cant": "unbounded declarations and values", "anchors": ["derive/src/serde_bin.rs:derive_ser_bin_struct,derive_ser_bin_struct_unnamed,derive_ser_bin_enum"]}
{"id": "C73", "title": "Generated JSON writers", "statement": "The ser_json code the derive generates for a struct (without container proxy) or enum appends exactly the text of the declared type (rename, skip, omitted or null None, proxies, transparent, arrays and objects of variants), for the declarations for which it compiles: distinct names, no struct-variant field called s or d, and no proxy on a struct-variant field that is not an Option.", "quantifier": "all declarations of the supported fragment, all values", "why_tests_cant": "unbounded declarations and values", "anchors": ["derive/src/serde_json.rs:derive_ser_json_struct,derive_ser_json_struct_unnamed,derive_ser_json_enum"]}
{"id": "C74", "title": "Generated RON writers", "statement": "The ser_ron code the derive generates for a struct (without container proxy) or enum appends exactly the text of the declared type (rename and skip on struct fields, omitted None, tuples, variants), for the declarations for which the macro returns and its code compiles: distinct names, at least one field in a tuple struct and none marked skip, no struct-variant field called s or d.", "quantifier": "all declarations of the supported fragment, all values", "why_tests_cant": "unbounded declarations and values", "anchors": ["derive/src/serde_ron.rs:derive_ser_ron_struct,derive_ser_ron_struct_unnamed,derive_ser_ron_enum"]}
{"id": "C75", "title": "Generated binary readers", "statement": "The de_bin code the derive generates for a struct (without container proxy) or enum declaration, when the macro returns and the code compiles, is the reader of the declared type on every input: same value, same offset, same error. The macro panics on skip in a tuple struct; names must be distinct and there are at most 65536 variants.", "quantifier": "all declarations of the supported fragment, all inputs and offsets", "why_tests_cant": "unbounded declarations and inputs", "anchors": ["derive/src/serde_bin.rs:derive_de_bin_struct,derive_de_bin_struct_unnamed,derive_de_bin_enum"]}
{"id": "C76", "title": "Generated JSON readers", "statement": "The de_json code the derive generates for a struct (without container proxy) or enum is the reader of the declared type in every reader state: same value, same next state, same error with the same position (options, defaults, rename, skip, proxies, transparent and one-field tuple structs, all three kinds of variant), for the declarations for which it compiles: distinct names and no struct S().", "quantifier": "all declarations of the supported fragment, all reader states", "why_tests_cant": "unbounded declarations and inputs", "anchors": ["derive/src/serde_json.rs:derive_de_json_struct,derive_de_json_named,derive_de_json_struct_unnamed,derive_de_json_enum"]}
{"id": "C77", "title": "Generated RON readers", "statement": "The de_ron code the derive generates for a struct (without container proxy) or enum is the reader of the declared type in every reader state: same value, same next state, same error with the same position, for the declarations for which it compiles: distinct names and no struct S;", "quantifier": "all declarations of the supported fragment, all reader states", "why_tests_cant": "unbounded declarations and inputs", "anchors": ["derive/src/serde_ron.rs:derive_de_ron_struct,derive_de_ron_named,derive_de_ron_struct_unnamed,derive_de_ron_enum"]}
{"id": "C78", "title": "Deriving both ways round-trips", "statement": "For every declaration for which the derived writer and reader of a format compile, running the generated writer on a value and the generated reader on what it wrote gives the value back, up to skipped fields, under the conditions of the round trip of that format (binary also in the middle of other data).", "quantifier": "all declarations of the supported fragment, all values", "why_tests_cant": "unbounded declarations and values", "anchors": ["derive/src/serde_bin.rs:derive_ser_bin_struct,derive_de_bin_struct,derive_ser_bin_enum,derive_de_bin_enum", "derive/src/serde_json.rs:derive_ser_json_struct,derive_de_json_struct,derive_ser_json_enum,derive_de_json_enum", "derive/src/serde_ron.rs:derive_ser_ron_struct,derive_de_ron_struct,derive_ser_ron_enum,derive_de_ron_enum"]}
{"id": "C79", "title": "Structs with a container proxy", "statement": "For a struct with the option proxy = P, whatever its fields, the derived writers write exactly what P's writer writes for the converted value, and the derived binary and JSON readers read a P, convert it back, stop where P's reader stops and fail as it fails; the derived RON reader does not compile. On an enum the option has no effect.", "quantifier": "all struct declarations with a proxy, all values and inputs", "why_tests_cant": "all declarations and inputs", "anchors": ["derive/src/serde_bin.rs:derive_ser_bin_proxy,derive_de_bin_proxy", "derive/src/serde_json.rs:derive_ser_json_proxy,derive_de_json_proxy", "derive/src/serde_ron.rs:derive_ser_ron_proxy,derive_de_ron_proxy", "derive/src/lib.rs:derive_ser_bin,derive_de_bin"]}
{"id": "C80", "title": "JSON documents survive program evolution", "statement": "What an old version of a program wrote with serialize_json is read by deserialize_json in a new version as the corresponding value, when the types changed by: adding fields that may be absent (Option, default, skip), removing fields (not all), reordering them, renaming them in the source with rename keeping the name in JSON, adding, reordering or so renaming enum variants, widening integers, T to Option<T>, adding or removing Box or transparent newtypes, sets, arrays or lists to Vec or LinkedList, at any depth and in any combination. Kept fields have the corresponding value, new and skipped ones their default.", "quantifier": "all programs and pairs of versions related by these changes, all values JSON represents exactly", "why_tests_cant": "unbounded programs, types, changes and values", "anchors": ["src/serde_json.rs:DeJson impls,SerJson impls", "derive/src/serde_json.rs:derive_ser_json_struct,derive_de_json_named,derive_de_json_enum,derive_ser_json_enum"]}
{"id": "C81", "title": "Binary data survives program evolution", "statement": "Two versions of a program that differ in names, in writing a struct as a tuple struct, tuple or array or back, in fields marked skip, in boxes and newtypes, in usize against u64, in the kind of collection, or by enum variants added at the end, give corresponding values the same bytes, so that each reads the other's data as the corresponding value. A reader whose outermost struct lacks fields that were added at the end reads the fields it knows; one whose outermost struct has such fields rejects older data, whatever their type.", "quantifier": "all programs and pairs of versions so related, all values without instants before the epoch", "why_tests_cant": "unbounded programs, types, changes and values", "anchors": ["src/serde_bin.rs:SerBin impls,DeBin impls", "derive/src/serde_bin.rs:derive_ser_bin_struct,derive_de_bin_struct,derive_ser_bin_enum,derive_de_bin_enum"]}
{"id": "C82", "title": "Array readers are memory-safe", "statement": "Reading [T; N] in any of the three formats, for every N, every element reader and every point at which it fails, gives the result of a plain loop over the elements and never treats an uninitialised slot as a T; on success the N elements created are returned, each once, and none is dropped; on an error (in an element, a separator or a bracket) every element created has been dropped exactly once, so nothing leaks; if an element reader panics nothing is dropped twice.", "quantifier": "all lengths, element types and readers, inputs and failure points", "why_tests_cant": "unbounded lengths and failure points", "anchors": ["src/serde_bin.rs:DeBin for [T; N]", "src/serde_json.rs:DeJson for [T; N]", "src/serde_ron.rs:DeRon for [T; N]"]}
{"id": "C83", "title": "Error messages say where and why", "statement": "The text an error prints as is the format's prefix, the reason, and the line and column, both counted from 1: the line is one more than the number of newlines read and the JSON column one more than the number of characters since the last newline (RON and TOML always print column 1). Two errors print the same text only if they have the same kind of reason, the same position and the same named key, token or expectation (floats and characters excepted). Missing keys, unknown variants and unknown fields are named in the text; binary errors give offset, length asked for and length present, except that unknown variants always say offset 0.", "quantifier": "all inputs, programs and types", "why_tests_cant": "all inputs and names", "anchors": ["src/serde_json.rs:DeJsonErr Display", "src/serde_ron.rs:DeRonErr Display", "src/toml.rs:TomlErr Display", "src/serde_bin.rs:DeBinErr Display"]}
{"id": "C84", "title": "TOML lookups", "statement": "Indexing the result of parse with a key gives the value last assigned to that key (with its section) before the first [[..]] header, indexing it with a [[name]], a number j and a key gives the value last assigned to that key under the j-th such header, arr().len() is the number of these headers; each panics exactly if there is no such thing. On every value exactly one of num, str, boolean, date, arr and simple_arr returns.", "quantifier": "all documents, keys and indices", "why_tests_cant": "unbounded documents", "anchors": ["src/toml.rs:Toml::num,str,boolean,date,arr,simple_arr", "src/toml.rs:Index for Toml"]}
{"id": "C85", "title": "What a text reader returns is a value of the type", "statement": "Whatever deserialize_json or deserialize_ron returns for a text, well-formed or not, is a value of the type asked for: integers in range, fewer than a billion nanoseconds, sets and maps without repeated keys, ordered ones in order, arrays of their length, existing variants, fields of their types.", "quantifier": "all texts, programs whose defaults and proxy conversions have the right types, types", "why_tests_cant": "unbounded texts and types", "anchors": ["src/serde_json.rs:DeJson impls", "src/serde_ron.rs:DeRon impls", "derive/src/serde_json.rs:derive_de_json_*", "derive/src/serde_ron.rs:derive_de_ron_*"]}
{"id": "C86", "title": "Reading, writing and reading again", "statement": "A value read from any text, if its floats are finite, is written as a text from which the same value is read again, so that loading and saving a document loses nothing and saving it twice changes nothing. (RON: when no enum variant is called None; otherwise A None read as an Option is written as None and changes.)", "quantifier": "all texts, programs with well-behaved defaults and proxy conversions, types", "why_tests_cant": "unbounded texts", "anchors": ["src/serde_json.rs:SerJson::serialize_json,DeJson::deserialize_json", "src/serde_ron.rs:SerRon::serialize_ron,DeRon::deserialize_ron"]}
{"id": "C87", "title": "Texts identify values", "statement": "Two values of a type that have the same JSON text, or the same RON text, are equal up to their skipped fields, for the values that the format represents.", "quantifier": "all values, programs, types", "why_tests_cant": "unbounded values", "anchors": ["src/serde_json.rs:SerJson::serialize_json", "src/serde_ron.rs:SerRon::serialize_ron"]}
{"id": "C88", "title": "Several values in one text, read one by one", "statement": "Calling de_json (or de_ron) for the types t1, t2, … in turn on one text, or for one type until the token is end of file, gives the values v1, v2, … with nothing left exactly if the text consists of lexemes denoting v1, then lexemes denoting v2, and so on; the only exception is a string (RON: a word) directly followed by another one, where an enum reader takes the second as the name of a unit variant without consuming it.", "quantifier": "all texts, programs with distinct names, lists of types", "why_tests_cant": "unbounded texts and lists of values", "anchors": ["src/serde_json.rs:DeJsonState::next_tok,DeJson impls", "src/serde_ron.rs:DeRonState::next_tok,DeRon impls", "derive/src/serde_json.rs:derive_de_json_enum", "derive/src/serde_ron.rs:derive_de_ron_enum"]}
{"id": "C89", "title": "One value per line round-trips", "statement": "Values of one type, each written with serialize_json (serialize_ron) and followed by white space, are read back in order by calling de_json (de_ron) until the end of the text, skipped fields at their defaults, unless the type is an enum (or wraps one) and a unit variant follows a unit variant (RON: precedes another value): two unit variants on neighbouring lines are both read as the second.", "quantifier": "all lists of values the format represents, all separators, programs and types", "why_tests_cant": "unbounded lists of values", "anchors": ["src/serde_json.rs:SerJson::serialize_json,DeJson::de_json", "src/serde_ron.rs:SerRon::serialize_ron,DeRon::de_ron", "derive/src/serde_json.rs:derive_de_json_enum", "derive/src/serde_ron.rs:derive_de_ron_enum"]}
{"id": "C90", "title": "RON texts survive program evolution", "statement": "What an old version of a program wrote with serialize_ron is read by deserialize_ron in a new version as the corresponding value, when the types changed by: adding fields that may be absent (Option, default, skip), reordering fields, renaming them in the source with rename keeping the RON name, adding or reordering enum variants, widening integers, T to Option<T>, adding or removing Box, sets or lists to Vec or LinkedList, tuples, arrays and tuple structs with as many components to each other, at any depth and in any combination. A written field may not be removed: its name is then the error UnexpectedKey.", "quantifier": "all programs and pairs of versions related by these changes, all values RON represents exactly, no variant with data called None", "why_tests_cant": "unbounded programs, types, changes and values", "anchors": ["src/serde_ron.rs:DeRon impls,SerRon impls", "derive/src/serde_ron.rs:derive_ser_ron_struct,derive_de_ron_named,derive_de_ron_enum,derive_ser_ron_enum"]}
{"id": "C91", "title": "Nesting and loop rounds grow linearly with the input, without limit", "statement": "For every type there is a constant K such that on an input of n bytes or characters the reader has at most K*(n+1) reader calls open at any moment (for the text formats also at most that many rounds in each loop), so stack use is proportional to the input; and no reader has a recursion limit: inputs of k+1 bytes (binary) or 2k+6 characters (JSON, RON) that are valid values need more than 3k open calls for every k, so a long enough valid input overflows any stack. (JSON: unless the text is made of lexemes with an unclosed bracket, where skipping an unknown key loops for ever.)", "quantifier": "all inputs, well-formed programs and types", "why_tests_cant": "unbounded inputs", "anchors": ["src/serde_bin.rs:DeBin impls", "src/serde_json.rs:DeJson impls", "src/serde_ron.rs:DeRon impls"]}
{"id": "C92", "title": "Readers return nothing larger than their input", "statement": "What a reader returns holds at most as much (numbers, tags, characters, elements) as its input is long: for the binary format no more than the bytes consumed (elements of collections included if each takes at least one byte), for JSON and RON no more than the length of the text times one more than what default values of one struct hold, for TOML (keys not counted) no more than the length of the text. So no short input makes a reader build a large value, except that a collection of elements that take no bytes, such as Vec<()>, has any length up to 2^64 - 1 for eight bytes.", "quantifier": "all inputs, programs whose proxy conversions add no data (binary: and whose skipped fields default to nothing), types", "why_tests_cant": "unbounded inputs", "anchors": ["src/serde_bin.rs:DeBin impls", "src/serde_json.rs:DeJson impls", "src/serde_ron.rs:DeRon impls", "src/toml.rs:TomlParser::parse"]}
{"id": "C93", "title": "A text cut off before its end is not mistaken for a value", "statement": "Let a JSON text be exactly one value other than a number (for instance what serialize_json wrote for a struct, enum, collection, string, Option or bool), without white space or comments before it: no reader of any type of any program returns Ok on a proper prefix of it. The same holds in RON for texts that begin with a bracket or a quote, and there the reader returns Err; a JSON reader returns Err too if the program has no named fields and no times. (A truncated number is a number, and a truncated RON variant name may be another variant.)", "quantifier": "all values and texts, all points at which the text is cut off, all readers of all programs", "why_tests_cant": "unbounded texts, every cut-off point and every reading program", "anchors": ["src/serde_json.rs:DeJsonState::next_tok,DeJson impls", "src/serde_ron.rs:DeRonState::next_tok,DeRon impls", "derive/src/serde_json.rs:derive_de_json_*", "derive/src/serde_ron.rs:derive_de_ron_*"]}
{"id": "C94", "title": "Values move between formats unchanged", "statement": "Whatever `deserialize_json` or `deserialize_ron` returned, for any text, is written by `serialize_bin` as bytes from which `deserialize_bin` returns the same value, having read them all (infinite floats included), provided a skipped field has the same default for the text readers as for the binary one; if the two defaults differ the field changes. A value with finite floats that `deserialize_json` returned is written by `serialize_ron` as a text from which `deserialize_ron` returns the same value (no proxies, no variant called `None`). A value that `deserialize_bin` returned and that JSON or RON represents at all is written as a text from which it is read back.", "quantifier": "all programs, types, texts and byte strings that a reader accepts", "why_tests_cant": "A test converts a few documents; losing information needs a value only the first format's reader can produce (defaults, wrapped numbers, repeated keys).", "anchors": ["src/serde_bin.rs:SerBin::serialize_bin,DeBin::deserialize_bin", "src/serde_json.rs:SerJson::serialize_json,DeJson::deserialize_json", "src/serde_ron.rs:SerRon::serialize_ron,DeRon::deserialize_ron", "derive/src/serde_json.rs:derive_de_json_named", "derive/src/serde_bin.rs:derive_de_bin_struct"]}
{"id": "C95", "title": "A JSON text that breaks off neither panics nor hangs a reader that knows its keys", "statement": "Let a text, complete or cut off anywhere, be the beginning of a text whose tokens are those of a JSON value. A reader whose types contain every object key occurring where it reads a struct, and for which no Duration or SystemTime is out of range, returns Ok or Err on it, with no panic and no endless loop; with Err if something is missing and the value is not a number. In particular a file written by serialize_json and cut off anywhere (a crash while writing, a partial download) is refused with Err by the program that wrote it. The exception is real: after an unknown key a reader of a struct hangs on {\"k\":[ and panics on {\"k\":.", "quantifier": "all JSON values and spellings, all points at which the text is cut off, all programs and types", "why_tests_cant": "unbounded texts and every cut-off point; the tests never feed partial documents", "anchors": ["src/serde_json.rs:DeJsonState::whole_field,next_tok,DeJson impls", "derive/src/serde_json.rs:derive_de_json_named,derive_de_json_enum"]}
{"id": "C96", "title": "Binary data moves between 32-bit and 64-bit targets", "statement": "What a program wrote with serialize_bin on one target is read by deserialize_bin on a target of the other pointer width as the same value, up to skipped fields, if the reading target has this value at all: on a 32-bit target (wasm32) every usize and every number of elements below 2^32 and memory for the vectors. A 32-bit reader returns exactly what the bytes stand for when lengths and usizes count modulo 2^32: the upper four bytes of every usize and length are ignored without an error, so a larger usize is read as its low half and a length of 2^32 + k as k; a string length of 2^32 - 1 panics.", "quantifier": "all programs, types, values and byte strings, both overflow-check profiles", "why_tests_cant": "The tests run on one target; truncation needs values or lengths beyond 2^32.", "anchors": ["src/serde_bin.rs:SerBin for usize,DeBin for usize,DeBin for String,DeBin for Vec", "derive/src/serde_bin.rs:derive_de_bin_struct,derive_de_bin_enum"]}
{"id": "C97", "title": "The iteration order of hash containers does not matter", "statement": "A HashMap or HashSet is visited in an unspecified order when it is written. Whatever order the hash containers of a value (at any depth) are visited in, what serialize_bin, serialize_json or serialize_ron wrote is read back as the same value up to that order; the number of bytes written in binary form is the same for all orders. Read into a BTreeMap (BTreeSet) instead, a written HashMap (HashSet) gives the sorted container with the same entries (elements), the same one for all orders.", "quantifier": "all programs, types, values and all iteration orders of all hash containers in them", "why_tests_cant": "A test runs with the one order its hasher happens to produce.", "anchors": ["src/serde_bin.rs:SerBin for HashMap,DeBin for HashMap,SerBin for HashSet,DeBin for BTreeMap,DeBin for BTreeSet", "src/serde_json.rs:SerJson for HashMap,DeJson for HashMap,DeJson for BTreeMap,SerJson for HashSet", "src/serde_ron.rs:SerRon for HashMap,DeRon for HashMap,DeRon for BTreeMap"]}
{"id": "C98", "title": "A written text is one line", "statement": "Whatever the value (any characters in strings, any floats), what serialize_json writes contains no control character (below U+0020, or DEL), and what serialize_ron writes contains no line break, tab or NUL, provided the names of fields and variants (renamed ones included) do not. So values written one per line are found again by splitting the text at line breaks and reading each line.", "quantifier": "all programs with printable names, all types, all values, any number of lines", "why_tests_cant": "A test writes a few strings; a missed escape needs one of 34 characters at one of many places.", "anchors": ["src/serde_json.rs:SerJson for String,SerJsonState::label,SerJsonState::field", "src/serde_ron.rs:SerRon for String,SerRonState::field", "derive/src/serde_json.rs:derive_ser_json_struct,derive_ser_json_enum", "derive/src/serde_ron.rs:derive_ser_ron_struct,derive_ser_ron_enum"]}
{"id": "C99", "title": "Types that read each other's data", "statement": "In JSON and RON a Vec and a LinkedList read the same texts as the same elements; a text that reads as a Vec also reads as the HashSet and the BTreeSet of its elements; (T,T), (T,T,T) and (T,T,T,T) read exactly the texts that [T;2], [T;3] and [T;4] read; [T;N] reads in JSON exactly the texts that a Vec reads as N elements; Box<T> reads what T reads. In the binary format the same holds for Vec, LinkedList and the sets (whenever the allocation the reader reserves is possible), for tuples and arrays, and for Box; and a struct reads exactly the bytes that a tuple struct with the same field types reads, whatever the names and renames of the fields.", "quantifier": "all types, all programs, all texts and bytes", "why_tests_cant": "Changing the type of a field while keeping old data readable is a statement about every input the old type accepted.", "anchors": ["src/serde_json.rs:DeJson for Vec,DeJson for LinkedList,DeJson for HashSet,DeJson for BTreeSet,DeJson for [T; N],DeJson for (A,B),DeJson for Box", "src/serde_ron.rs:DeRon for Vec,DeRon for LinkedList,DeRon for Box", "src/serde_bin.rs:DeBin for Vec,DeBin for LinkedList,DeBin for Box", "derive/src/serde_bin.rs:derive_de_bin_struct,derive_de_bin_struct_unnamed"]}
{"id": "C100", "title": "JSON and RON on 32-bit targets", "statement": "On a target with 32-bit pointers the JSON and RON readers accept, reject and panic on exactly the texts that a 64-bit target does, with the same errors at the same positions. What a type reads with u32 in every place of usize it reads as the same value on both kinds of targets, so a value whose usize numbers fit 32 bits survives serialization and deserialization between any two targets. A usize larger than u32::MAX is not rejected: it reads as its low 32 bits.", "quantifier": "all texts, all types and programs, all values", "why_tests_cant": "Tests run on one target; the difference shows only for numbers above 4294967295 on the other.", "anchors": ["src/serde_json.rs:impl_ser_de_json_unsigned!(usize, u64::MAX),u64_range", "src/serde_ron.rs:impl_ser_de_ron_unsigned!(usize, u64::MAX),u64_range"]}
{"id": "C101", "title": "The bracket counter of skipped members", "statement": "JSON members that no field takes are passed over by counting brackets in an i32. For every text of fewer than 2^31 - 1 characters that counter behaves as an unbounded one, so no reader's value, error or panic depends on it or on overflow checks. Beyond that it does not: an unknown member opening with 2^31 brackets panics in builds with overflow checks, and in builds without them 2^32 opening brackets and nothing else are passed over as a complete value.", "quantifier": "all programs, types and texts below the limit; all unknown keys, structs and continuations beyond it", "why_tests_cant": "A test would need a text of two gigabytes, and says nothing about the other texts.", "anchors": ["src/serde_json.rs:DeJsonState::whole_field", "derive/src/serde_json.rs:derive_de_json_named"]}
{"id": "C102", "title": "The derive macros' parser stops", "statement": "On every list of tokens, well-formed item or not, the parser of the derive macros stops: it returns or panics (a compile error). For structs no literal may stand directly among the tokens of a parenthesised group of the item (the fields of a tuple struct); deriving for struct S(extern \"C\" fn(u8)); never finishes.", "quantifier": "all lists of tokens", "why_tests_cant": "A test compiles a few items; that the macro does not hang is a statement about all of them.", "anchors": ["derive/src/parse.rs:parse_data,next_struct,next_enum,next_fields,next_type,next_attributes_list,get_all_bounds"]}
{"id": "C103", "title": "What is written is no larger than what there is to write", "statement": "The size of the output of serialize_bin, serialize_json and serialize_ron is linear in the number of parts of the value (its nodes, the characters of its strings, the digits of its numbers), whatever the nesting: at most 16 bytes per part in binary, and in the text formats at most a number of characters per part that depends only on the longest name in the program and the longest float text.", "quantifier": "all programs, types and values", "why_tests_cant": "A test measures a few outputs; a quadratic writer needs a nested or a long value to show.", "anchors": ["src/serde_bin.rs:SerBin::serialize_bin", "src/serde_json.rs:SerJson::serialize_json,SerJsonState::indent", "src/serde_ron.rs:SerRon::serialize_ron,SerRonState::indent", "derive/src/serde_bin.rs:derive_ser_bin_struct,derive_ser_bin_enum", "derive/src/serde_json.rs:derive_ser_json_struct,derive_ser_json_enum", "derive/src/serde_ron.rs:derive_ser_ron_struct,derive_ser_ron_enum"]}
{"id": "C104", "title": "TOML documents can be rearranged and joined", "statement": "The result of parsing TOML does not depend on the order or the grouping of statements beyond what they leave in each key and each table: assignments to different keys, runs of sections with no key in common and tables of different names may be exchanged, and a section header is the same as a prefix of the keys below it. Joining two files with a line break is a document with the statements of both: a later file overrides an earlier one key by key, its tables come after those of the first, and the joined file panics exactly if a table of the second has the name of a key of the first.", "quantifier": "all documents, all positions in them, all pairs of files", "why_tests_cant": "A test swaps two lines of one file; the property is about every arrangement of every document, with sections, tables and repeated keys in between.", "anchors": ["src/toml.rs:TomlParser::parse,TomlParser::parse_line,TomlParser::parse_key_value"]}
{"id": "C105", "title": "The order of members and unknown members do not matter at any depth", "statement": "Two JSON texts whose values differ, at any depth (inside vectors, maps, options, tuples, variants, proxies), only in the order of the members of objects read as structs, struct variants, durations or BTreeMap<String, _> (with different keys), in the order of the elements of BTreeSets, in members of structs that no field reads, whatever their values, in trailing commas, and in null members of Option fields (present or left out), are deserialized to the same value, or neither is deserialized. RON texts whose values differ, at any depth, only in the order of struct fields, of the elements of BTreeSets and of the entries of a BTreeMap<String, _>, in trailing commas, and in None members of Option fields (present or left out) mean the same, and if they mean a value both are deserialized to it. If they differ only in the order of what is read into HashSets, HashMap<String, _> and BTreeMap<String, _> (with different keys), the one value is the other with hash containers iterated in another order. In both formats, replacing parts of a text by others that are read alike at the type at which they stand (in JSON: and are null, or not, together) changes nothing either: what a part means does not depend on where it stands.", "quantifier": "all programs, all types, all pairs of JSON and RON texts", "why_tests_cant": "A test swaps two members of one struct; the claim is about every nesting of every type and every unknown value.", "anchors": ["derive/src/serde_json.rs:derive_de_json_named,derive_de_json_struct,derive_de_json_enum", "src/serde_json.rs:DeJson::deserialize_json,DeJsonState::whole_field,DeJsonState::next_str,DeJsonState::next_colon,DeJsonState::eat_comma_curly", "derive/src/serde_ron.rs:derive_de_ron_named,derive_de_ron_struct,derive_de_ron_enum", "src/serde_ron.rs:DeRon::deserialize_ron"]}
