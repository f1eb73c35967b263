import json
P=[]
def p(title, statement, quant, why, anchors):
    P.append(dict(id="C%02d"%(len(P)+1), title=title, statement=statement, quantifier=quant, why_tests_cant=why, anchors=anchors))
B="src/serde_bin.rs"; J="src/serde_json.rs"; R="src/serde_ron.rs"; T="src/toml.rs"; DB="derive/src/serde_bin.rs"; DJ="derive/src/serde_json.rs"; DR="derive/src/serde_ron.rs"; PA="derive/src/parse.rs"; SH="derive/src/shared.rs"
# ---- binary
p("Binary round trip","For every type that implements SerBin and DeBin (all built-in impls and derived structs, tuple structs and enums, including recursive and proxied ones) and every value v of it without SystemTime before the epoch, deserialize_bin(serialize_bin(v)) is Ok and equals v; a field marked skip comes back as its Default value.","all supported types (any nesting, any set of derived definitions) and all values","values and type nestings are unbounded",[B+":SerBin,DeBin impls",DB+":derive_ser_bin_struct,derive_de_bin_struct,derive_ser_bin_enum,derive_de_bin_enum"])
p("Binary encodings are self-delimiting at any offset","de_bin called with the offset of an encoding embedded between arbitrary bytes returns the encoded value and leaves the offset exactly at the first byte after the encoding.","all types, values, prefixes and suffixes","arbitrary surrounding bytes",[B+":DeBin::de_bin",B+":impl DeBin for Vec<T>"])
p("Truncated binary input is rejected","Decoding any strict prefix of serialize_bin(v) returns Err: never a value and never a panic.","all types, values and truncation points","every cut point of every encoding",[B+":DeBin impls"])
p("Binary decoding is local and never runs past the input","If de_bin succeeds then the new offset is between the old offset and the input length, and appending or changing bytes at or after the new offset (or before the old one) does not change the value or the offset.","all types, all byte strings, all offsets","arbitrary bytes",[B+":DeBin impls"])
p("Where binary decoding can panic","deserialize_bin on arbitrary bytes returns Ok or Err without panicking, except in exactly four situations, in each of which it does panic: a String length prefix whose end overflows usize (with overflow checks on, or the wrapped end inside the input), a Vec/HashSet/HashMap length prefix whose allocation size overflows, a Duration of u64::MAX seconds and 10^9 nanoseconds, and a SystemTime whose seconds do not fit i64. In particular no input whose length prefixes are small panics.","all types and all byte strings, with and without overflow checks","hostile length prefixes need specific values",[B+":impl DeBin for String",B+":impl DeBin for Vec<T>",B+":impl DeBin for Duration",B+":impl DeBin for std::time::SystemTime"])
p("Binary serialization is injective and prefix-free","Two values of one type with the same encoding are equal, and no value's encoding is a proper prefix of another's.","all types, all pairs of values","pairs of values are unbounded",[B+":SerBin impls"])
p("Binary enum discriminants","A derived enum value is written as the 16-bit little-endian index of its variant in declaration order followed by its fields; decoding a tag that is not a declared index returns UnknownDiscriminant(tag).","all enum definitions, variants and tags","arbitrary definitions",[DB+":derive_ser_bin_enum,derive_de_bin_enum"])
p("Binary layout","Integers occupy exactly their width in little-endian two's complement, usize and lengths are 8 bytes, String is length plus UTF-8 bytes, sequences are length plus items, arrays, tuples and structs are plain concatenation, so byte i of an integer is (n >> 8i) & 255 and sizes add up.","all integers of all widths, all strings and containers","whole integer ranges",[B+":impl_ser_de_bin_for",B+":impl SerBin for usize"])
p("Lenient binary decoding is canonicalised by re-encoding","bool decodes any non-zero byte as true and Option decodes any tag other than 1 as None; whenever bytes decode to a value, re-encoding that value and decoding again gives the same value.","all types, all byte strings","arbitrary bytes",[B+":impl DeBin for bool",B+":impl DeBin for Option<T>"])
p("Binary map and set decoding","Decoding a BTreeMap/HashMap from an entry sequence gives for each key the value of its last entry and no other keys; BTreeMap/BTreeSet results are strictly sorted; the result does not depend on the order in which distinct entries were written.","all entry sequences, all comparison orders","all sequences and permutations",[B+":impl DeBin for BTreeMap<K, V>",B+":impl DeBin for std::collections::HashMap<K, V>",B+":impl DeBin for BTreeSet<T>"])
p("Binary Duration and SystemTime","Every Duration round-trips; nanos above 1_000_000_000 are rejected with a Range error; a SystemTime at or after the epoch round-trips and one before the epoch decodes as the epoch.","all seconds and nanos, all instants","u64 x u32 range",[B+":impl DeBin for Duration",B+":impl DeBin for std::time::SystemTime"])
p("Binary length errors are accurate","When a fixed-size primitive cannot be read the error carries the current offset, the size that was needed and the input length, the offset is left unchanged, and it occurs exactly when fewer bytes than needed remain.","all primitive types, bytes and offsets","all offsets and lengths",[B+":impl_ser_de_bin_for",B+":DeBinErr"])
p("Binary strings are exactly the valid UTF-8 byte strings","String decoding succeeds exactly when the length prefix fits in the input and the addressed bytes are well-formed UTF-8, and returns the string with exactly those bytes; overlong, surrogate and out-of-range encodings are errors.","all byte strings","all byte strings",[B+":impl DeBin for String"])
p("Fixed-size binary types","A type built only from fixed-size parts (integers, floats, bool, unit, Duration, arrays, tuples and structs of these) encodes every value to the same number of bytes, and decoding consumes exactly that number.","all such types and values","all nestings",[B+":impl_ser_de_bin_for",B+":impl DeBin for [T; N]"])
# ---- json strings & numbers
p("JSON string round trip","For every Unicode string s, deserialize_json(serialize_json(s)) == Ok(s), including quotes, backslashes, control characters and NUL.","all strings","all strings",[J+":impl_ser_json_string",J+":DeJsonState::next_tok"])
p("JSON string output is a legal RFC 8259 string","serialize_json of any string is a double-quoted literal whose body contains no raw control character, quote or lone backslash, only legal escapes, and denotes exactly the string under RFC 8259's own reading.","all strings","all strings",[J+":impl_ser_json_string"])
p("JSON unicode escapes","Each \\uXXXX escape of a non-surrogate code unit decodes to that scalar and each lead/trail surrogate pair of escapes to the scalar of the UTF-16 pair, for any letter case of the hex digits; an unpaired or reversed surrogate or a non-hex digit is an error.","all 65536 code units and all pairs, all hex spellings, anywhere in a string","2^20 pairs times spellings and contexts",[J+":hex_unescape_char",J+":xdigit4"])
p("JSON unsigned range","Deserializing an unsigned integer type from a decimal numeral succeeds with exactly its value when that value fits the type and is an error otherwise; never a truncated value.","all numerals (any number of digits, leading zeros, optional +), all unsigned types","unbounded numerals",[J+":u64_range",J+":impl_ser_de_json_unsigned"])
p("JSON signed range","Deserializing a signed integer type from a decimal numeral outside [2^63, 2^64) succeeds with exactly its value when that value fits the type and is an error otherwise. The exception: every numeral in [2^63, 2^64) is accepted at every signed type, i8 included, as the value congruent to it modulo the size of the type.","all numerals, all signed types","unbounded numerals",[J+":i64_range",J+":impl_ser_de_json_signed"])
p("JSON integer round trip","Every value of every supported integer type round-trips through JSON as its canonical decimal numeral.","all integer types and values","full 64-bit ranges",[J+":impl_ser_de_json_unsigned",J+":impl_ser_de_json_signed"])
p("JSON round trip","For every type that implements SerJson and DeJson (built-in impls, derived structs with skip/rename/default/serialize_none_as_null, tuple and transparent structs, enums, recursive definitions, proxies) whose member names are distinct within a struct and need no escaping, and every value without non-finite floats, without nested nullable values under Option, without SystemTime before the epoch and in which an omitted None is the field's default, deserialize_json(serialize_json(v)) is Ok and equals v up to skipped fields. Struct variants with skip or rename on their fields are excluded (they do not round-trip).","all types, definitions and values","unbounded types and values",[J+":SerJson,DeJson impls",DJ+":derive_ser_json_struct,derive_de_json_named,derive_ser_json_enum,derive_de_json_enum"])
p("JSON output is valid RFC 8259","serialize_json produces a text that is a JSON value under the RFC 8259 grammar, for every value without non-finite floats, without maps that have non-string keys, without struct variants that end in an omitted None, and for names without characters that need escaping. In each of these four excluded cases it can produce text that is not JSON.","all types and values","unbounded outputs",[J+":SerJson impls",DJ+":derive_ser_json_enum"])
p("JSON layout is irrelevant","Inserting or removing whitespace, line comments and block comments between tokens does not change the result of deserialize_json (value or error reason).","all types, all token sequences, all layouts","unbounded layouts",[J+":DeJsonState::next_tok"])
p("Trailing JSON content","What follows the value: if the next thing is not a legible JSON token the input is rejected; if it is one of , : ] } everything from there on is ignored, so the result is that of the value alone (deserialize_json does not check that the input ends).","all types and inputs","unbounded suffixes",[J+":DeJson::deserialize_json"])
p("JSON object key order is irrelevant","Reordering the members of an object with distinct keys does not change the derived struct that is read.","all definitions, all members, all permutations","all permutations",[DJ+":derive_de_json_named"])
p("Unknown JSON keys are ignored","A member whose key is not a field of the derived struct (which has at least one field) is skipped whatever well-formed JSON value it has, and the rest is read as if it were absent. In a struct without fields any member is an error.","all definitions, keys and values of any nesting","unbounded nested values",[J+":whole_field",DJ+":derive_de_json_named"])
p("Missing JSON keys","If a key of a field without default is absent the result is the error MissingKey with the field's name; an absent Option field is None and an absent field with a default takes that default.","all definitions and objects","all definitions",[DJ+":derive_de_json_named"])
p("Repeated JSON keys","When a key occurs more than once in an object the last occurrence wins, for derived structs and for maps.","all definitions and member sequences","all sequences",[DJ+":derive_de_json_named",J+":impl DeJson for BTreeMap<K, V>"])
p("Skipped JSON fields","A struct field marked skip never appears in the output and its value does not influence the output; on input it always takes its default whatever the text says under that key, in structs and in struct variants. (When writing a struct variant the attribute is ignored.)","all definitions, values and inputs","all values",[DJ+":derive_ser_json_struct,derive_de_json_named"])
p("JSON rename is symmetric","A renamed struct field or variant is written and read under the same new name, so renaming to distinct names that need no escaping never breaks a round trip. The exceptions: fields of struct variants are written under the old name and read under the new one, and names with quotes or backslashes are written unescaped.","all definitions and names","all definitions",[DJ+":derive_ser_json_struct,derive_ser_json_enum,derive_de_json_enum"])
p("JSON parsing terminates","deserialize_json returns on every input, unless the input consists of JSON tokens among which some bracket is never closed; in particular on every JSON value, and on every input if no type has named fields. On an object with an unknown key followed by an unclosed bracket it never returns.","all types and all input texts","non-termination needs particular unbounded searches",[J+":whole_field",J+":next_tok"])
p("Where JSON parsing can panic","If deserialize_json panics then in the input a colon is not followed by a value, or the type involves Duration or SystemTime and the input has an integer of at least 2^63 - 1; so on a JSON value without such integers it returns Ok or Err. On an object with an unknown key followed by something that cannot begin a value it does panic.","all types and all input texts","all inputs",[J+":whole_field"])
p("JSON error positions","The line of an error is the number of newlines read so far and the column the number of characters read since the last newline, so the reported position is where reading stopped.","all inputs and all failure points","all inputs",[J+":DeJsonState::next",J+":DeJsonErr"])
p("JSON enum representation","A derived enum is read from exactly the representation it is written as (a string for unit variants, a one-member object otherwise); an unknown variant name is NoSuchEnum with that name, unless a string stands where the contents of the variant should be, or another string follows the name (then that string is taken for the name).","all enum definitions, names and following text","all definitions",[DJ+":derive_ser_json_enum,derive_de_json_enum"])
p("JSON Option and null","None is written as null (or the member is omitted) and null reads back as None; Some(v) reads back as Some(v) unless v is itself written as null.","all inner types and values","all types",[J+":impl DeJson for Option<T>"])
p("JSON floats","Every finite f64/f32 round-trips (given that std's shortest formatting re-parses); every RFC 8259 number is accepted at a float type, with the value std's parser gives it when it has a fraction or exponent, except numbers with + in the exponent and integers outside the u64 and i64 ranges, which are errors; non-finite values do not produce a readable text.","all float values and all number spellings","2^64 values, unbounded spellings",[J+":impl_ser_de_json_float",J+":as_f64",J+":next_tok"])
p("JSON fixed-arity sequences","[T; N] and tuples accept exactly the arrays with the right number of elements (a trailing comma is tolerated) and yield the elements in order; any other length is an error.","all N, element types and arrays","all N",[J+":impl DeJson for [T; N]",J+":de_json_comma_block"])
p("Where serializing arrays can panic","serialize_json and serialize_ron return a text for every value of a program without [T; 0], and without overflow checks for every value; [T; 0] panics when overflow checks are on.","all lengths and element types","needs N = 0",[J+":impl SerJson for [T]",R+":impl SerRon for [T]"])
# ---- ron
p("RON string round trip","For every Unicode string s, deserialize_ron(serialize_ron(s)) == Ok(s).","all strings","all strings",[R+":impl SerRon for String",R+":DeRonState::next_tok"])
p("RON round trip","For every type that implements SerRon and DeRon (no proxies) whose names are distinct identifiers other than true and false, and every value without non-finite floats, without Some(v) where the text of v begins with None, without SystemTime before the epoch and in which an omitted None is the field's default, deserialize_ron(serialize_ron(v)) is Ok and equals v up to skipped fields. Struct variants with skip or rename on their fields are excluded (they do not round-trip).","all types, definitions and values","unbounded",[R+":SerRon,DeRon impls",DR+":derive_ser_ron_struct,derive_de_ron_named,derive_ser_ron_enum,derive_de_ron_enum"])
p("RON layout is irrelevant","Inserting or removing whitespace and comments between tokens does not change the result of deserialize_ron (value or error reason).","all types, token sequences and layouts","unbounded layouts",[R+":DeRonState::next_tok"])
p("Unknown RON fields are rejected","A field name that the derived struct (or struct variant, with at least one field) does not declare is the error UnexpectedKey with that name; in a struct without fields it is a token error.","all definitions and names","all definitions",[DR+":derive_de_ron_named"])
p("RON missing and repeated fields","An absent field without default is MissingKey with its name, an absent optional or defaulted field takes its default, and of a repeated field the last occurrence wins, in any order of fields.","all definitions and member sequences","all sequences",[DR+":derive_de_ron_named"])
p("RON error positions","The reported line of an error is the number of newlines read when it was detected; the reported column is always 0.","all inputs","all inputs",[R+":DeRonState::next"])
p("RON parsing terminates without panicking","deserialize_ron returns on every input for every type, and returns Ok or Err unless the type involves Duration or SystemTime and the input has a run of digits of value at least 2^63 - 1 (two such inputs that panic are given).","all types and inputs","all inputs",[R+":DeRonState::next_tok"])
p("RON lexical edge cases","Character literals and a block comment that is never closed are treated as white space; other malformed tokens (a quote that begins no string literal, a slash that begins no comment, an unclosed character literal, a character that begins no token) are errors at every type.","all inputs","all inputs",[R+":DeRonState::next_tok"])
p("RON numbers and booleans","Unsigned integers are accepted exactly when in range and signed ones too, except that every numeral in [2^63, 2^64) is accepted at every signed type as the value congruent to it modulo the size of the type; nothing but an integer numeral is accepted; bool accepts true, false and unsigned numerals (0 is false) and nothing else.","all numerals and types","unbounded numerals",[R+":u64_range",R+":i64_range",R+":as_bool"])
# ---- toml
p("TOML parsing terminates; where it can panic","TomlParser::parse returns on every input, and it panics only on an input in which a [[name]] header follows a part that parses to a map where name is bound to something that is not an array of tables; documents without such a header never panic.","all inputs","all inputs",[T+":TomlParser::parse",T+":Out::start_array"])
p("TOML documents mean what they say","Parsing a document of [section] headers and key = value lines yields exactly the map from section.key (or key) to value, the last assignment of a key winning.","all documents of that shape, all layouts","unbounded documents",[T+":parse_line",T+":parse_key_value"])
p("TOML arrays of tables","Each [[name]] header appends one table to the array stored under name and the following assignments, up to the next [[..]] header and including those under [section] headers (with the section's prefix), go to that last table; earlier tables are never changed. If name was assigned before, the parser panics.","all documents of that shape","unbounded documents",[T+":Out::start_array",T+":Out::out"])
p("TOML comments and blank space","Comments and whitespace between tokens do not change the parsed map.","all layouts","unbounded layouts",[T+":next_tok"])
p("TOML strings","A double-quoted non-empty string without quotes and backslashes denotes exactly its characters. The exception is the empty string, whose closing quote is taken for the start of a triple quote or of content.","all strings","all strings",[T+":next_tok"])
p("TOML arrays","An array of values denotes the list of its element values, at any nesting, with or without trailing comma, provided that an element which is a word (true, false, inf, nan) is followed by white space or a bracket; a word directly followed by a comma is an error.","all nested arrays","unbounded nesting",[T+":to_val"])
p("TOML integers","An integer literal (with optional sign and underscores) within the i64 range denotes its value, and one outside it is an error.","all literals","unbounded literals",[T+":parse_num"])
p("TOML error positions","The line of a TOML error is the number of newlines read; the column is always 0.","all inputs","all inputs",[T+":TomlParser::next"])
# ---- derive
p("Derive attribute reading","Reading the #[nserde(...)] attributes of an item yields each listed option with its value in order, and each lookup (proxy, rename, default, default_with, skip, transparent, crate, serialize_none_as_null) returns the first matching one.","all attribute lists","unbounded lists",[PA+":next_attribute,next_attributes_list",SH+":attrs_*"])
p("Container attributes","The crate and proxy options of a struct are the first such options written on it and the generated code uses them; on an enum no container option has any effect (the crate name is nanoserde and there is no proxy, whatever is written).","all items of the supported fragment and all attributes","all items",[PA+":parse_data,next_enum",SH+":attrs_crate,attrs_proxy"])
p("Derive reads struct declarations as written","For every struct declaration built from attributes, visibility, generics with bounds and where clauses, and named, tuple or no fields whose types are paths with arguments, references, arrays, tuples, function types and closure bounds with at most one argument, trait objects, associated type bindings and combinations of these, the derive sees exactly its name, its options, its fields in order (name, type, options) and its generics. The declarations outside the fragment that the macro misreads or panics on are named.","all declarations of the fragment, any nesting of types, any number of fields and attributes","unbounded declarations",[PA+":parse_data,next_struct,next_fields,next_type"])
p("Derive reads enum declarations as written","The same for enum declarations: name, variants in order with names, options and contents (unit, discriminant, tuple, named), generics.","all enum declarations of the fragment","unbounded declarations",[PA+":parse_data,next_enum"])
p("Derived default expressions","The default of a field is that of the first default option on it, else the call of default_with, else absent; a value default is a string literal exactly for text types and is wrapped in Some for Option fields.","all fields, options and types","all options and types",[DJ+":derive_de_json_named",DR+":derive_de_ron_named"])
p("Derived impl headers","The generated impl lists the generic parameters in order, each type parameter with the bounds written on it and in the where clause plus the derived trait, and names the item with the same parameters.","all generics of the fragment, all traits","all generics",[SH+":struct_bounds_strings,enum_bounds_strings",PA+":get_all_bounds"])
p("The derive goes from tokens to the type that is serialized","Composing reading and generation, the definition used by the SerBin/DeBin, SerJson/DeJson and SerRon/DeRon code is the one read off the declaration text; in particular the bytes of a value are those of its fields not marked skip, in declaration order.","all declarations of the fragment, all values","unbounded declarations and values",[DB+":derive_ser_bin_struct",DJ+":derive_ser_json_struct",DR+":derive_ser_ron_struct",PA+":parse_data"])
# ---- meaning
p("JSON values are read as exactly what they mean","A text of a JSON value, in any layout, is read at a type as the value v exactly if the JSON value denotes v (rules per kind of type: scalars, sequences, sets, maps, tuples, structs with defaults, skip, rename and optional fields, enums, transparent and proxied types), and is an error exactly if it denotes nothing (integers so large that a time overflows excepted); it denotes at most one value.","all programs with distinct names, all types, JSON values and layouts","unbounded types, values and layouts",[J+":DeJson impls",DJ+":derive_de_json_named,derive_de_json_enum,derive_de_json_struct_unnamed"])
p("RON readers return exactly what the text stands for","On every text whatever, a RON reader for a type returns v exactly if the text begins with a RON value that denotes v at that type, followed by the end or by one more legible lexeme; the only exception is two words in a row at top level, where an enum reader takes the second word as the name of a unit variant. No text stands for two values.","all texts, programs with distinct names, types","unbounded texts, types and layouts",[R+":DeRonState::next_tok,DeRon impls",DR+":derive_de_ron_named,derive_de_ron_enum,derive_de_ron_struct_unnamed"])
p("RON readers reject exactly the texts that stand for nothing","A RON reader fails with an error exactly if the text begins with no RON value of its type (huge integers in a program with times excepted); whatever follows the first lexeme after a value is never looked at.","all texts, well-formed programs with distinct names, types","unbounded texts",[R+":DeRonState::next_tok,DeRon impls",DR+":derive_de_ron_named,derive_de_ron_enum,derive_de_ron_struct_unnamed"])
p("JSON readers return exactly what the text stands for","On every text whatever, JSON or not, a JSON reader for a type returns v exactly if the text begins with lexemes that denote v at that type, followed by the end or by one more legible lexeme (the value of an unknown member may be any bracketed run of lexemes, with kinds not matching); the only exception is two strings in a row at top level, where an enum reader takes the second string as the name of a unit variant. No text stands for two values.","all texts, programs with distinct names, types","unbounded texts, types and layouts",[J+":DeJsonState::next_tok,whole_field,DeJson impls",DJ+":derive_de_json_named,derive_de_json_enum,derive_de_json_struct_unnamed"])
p("JSON readers reject exactly the texts that stand for nothing","A JSON reader fails with an error exactly if the text stands for no value of its type, provided every bracket is closed, no colon is left without a value and no huge integer meets a time; without named fields and times there is no proviso. Whatever follows the first lexeme after a value is never looked at.","all texts, well-formed programs with distinct names, types","unbounded texts",[J+":DeJsonState::next_tok,whole_field,DeJson impls",DJ+":derive_de_json_named,derive_de_json_enum,derive_de_json_struct_unnamed"])
p("Binary readers return exactly what the bytes stand for","At every offset of every input, de_bin for a type returns v and advances past the bytes bs exactly if bs stand for v (rules per kind of type: little-endian two's complement, length-prefixed UTF-8, tags of which only 1 is Some, a billion nanoseconds carried, repeated set elements and keys merged, skipped fields defaulted, variants by number); deserialize_bin ignores what follows. The bytes written for a value stand for it, and no input has two readings.","all inputs up to isize::MAX bytes, all offsets, programs and types","unbounded inputs and types",[B+":DeBin impls",DB+":derive_de_bin_struct,derive_de_bin_enum"])
p("Binary readers always stop and reject exactly what stands for nothing","deserialize_bin stops on every input for every type that does not contain itself unconditionally, with an error exactly if no beginning of the input stands for a value of the type, unless a length or time near the end of the 64-bit range makes it panic. For a type such as struct T(Box<T>) it never returns.","all inputs up to isize::MAX bytes, well-formed programs and types","unbounded inputs and types",[B+":DeBin impls",DB+":derive_de_bin_struct,derive_de_bin_enum"])
p("TOML parsing returns exactly what the text says","On every text whatever, TOML or not, parse returns a map exactly if the text consists of spellings of the tokens of a document (every accepted spelling is listed, including doubled quotes, runs of quotes in long strings, signs and underscores lost from words, missing commas and missing closing brackets at the end, and a NUL taken for the end) without a [[name]] header for a key assigned before, and the map is the one the document stands for. No text is two documents.","all texts","unbounded texts",[T+":TomlParser::parse,next_tok,parse_line,parse_val"])
p("TOML parsing rejects or panics on exactly the other texts","parse panics exactly if the text begins with statements among which a [[name]] header names a key assigned before the first such header, whatever follows; it fails with an error exactly if the text is no document and does not begin so.","all texts","unbounded texts",[T+":TomlParser::parse,next_tok,parse_line,parse_val",T+":Out::start_array"])
p("Generated binary writers","The ser_bin code the derive generates for a struct (without container proxy) or enum declaration, when it compiles, appends exactly the bytes of the declared type: the fields not marked skip in declaration order (through the proxy where one is named), after a 16-bit variant number for enums. It compiles when names are distinct, no tuple-struct field is marked skip, no struct variant has a field called s and there are at most 65536 variants.","all declarations of the supported fragment, all values","unbounded declarations and values",[DB+":derive_ser_bin_struct,derive_ser_bin_struct_unnamed,derive_ser_bin_enum"])
p("Generated JSON writers","The ser_json code the derive generates for a struct (without container proxy) or enum appends exactly the text of the declared type (rename, skip, omitted or null None, proxies, transparent, arrays and objects of variants), for the declarations for which it compiles: distinct names, no struct-variant field called s or d, and no proxy on a struct-variant field that is not an Option.","all declarations of the supported fragment, all values","unbounded declarations and values",[DJ+":derive_ser_json_struct,derive_ser_json_struct_unnamed,derive_ser_json_enum"])
p("Generated RON writers","The ser_ron code the derive generates for a struct (without container proxy) or enum appends exactly the text of the declared type (rename and skip on struct fields, omitted None, tuples, variants), for the declarations for which the macro returns and its code compiles: distinct names, at least one field in a tuple struct and none marked skip, no struct-variant field called s or d.","all declarations of the supported fragment, all values","unbounded declarations and values",[DR+":derive_ser_ron_struct,derive_ser_ron_struct_unnamed,derive_ser_ron_enum"])
p("Generated binary readers","The de_bin code the derive generates for a struct (without container proxy) or enum declaration, when the macro returns and the code compiles, is the reader of the declared type on every input: same value, same offset, same error. The macro panics on skip in a tuple struct; names must be distinct and there are at most 65536 variants.","all declarations of the supported fragment, all inputs and offsets","unbounded declarations and inputs",[DB+":derive_de_bin_struct,derive_de_bin_struct_unnamed,derive_de_bin_enum"])
p("Generated JSON readers","The de_json code the derive generates for a struct (without container proxy) or enum is the reader of the declared type in every reader state: same value, same next state, same error with the same position (options, defaults, rename, skip, proxies, transparent and one-field tuple structs, all three kinds of variant), for the declarations for which it compiles: distinct names and no struct S().","all declarations of the supported fragment, all reader states","unbounded declarations and inputs",[DJ+":derive_de_json_struct,derive_de_json_named,derive_de_json_struct_unnamed,derive_de_json_enum"])
p("Generated RON readers","The de_ron code the derive generates for a struct (without container proxy) or enum is the reader of the declared type in every reader state: same value, same next state, same error with the same position, for the declarations for which it compiles: distinct names and no struct S;","all declarations of the supported fragment, all reader states","unbounded declarations and inputs",[DR+":derive_de_ron_struct,derive_de_ron_named,derive_de_ron_struct_unnamed,derive_de_ron_enum"])
p("Deriving both ways round-trips","For every declaration for which the derived writer and reader of a format compile, running the generated writer on a value and the generated reader on what it wrote gives the value back, up to skipped fields, under the conditions of the round trip of that format (binary also in the middle of other data).","all declarations of the supported fragment, all values","unbounded declarations and values",[DB+":derive_ser_bin_struct,derive_de_bin_struct,derive_ser_bin_enum,derive_de_bin_enum",DJ+":derive_ser_json_struct,derive_de_json_struct,derive_ser_json_enum,derive_de_json_enum",DR+":derive_ser_ron_struct,derive_de_ron_struct,derive_ser_ron_enum,derive_de_ron_enum"])
p("Structs with a container proxy","For a struct with the option proxy = P, whatever its fields, the derived writers write exactly what P's writer writes for the converted value, and the derived binary and JSON readers read a P, convert it back, stop where P's reader stops and fail as it fails; the derived RON reader does not compile. On an enum the option has no effect.","all struct declarations with a proxy, all values and inputs","all declarations and inputs",[DB+":derive_ser_bin_proxy,derive_de_bin_proxy",DJ+":derive_ser_json_proxy,derive_de_json_proxy",DR+":derive_ser_ron_proxy,derive_de_ron_proxy","derive/src/lib.rs:derive_ser_bin,derive_de_bin"])
p("JSON documents survive program evolution","What an old version of a program wrote with serialize_json is read by deserialize_json in a new version as the corresponding value, when the types changed by: adding fields that may be absent (Option, default, skip), removing fields (not all), reordering them, renaming them in the source with rename keeping the name in JSON, adding, reordering or so renaming enum variants, widening integers, T to Option<T>, adding or removing Box or transparent newtypes, sets, arrays or lists to Vec or LinkedList, at any depth and in any combination. Kept fields have the corresponding value, new and skipped ones their default.","all programs and pairs of versions related by these changes, all values JSON represents exactly","unbounded programs, types, changes and values",[J+":DeJson impls,SerJson impls",DJ+":derive_ser_json_struct,derive_de_json_named,derive_de_json_enum,derive_ser_json_enum"])
p("Binary data survives program evolution","Two versions of a program that differ in names, in writing a struct as a tuple struct, tuple or array or back, in fields marked skip, in boxes and newtypes, in usize against u64, in the kind of collection, or by enum variants added at the end, give corresponding values the same bytes, so that each reads the other's data as the corresponding value. A reader whose outermost struct lacks fields that were added at the end reads the fields it knows; one whose outermost struct has such fields rejects older data, whatever their type.","all programs and pairs of versions so related, all values without instants before the epoch","unbounded programs, types, changes and values",[B+":SerBin impls,DeBin impls",DB+":derive_ser_bin_struct,derive_de_bin_struct,derive_ser_bin_enum,derive_de_bin_enum"])
p("Array readers are memory-safe","Reading [T; N] in any of the three formats, for every N, every element reader and every point at which it fails, gives the result of a plain loop over the elements and never treats an uninitialised slot as a T; on success the N elements created are returned, each once, and none is dropped; on an error (in an element, a separator or a bracket) every element created has been dropped exactly once, so nothing leaks; if an element reader panics nothing is dropped twice.","all lengths, element types and readers, inputs and failure points","unbounded lengths and failure points",[B+":DeBin for [T; N]",J+":DeJson for [T; N]",R+":DeRon for [T; N]"])
p("Error messages say where and why","The text an error prints as is the format's prefix, the reason, and the line and column, both counted from 1: the line is one more than the number of newlines read and the JSON column one more than the number of characters since the last newline (RON and TOML always print column 1). Two errors print the same text only if they have the same kind of reason, the same position and the same named key, token or expectation (floats and characters excepted). Missing keys, unknown variants and unknown fields are named in the text; binary errors give offset, length asked for and length present, except that unknown variants always say offset 0.","all inputs, programs and types","all inputs and names",[J+":DeJsonErr Display",R+":DeRonErr Display",T+":TomlErr Display",B+":DeBinErr Display"])
p("TOML lookups","Indexing the result of parse with a key gives the value last assigned to that key (with its section) before the first [[..]] header, indexing it with a [[name]], a number j and a key gives the value last assigned to that key under the j-th such header, arr().len() is the number of these headers; each panics exactly if there is no such thing. On every value exactly one of num, str, boolean, date, arr and simple_arr returns.","all documents, keys and indices","unbounded documents",[T+":Toml::num,str,boolean,date,arr,simple_arr",T+":Index for Toml"])
p("What a text reader returns is a value of the type","Whatever deserialize_json or deserialize_ron returns for a text, well-formed or not, is a value of the type asked for: integers in range, fewer than a billion nanoseconds, sets and maps without repeated keys, ordered ones in order, arrays of their length, existing variants, fields of their types.","all texts, programs whose defaults and proxy conversions have the right types, types","unbounded texts and types",[J+":DeJson impls",R+":DeRon impls",DJ+":derive_de_json_*",DR+":derive_de_ron_*"])
p("Reading, writing and reading again","A value read from any text, if its floats are finite, is written as a text from which the same value is read again, so that loading and saving a document loses nothing and saving it twice changes nothing. (RON: when no enum variant is called None; otherwise A None read as an Option is written as None and changes.)","all texts, programs with well-behaved defaults and proxy conversions, types","unbounded texts",[J+":SerJson::serialize_json,DeJson::deserialize_json",R+":SerRon::serialize_ron,DeRon::deserialize_ron"])
p("Texts identify values","Two values of a type that have the same JSON text, or the same RON text, are equal up to their skipped fields, for the values that the format represents.","all values, programs, types","unbounded values",[J+":SerJson::serialize_json",R+":SerRon::serialize_ron"])
p("Several values in one text, read one by one","Calling de_json (or de_ron) for the types t1, t2, … in turn on one text, or for one type until the token is end of file, gives the values v1, v2, … with nothing left exactly if the text consists of lexemes denoting v1, then lexemes denoting v2, and so on; the only exception is a string (RON: a word) directly followed by another one, where an enum reader takes the second as the name of a unit variant without consuming it.","all texts, programs with distinct names, lists of types","unbounded texts and lists of values",[J+":DeJsonState::next_tok,DeJson impls",R+":DeRonState::next_tok,DeRon impls",DJ+":derive_de_json_enum",DR+":derive_de_ron_enum"])
p("One value per line round-trips","Values of one type, each written with serialize_json (serialize_ron) and followed by white space, are read back in order by calling de_json (de_ron) until the end of the text, skipped fields at their defaults, unless the type is an enum (or wraps one) and a unit variant follows a unit variant (RON: precedes another value): two unit variants on neighbouring lines are both read as the second.","all lists of values the format represents, all separators, programs and types","unbounded lists of values",[J+":SerJson::serialize_json,DeJson::de_json",R+":SerRon::serialize_ron,DeRon::de_ron",DJ+":derive_de_json_enum",DR+":derive_de_ron_enum"])
p("RON texts survive program evolution","What an old version of a program wrote with serialize_ron is read by deserialize_ron in a new version as the corresponding value, when the types changed by: adding fields that may be absent (Option, default, skip), reordering fields, renaming them in the source with rename keeping the RON name, adding or reordering enum variants, widening integers, T to Option<T>, adding or removing Box, sets or lists to Vec or LinkedList, tuples, arrays and tuple structs with as many components to each other, at any depth and in any combination. A written field may not be removed: its name is then the error UnexpectedKey.","all programs and pairs of versions related by these changes, all values RON represents exactly, no variant with data called None","unbounded programs, types, changes and values",[R+":DeRon impls,SerRon impls",DR+":derive_ser_ron_struct,derive_de_ron_named,derive_de_ron_enum,derive_ser_ron_enum"])
p("Nesting and loop rounds grow linearly with the input, without limit","For every type there is a constant K such that on an input of n bytes or characters the reader has at most K*(n+1) reader calls open at any moment (for the text formats also at most that many rounds in each loop), so stack use is proportional to the input; and no reader has a recursion limit: inputs of k+1 bytes (binary) or 2k+6 characters (JSON, RON) that are valid values need more than 3k open calls for every k, so a long enough valid input overflows any stack. (JSON: unless the text is made of lexemes with an unclosed bracket, where skipping an unknown key loops for ever.)","all inputs, well-formed programs and types","unbounded inputs",[B+":DeBin impls",J+":DeJson impls",R+":DeRon impls"])
p("Readers return nothing larger than their input","What a reader returns holds at most as much (numbers, tags, characters, elements) as its input is long: for the binary format no more than the bytes consumed (elements of collections included if each takes at least one byte), for JSON and RON no more than the length of the text times one more than what default values of one struct hold, for TOML (keys not counted) no more than the length of the text. So no short input makes a reader build a large value, except that a collection of elements that take no bytes, such as Vec<()>, has any length up to 2^64 - 1 for eight bytes.","all inputs, programs whose proxy conversions add no data (binary: and whose skipped fields default to nothing), types","unbounded inputs",[B+":DeBin impls",J+":DeJson impls",R+":DeRon impls",T+":TomlParser::parse"])
p("A text cut off before its end is not mistaken for a value","Let a JSON text be exactly one value other than a number (for instance what serialize_json wrote for a struct, enum, collection, string, Option or bool), without white space or comments before it: no reader of any type of any program returns Ok on a proper prefix of it. The same holds in RON for texts that begin with a bracket or a quote, and there the reader returns Err; a JSON reader returns Err too if the program has no named fields and no times. (A truncated number is a number, and a truncated RON variant name may be another variant.)","all values and texts, all points at which the text is cut off, all readers of all programs","unbounded texts, every cut-off point and every reading program",[J+":DeJsonState::next_tok,DeJson impls",R+":DeRonState::next_tok,DeRon impls",DJ+":derive_de_json_*",DR+":derive_de_ron_*"])
p("Values move between formats unchanged",
  "Whatever `deserialize_json` or `deserialize_ron` returned, for any text, is written by `serialize_bin` as bytes from which `deserialize_bin` returns the same value, having read them all (infinite floats included), provided a skipped field has the same default for the text readers as for the binary one; if the two defaults differ the field changes. A value with finite floats that `deserialize_json` returned is written by `serialize_ron` as a text from which `deserialize_ron` returns the same value (no proxies, no variant called `None`). A value that `deserialize_bin` returned and that JSON or RON represents at all is written as a text from which it is read back.",
  "all programs, types, texts and byte strings that a reader accepts",
  "A test converts a few documents; losing information needs a value only the first format's reader can produce (defaults, wrapped numbers, repeated keys).",
  [B+":SerBin::serialize_bin,DeBin::deserialize_bin",J+":SerJson::serialize_json,DeJson::deserialize_json",R+":SerRon::serialize_ron,DeRon::deserialize_ron",DJ+":derive_de_json_named",DB+":derive_de_bin_struct"])
p("A JSON text that breaks off neither panics nor hangs a reader that knows its keys",
  "Let a text, complete or cut off anywhere, be the beginning of a text whose tokens are those of a JSON value. A reader whose types contain every object key occurring where it reads a struct, and for which no Duration or SystemTime is out of range, returns Ok or Err on it, with no panic and no endless loop; with Err if something is missing and the value is not a number. In particular a file written by serialize_json and cut off anywhere (a crash while writing, a partial download) is refused with Err by the program that wrote it. The exception is real: after an unknown key a reader of a struct hangs on {\"k\":[ and panics on {\"k\":.",
  "all JSON values and spellings, all points at which the text is cut off, all programs and types",
  "unbounded texts and every cut-off point; the tests never feed partial documents",
  [J+":DeJsonState::whole_field,next_tok,DeJson impls",DJ+":derive_de_json_named,derive_de_json_enum"])
p("Binary data moves between 32-bit and 64-bit targets",
  "What a program wrote with serialize_bin on one target is read by deserialize_bin on a target of the other pointer width as the same value, up to skipped fields, if the reading target has this value at all: on a 32-bit target (wasm32) every usize and every number of elements below 2^32 and memory for the vectors. A 32-bit reader returns exactly what the bytes stand for when lengths and usizes count modulo 2^32: the upper four bytes of every usize and length are ignored without an error, so a larger usize is read as its low half and a length of 2^32 + k as k; a string length of 2^32 - 1 panics.",
  "all programs, types, values and byte strings, both overflow-check profiles",
  "The tests run on one target; truncation needs values or lengths beyond 2^32.",
  [B+":SerBin for usize,DeBin for usize,DeBin for String,DeBin for Vec",DB+":derive_de_bin_struct,derive_de_bin_enum"])
p("The iteration order of hash containers does not matter",
  "A HashMap or HashSet is visited in an unspecified order when it is written. Whatever order the hash containers of a value (at any depth) are visited in, what serialize_bin, serialize_json or serialize_ron wrote is read back as the same value up to that order; the number of bytes written in binary form is the same for all orders. Read into a BTreeMap (BTreeSet) instead, a written HashMap (HashSet) gives the sorted container with the same entries (elements), the same one for all orders.",
  "all programs, types, values and all iteration orders of all hash containers in them",
  "A test runs with the one order its hasher happens to produce.",
  [B+":SerBin for HashMap,DeBin for HashMap,SerBin for HashSet,DeBin for BTreeMap,DeBin for BTreeSet",J+":SerJson for HashMap,DeJson for HashMap,DeJson for BTreeMap,SerJson for HashSet",R+":SerRon for HashMap,DeRon for HashMap,DeRon for BTreeMap"])
p("A written text is one line",
  "Whatever the value (any characters in strings, any floats), what serialize_json writes contains no control character (below U+0020, or DEL), and what serialize_ron writes contains no line break, tab or NUL, provided the names of fields and variants (renamed ones included) do not. So values written one per line are found again by splitting the text at line breaks and reading each line.",
  "all programs with printable names, all types, all values, any number of lines",
  "A test writes a few strings; a missed escape needs one of 34 characters at one of many places.",
  [J+":SerJson for String,SerJsonState::label,SerJsonState::field",R+":SerRon for String,SerRonState::field",DJ+":derive_ser_json_struct,derive_ser_json_enum",DR+":derive_ser_ron_struct,derive_ser_ron_enum"])
p("Types that read each other's data",
  "In JSON and RON a Vec and a LinkedList read the same texts as the same elements; a text that reads as a Vec also reads as the HashSet and the BTreeSet of its elements; (T,T), (T,T,T) and (T,T,T,T) read exactly the texts that [T;2], [T;3] and [T;4] read; [T;N] reads in JSON exactly the texts that a Vec reads as N elements; Box<T> reads what T reads. In the binary format the same holds for Vec, LinkedList and the sets (whenever the allocation the reader reserves is possible), for tuples and arrays, and for Box; and a struct reads exactly the bytes that a tuple struct with the same field types reads, whatever the names and renames of the fields.",
  "all types, all programs, all texts and bytes",
  "Changing the type of a field while keeping old data readable is a statement about every input the old type accepted.",
  [J+":DeJson for Vec,DeJson for LinkedList,DeJson for HashSet,DeJson for BTreeSet,DeJson for [T; N],DeJson for (A,B),DeJson for Box",R+":DeRon for Vec,DeRon for LinkedList,DeRon for Box",B+":DeBin for Vec,DeBin for LinkedList,DeBin for Box",DB+":derive_de_bin_struct,derive_de_bin_struct_unnamed"])
p("JSON and RON on 32-bit targets",
  "On a target with 32-bit pointers the JSON and RON readers accept, reject and panic on exactly the texts that a 64-bit target does, with the same errors at the same positions. What a type reads with u32 in every place of usize it reads as the same value on both kinds of targets, so a value whose usize numbers fit 32 bits survives serialization and deserialization between any two targets. A usize larger than u32::MAX is not rejected: it reads as its low 32 bits.",
  "all texts, all types and programs, all values",
  "Tests run on one target; the difference shows only for numbers above 4294967295 on the other.",
  [J+":impl_ser_de_json_unsigned!(usize, u64::MAX),u64_range",R+":impl_ser_de_ron_unsigned!(usize, u64::MAX),u64_range"])
p("The bracket counter of skipped members",
  "JSON members that no field takes are passed over by counting brackets in an i32. For every text of fewer than 2^31 - 1 characters that counter behaves as an unbounded one, so no reader's value, error or panic depends on it or on overflow checks. Beyond that it does not: an unknown member opening with 2^31 brackets panics in builds with overflow checks, and in builds without them 2^32 opening brackets and nothing else are passed over as a complete value.",
  "all programs, types and texts below the limit; all unknown keys, structs and continuations beyond it",
  "A test would need a text of two gigabytes, and says nothing about the other texts.",
  [J+":DeJsonState::whole_field",DJ+":derive_de_json_named"])
p("The derive macros' parser stops",
  "On every list of tokens, well-formed item or not, the parser of the derive macros stops: it returns or panics (a compile error). For structs no literal may stand directly among the tokens of a parenthesised group of the item (the fields of a tuple struct); deriving for struct S(extern \"C\" fn(u8)); never finishes.",
  "all lists of tokens",
  "A test compiles a few items; that the macro does not hang is a statement about all of them.",
  [PA+":parse_data,next_struct,next_enum,next_fields,next_type,next_attributes_list,get_all_bounds"])
p("What is written is no larger than what there is to write",
  "The size of the output of serialize_bin, serialize_json and serialize_ron is linear in the number of parts of the value (its nodes, the characters of its strings, the digits of its numbers), whatever the nesting: at most 16 bytes per part in binary, and in the text formats at most a number of characters per part that depends only on the longest name in the program and the longest float text.",
  "all programs, types and values",
  "A test measures a few outputs; a quadratic writer needs a nested or a long value to show.",
  [B+":SerBin::serialize_bin",J+":SerJson::serialize_json,SerJsonState::indent",R+":SerRon::serialize_ron,SerRonState::indent",DB+":derive_ser_bin_struct,derive_ser_bin_enum",DJ+":derive_ser_json_struct,derive_ser_json_enum",DR+":derive_ser_ron_struct,derive_ser_ron_enum"])
p("TOML documents can be rearranged and joined",
  "The result of parsing TOML does not depend on the order or the grouping of statements beyond what they leave in each key and each table: assignments to different keys, runs of sections with no key in common and tables of different names may be exchanged, and a section header is the same as a prefix of the keys below it. Joining two files with a line break is a document with the statements of both: a later file overrides an earlier one key by key, its tables come after those of the first, and the joined file panics exactly if a table of the second has the name of a key of the first.",
  "all documents, all positions in them, all pairs of files",
  "A test swaps two lines of one file; the property is about every arrangement of every document, with sections, tables and repeated keys in between.",
  [T+":TomlParser::parse,TomlParser::parse_line,TomlParser::parse_key_value"])
p("The order of members and unknown members do not matter at any depth",
  "Two JSON texts whose values differ, at any depth (inside vectors, maps, options, tuples, variants, proxies), only in the order of the members of objects read as structs, struct variants, durations or BTreeMap<String, _> (with different keys), in the order of the elements of BTreeSets, in members of structs that no field reads, whatever their values, in trailing commas, and in null members of Option fields (present or left out), are deserialized to the same value, or neither is deserialized. RON texts whose values differ, at any depth, only in the order of struct fields, of the elements of BTreeSets and of the entries of a BTreeMap<String, _>, in trailing commas, and in None members of Option fields (present or left out) mean the same, and if they mean a value both are deserialized to it. If they differ only in the order of what is read into HashSets, HashMap<String, _> and BTreeMap<String, _> (with different keys), the one value is the other with hash containers iterated in another order. In both formats, replacing parts of a text by others that are read alike at the type at which they stand (in JSON: and are null, or not, together) changes nothing either: what a part means does not depend on where it stands.",
  "all programs, all types, all pairs of JSON and RON texts",
  "A test swaps two members of one struct; the claim is about every nesting of every type and every unknown value.",
  [DJ+":derive_de_json_named,derive_de_json_struct,derive_de_json_enum",J+":DeJson::deserialize_json,DeJsonState::whole_field,DeJsonState::next_str,DeJsonState::next_colon,DeJsonState::eat_comma_curly",DR+":derive_de_ron_named,derive_de_ron_struct,derive_de_ron_enum",R+":DeRon::deserialize_ron"])
open("/verif/properties.jsonl","w").write("".join(json.dumps(x,ensure_ascii=False)+"\n" for x in P))
print(len(P))
