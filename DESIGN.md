# Design of the formal model of nanoserde (Lean 4)

## 1. Approach

nanoserde is a set of trait impls plus derive macros that generate more impls.
We model the *behaviour of the impls and of the generated impls* as total,
computable Lean functions over a **universe of types and values**:

* `Ty` – one constructor per built-in impl (`bool`, the integer kinds, `f32`,
  `f64`, `String`, `Option`, `Vec`, `LinkedList`, `HashSet`, `BTreeSet`, `[T;N]`,
  tuples, `HashMap`, `BTreeMap`, `Box`, `()`, `Duration`, `SystemTime`), plus
  `named i` (the i-th user definition: named struct, tuple struct, enum) and
  `proxied i` (a type with `#[nserde(proxy = ..)]`).  Because user definitions
  live in an environment `Env`, recursive and mutually recursive types are covered.
* `Val` – untyped trees, with a well-typedness predicate `HasTy env t v`.
* `serX : Env → Ty → Val → output` – structural recursion on the value.
* `deX : Env → fuel → Ty → State → Out` – the parsers.  Rust's general recursion
  and `while` loops that are not obviously bounded take a fuel argument;
  `Out.oof` means "not finished within the fuel".  Statements quantify over fuel
  so that nothing depends on a bound: *returns r* is `∃ n₀, ∀ n ≥ n₀, de n … = r`,
  *hangs* is `∀ n, de n … = oof`.
* panics are the explicit outcome `Out.panic`; `Err` carries the error and the
  state at the error.

So a theorem `∀ env t v, …` quantifies over every type a user can build from the
impls and derives (modulo generics, which Rust monomorphises), not over a sample.

The derive crate itself is modelled too: the token stream the compiler hands to the
macro (`TT`), the hand-written parser that reads it (`derive/src/parse.rs`), the
generated `impl` header and the part of the generators that decides names, defaults
and discriminants.  C62 links the two halves: the declaration the macro reads from
the tokens is the `Env` definition whose serializer behaviour C01–C47 are about.

Layers:

* `Verif/Model` – the code, each definition citing the lines of /repo it models;
* `Verif/Spec` – small independent specifications (grammar of RFC 8259, meaning of
  JSON and RON values at a type, layout, UTF-8, binary layout, …), none of which
  mentions a parser of the model;
* `Verif/Lemmas` – helper proofs;
* `Verif/Props` – the property theorems `Cnn_*`, one file per area, with concrete
  non-vacuity examples beside them.

Where the code does *not* have the property a user would expect, the property in
`properties.jsonl` says exactly when it holds, and separate theorems (suffixes
`_panics`, `_hangs`, `_broken`, `_misread`, `_invalid`, `_collapses`, …) prove the
exception for whole families of inputs.  Section 4 lists these findings.

## 2. Per property: what is modelled, how it is proved

| id | what is modelled / specified | proof |
|---|---|---|
| C01, C02 | `serBin`/`deBin` over `Ty`/`Val`; statement generalised to arbitrary bytes before and after | induction on the value (`readsBack`) |
| C03, C06 | same | from C02, locality (C04) and determinism |
| C04 | decoding depends only on the bytes consumed | induction on fuel (`Local.deBin`) |
| C05 | explicit `panic`; the overflow-check mode is a parameter; `PanicsAt` (Spec/BinPanic) lists the panicking heads | induction on fuel for *only there*, witnesses for *there* |
| C07, C08, C12, C14 | layout spec in Spec/BinLayout | case analysis, induction over components, byte arithmetic |
| C09 | typing of decoded values, then C01 | induction on fuel |
| C10, C28 | insertion into association lists | induction over the entry sequence; comparator assumed a lawful total order (`LawfulKeys`) |
| C11 | Duration/SystemTime arithmetic | arithmetic |
| C13 | own UTF-8 codec (Spec/Bin) and `from_utf8` | induction |
| C15–C17 | JSON lexer on `List Char`; RFC 8259 string grammar | induction on the string; arithmetic for surrogates |
| C18–C20, C36 | number lexing, `parse::<u64>`, ranges; std float formatting is a parameter with laws | induction on digits |
| C21 | `serJson`/`deJson`, type conditions in Spec/JsonSafe | induction on the value with arbitrary following text |
| C22 | RFC 8259 grammar as an inductive predicate | induction on the value; counterexample families |
| C23, C41 | texts with the same lexemes and arbitrary white space/comments | simulation between two parser runs |
| C24 | what may follow a value | same machinery; characterisation of legible/illegible rests |
| C25–C29 | member lists of derived structs (Spec/JsonObject) | induction over members, including `whole_field` skipping of unknown values |
| C30 | rename in structs, tuple-variants and struct-variants | from C21 and the written text |
| C31, C32 | fuel / panic outcomes for every text and type | well-founded measure on remaining input and productive types; exact hang/panic shapes |
| C33, C44, C55 | cursor with line/col | invariant over `next` |
| C34, C35, C37 | enum representation, Option/null, fixed arity | inversion of the parser over the lexeme stream |
| C38 | debug overflow in `[T;0]` | characterisation of the values that visit an empty array |
| C39, C40 | `serRon`/`deRon`, type conditions in Spec/RonSafe | as C21 |
| C42, C43 | member lists of RON structs | induction over members |
| C45–C47 | RON lexer and parser on arbitrary texts | as C31/C32; lexing lemmas |
| C48–C55 | TOML lexer, parser, builder | induction over document syntax; invariants over arbitrary texts |
| C56, C57 | token-tree model of the attribute reader | induction over the attribute list |
| C58, C59 | declaration grammar (Spec/DeriveDecl), reader of the macro | induction over fields/variants/types |
| C60, C61 | default expressions and impl headers the generators emit | case analysis, induction over generics |
| C62 | from tokens to `Env` definitions and on to bytes | composition of C56–C60 with C08 |
| C63 | `JsonMeans` (Spec/JsonMeans): meaning of every JSON value at every type | soundness and completeness, induction on fuel and on the derivation |
| C64, C65 | `RonMeans` (Spec/RonMeans) and whole-text scanning (Spec/RonWhole) | trace inversion: a run of the parser consumed a lexeme sequence that spells a tree with that meaning |
| C66, C67 | `JsonSays`, `JsonReading` (Spec/JsonWhole): the meaning of lexeme sequences, for every text | trace inversion as for RON; rejection from termination (C31) and the panic characterisation (C32) |
| C68, C69 | `BinSays` (Spec/BinRead): which bytes stand for which value; `Inhabitable` types | soundness by induction on fuel, completeness by induction on the derivation, termination by remaining bytes and rank of the type |
| C70, C71 | `TSays`, `TBeginsWith` (Spec/TomlRead): every accepted spelling of tokens and every accepted document | trace inversion of the tokenizer and parser loop; uniqueness by a reference reader of token lists; rejection from termination (C48) |
| C72–C74 | the text the generators write, as programs in a small language (`Model/GenWrite`: one constructor per statement form, one Lean function per generator function) with a big-step semantics in which shadowed parameters and missing names are code that does not compile | from tokens: parse (C58/C59), generate, run; induction over fields, components and arms; result equals `serBin`/`serJson`/`serRon` of the declared definition |
| C75–C77 | the generated reader bodies as programs in a second small language (`Model/GenDe`: locals, loops over tokens, matches on strings and numbers, constructors) run in the reader monad | from tokens: parse, generate, run; the run is proved equal, as a function of the state, to `deBin`/`deJson`/`deRon` of the declared definition (loops by simulation of local slots) |
| C78 | generated writer and generated reader of one declaration together | composition of C72–C77 with the round trips C02, C21, C40 |
| C79 | the entry points `derive_*` with a container proxy (`deriveSer`, `deriveDe`) | run of the two-statement body |
| C80 | two programs `env`, `env'` related by `Evolution` (`Spec/Evolve.lean`); the writer of one, the reader of the other | induction on the value: the tree written has, in the new program, the meaning that `Migrates` gives; then C63's correspondence between meaning and reading |
| C81 | two programs related by `BinEvolution` (`Spec/BinEvolve.lean`) | corresponding values have equal bytes (induction on `BinMigrates`), every value has one (induction on its size); then the round trip C01, the embedding C02 and truncation C03 |
| C82 | the `MaybeUninit` code of the three array readers with slots, ownership and destructor runs (`Model/ArrayMem.lean`), over arbitrary bracket, element and separator actions | one invariant of the fill loop (initialised prefix, elements numbered by creation) by induction on the rounds; the erasure is the array case of `deBin`/`deJson`/`deRon` |
| C83 | the `Display`/`Debug` impls of the four error types as functions to characters (`Model/ErrText.lean`); the `Debug` text of floats and characters is abstract | shape from the positions of C33, C44, C55; telling apart by a first-character classification and unique splitting at the separators; named keys from C26–C28, C43, C07 |
| C84 | `Index` and the accessors of `Toml` (`Model/TomlGet.lean`), panics as `none` | from the map C50 describes, by its order |
| C85 | the readers on arbitrary texts; `HasTy` in the program without memory limits; `SaneText` on defaults and proxies (`Spec/Reread.lean`) | C66/C64 reduce reading to `JsonSays`/`RonMeans`; induction on these |
| C86 | reader, then writer, then reader | by the same inductions what was read is a value the format represents; then the round trip C21/C40 |
| C87 | the writers | from the round trips C21/C40 and that a reader returns one value |
| C88 | a caller of `de_json`/`de_ron` (Model/Stream: set-up as in `deserialize_json`, then one value per type or until `tok == Eof`) | induction on the row of values, using per value the two directions of C66/C64 (reading in the middle of a token stream) |
| C89 | the same caller on texts of the writers | each written text extends by its separator to a piece of one document; then C88 |
| C90 | two programs related by `REvolution` (`Spec/RonEvolve.lean`); the RON writer of one, the RON reader of the other | as C80: induction on the value, the tree written has in the new program the meaning that `RMigrates` gives; a removed field is the unknown name of C42 |
| C91 | the fuel of `deBin` is exactly the number of nested reader calls; that of `deJson`/`deRon` bounds nesting and the rounds of each loop | lexicographic induction on (text left, rank of the type) with an explicit budget `(K+1)*left + rank + 1`, `K` the largest rank of the finitely many types of the program (`Lemmas/ProgTys.lean`); lower bound on the chains of `struct N(Option<Box<N>>)` by induction |
| C92 | `Val.weight`, `entriesWeight` (Spec/Weight, Spec/WeightToml): how much a value holds, defined on values only | induction on what the input stands for (`JsonSays`, `RonMeans`, `BinSays`, `TReading`), through C66, C64, C68 and the soundness of the TOML parser; the exception by constructing the reading |
| C93 | the exact readings of C66 and C64; `JScan`/`RScan` of the text and of its prefix; writers `serJson`, `serRon` | whatever denotes a value is one lexeme or closed by its last bracket and not before (induction on `JsonSays`, on RON trees); a scan of the prefix extends to the text, scanning is deterministic |
| C94 | `deserializeX` followed by `serializeY`/`deserializeY` for different formats | What a text reader returns is typed (C85) and represented exactly by the other format: induction over `JsonSays`/`RonMeans` for the binary format (`Lemmas/Transcode`), `JsonExact → RonExact` for typed values (`Lemmas/HoldsTyped`); then the round trips C01, C21, C40. Counterexample for skipped fields with an attribute default |
| C95 | `deserializeJson` on a prefix of the lexemes of a JSON tree; `Trips` (`Spec/Unknown`): the tree has an unknown key where a struct is read, or a time out of range | lock-step of the reader with the tree up to the cut (`Lemmas/Cut*`): after the cut every token is end-of-file (or one shortened lexeme), on which every loop of a reader that is not skipping an unknown value fails; that nothing written by the program trips it is part of the round-trip induction (`Lemmas/JsonRoundTrip`); with C93 the outcome is `Err`. Counterexamples for unknown keys |
| C96 | `W32.deBin` (`Model/Bin32`): the binary reader with a 32-bit `usize` (sums, `m as usize`, slice and allocation limits); the writers are the same code | `W32.BinSays` (`Spec/Bin32`) characterises it exactly, as C68 does on 64 bits; the round trip for values whose parts fit (`W32.Fits`); the writer does not depend on memory sizes (`serBin_retarget`); the upper half of a length does not matter to `W32.BinSays` |
| C97 | the writers and readers of hash and B-tree containers; a value lists a hash container in the order it is visited | `Reordered` (`Spec/HashOrder`): the same value with hash containers visited in other orders, at any depth; it is symmetric and preserves types, exactness and the length of the encoding, so the round trips (C01, C21, C40) apply to every order; sorted containers via C10, C64, C66 and uniqueness of the sorted list |
| C98 | `serJson`, `serRon`, the escapes of strings | for any predicate that holds of printable ASCII, of the names and of escaped characters, all characters of the text satisfy it (induction on the value, no typing assumed); `linesOf` (`Spec/OneLine`) splits at line breaks |
| C99 | `deJson`, `deRon`, `deBin` on sequences, tuples, `Box` and structs | corollaries of the exact input relations (C64, C66, C68): each pair of types has the same premises, by inversion of the relations |
| C100 | `Model/Text32.lean`: `DeJson` and `DeRon` with a 32-bit `usize` | two simulations: the 32-bit reader does the same as the 64-bit reader up to values (`Par`), and both extend the reader of the program with `u32` for `usize` (`Env.narrow`, `Ty.narrow` in `Spec/Text32`); the writers commute with `narrow`; round trip by C21, C40 |
| C101 | `Model/JsonI32.lean`: `whole_field` with an `i32` counter that panics or wraps on overflow, and the readers above it | the counter plus the length of the rest of the text never grows, `next_tok` never goes back (`Lemmas/JsonI32`), so below 2^31 - 1 characters no addition overflows; the readers are then equal by simulation in both directions. Beyond: induction over the brackets |
| C102 | the parser of the derive macros on arbitrary token lists | every loop of the parser eats a token per round and every recursive call gets fewer tokens (`Lemmas/DeriveEnds`): fuel linear in the size of the item suffices; the hang by induction on the fuel |
| C103 | the writers of all three formats | induction on the value; every part pays for itself, a name and some punctuation (`Lemmas/WrittenSize`) |
| C104 | the TOML parser | through C70/C71: a text is parsed to what its statements leave (`Spec/TomlSame`), which is compared for rearranged statements; texts are joined token by token (`Lemmas/TomlSame`) |
| C105 | the JSON and RON readers, generic and derived | relations of rearranged values (`Spec/Reorder`, `Spec/RonReorder`), shown symmetric and to preserve what a value means at a type (C63) by induction on the relation (`Lemmas/Reorder`, `Lemmas/RonReorder`); the relations take a further relation of parts that may be swapped (`NoSwap` for none; `JReadAlike`, `RReadAlike` for parts read alike); RON by C43; for hash containers a second relation (`Spec/HashReorder`, `Spec/RonHashReorder`) that gives values related by `Reordered` (C97) |

No property was found inexpressible.

## 3. Trusted base

* Lean 4.33.0's kernel.  Every theorem depends on no axioms other than `propext`,
  `Classical.choice` and `Quot.sound` (many on fewer).  No axioms are declared, no
  compiled-code tactics are used.
* The faithfulness of the hand-written model (`Verif/Model`) to /repo.  Each
  definition cites the file and lines and says where it simplifies.
* The specifications in `Verif/Spec`, which are meant to be read.

Assumptions that appear as *hypotheses* of theorems (not axioms), each with an
inhabitant in the examples:

* `FloatLaws fl` (Spec/Float): std's `{:?}` of a finite float is a literal that
  `parse::<f64>` maps back (for `f32`, after rounding to `f32`); JSON numbers are
  accepted; a bare exponent is rejected; `NaN`/`inf` print as such.
* `LawfulKeys`/`LawfulEnv`: the `Ord`/`Eq`/`Hash` of user types used in sets and maps
  is a lawful total order that agrees with equality; user proxies' `From` impls round
  trip where that is claimed.
* Well-formed programs (`WFEnv`, `Productive`, `DistinctProg`): every named type is
  defined, no infinite-size types, field names are distinct.

Machine integers: `usize` is 64-bit, except in `Model/Bin32`, which models the
binary reader of a 32-bit target (C96), and `Model/Text32`, which models its JSON and
RON readers: they read a `usize` as a `u64` and cast it with `as` (C100).  The `i32` bracket counter of
`whole_field` is unbounded except in `Model/JsonI32`, which shows when that matters (C101).  Memory is unbounded: allocation failure
(`Vec::with_capacity` of a huge length, `capacity overflow` panics) is modelled only
where the code computes the length with an overflowing operation; otherwise not.
The stack is unbounded: a deeply nested input overflows the stack of the real
code and in the model only uses more fuel.  How much it uses is C91: at most linear in
the input, and without limit.

### Modelled code

| file | modelled | not modelled |
|---|---|---|
| src/serde_bin.rs | all impls, for 64-bit targets and (`Model/Bin32`) 32-bit ones; the unsafe code of array readers (`Model/ArrayMem`) | a destructor of `T` that panics while an array is being dropped |
| src/serde_json.rs | lexer, all impls, error kinds with positions; the readers of 32-bit targets (`Model/Text32`) | `Debug` text of floats and characters in errors is abstract; pretty-printing is absent from the crate |
| src/serde_ron.rs | lexer, all impls, error kinds with positions; the readers of 32-bit targets (`Model/Text32`) | `Debug` text of floats and characters in errors; indentation of the output is the `conl`/`indent` no-op of the code |
| src/toml.rs | lexer, parser, table building, accessors, error texts | `Debug` text of floats and characters in errors |
| derive/src/parse.rs | token reader: attributes, visibility, types, generics, where-clauses, structs, enums | panic messages |
| derive/src/shared.rs | attribute lookups, defaults, generic headers | formatting white space of generated code |
| derive/src/serde_*.rs | as the behaviour of the generated impls (`serBin`, `deJson`, … on `named i`) | the spelling of generated code other than headers/defaults (it is modelled as a program in a small language, `Model/GenWrite`, `Model/GenDe`, whose semantics is trusted to be Rust's) |

Iteration order of `HashMap`/`HashSet` is represented by the order of the list in the
value (any order is a value), so statements hold for every iteration order; C97 states
this for the round trips.

## 4. Findings (all proved as theorems unless marked "noted")

* **JSON, RON on 32-bit targets**: a `usize` above `u32::MAX` is silently truncated instead of being
  rejected as the other integer types are – C100.
* `whole_field` counts brackets in an `i32`: a member no field takes whose value opens with 2^31
  brackets panics (overflow checks on), and 2^32 of them count as none (off) – C101.
* **Derive**: `struct S(extern "C" fn(u8));` (with `#[nserde(skip)]` on the field rustc accepts it) makes every
  derive macro loop without end: `next_fields` never checks that a field consumed a token – C102.
* **Binary**: `String`/`Vec` length prefixes near `usize::MAX` overflow `o + len` (panic
  in debug, slice panic in release) – C05; Duration with nanos carrying past
  `u64::MAX` seconds and SystemTime past `i64` panic – C05, C11; `SystemTime` before
  the epoch is written as the epoch – C11; unknown `bool`/`Option` tags are accepted – C09.
* **JSON**: signed types accept `[2^63, 2^64)` and wrap – C19; `"-0"` loses its sign and
  is rejected for unsigned; `1e+5` rejected, integers above `u64::MAX` rejected for floats,
  non-finite floats written but unreadable – C36; an unknown key followed by an unclosed
  bracket hangs (`{"k":[`) – C31, and by nothing panics (`{"k":}`) – C32; trailing tokens
  ignored if they lex – C24; `"A" "B"` reads `B` – C34; struct variants ignore `rename`
  and `skip` when writing – C29, C30; trailing comma when the last `Option` of a struct
  variant is `None` – C22; `[T;0]` serialization panics with overflow checks – C38;
  `Option<Option<T>>` collapses – C35; non-string map keys give invalid JSON – C22;
  rename text is written unescaped – C22, C30; a struct without fields rejects any key – C26.
* **RON**: character literals are skipped like white space; an unclosed block comment is
  accepted – C46; the error column is always 0 – C44; booleans accept numbers, signed
  wrap – C47; `Option` of an enum with a variant `None` is ambiguous – C40; `A B` reads
  variant `B` – C64, so that of two unit variants on neighbouring lines both are read as the
  second (JSON too) – C89; a field removed from a struct makes old texts unreadable – C90;
  `proxy` for `DeRon` does not compile – C79.
* **TOML**: `""` is misread – C52; `a=1` then `[[a]]` panics – C48; `[true,false]` is an
  error – C53; after `[[t]]` a following `[s]` goes into the last element – C50; the
  column is always 0 – C55; the end of input closes an open array, commas between array
  elements are optional – C53.
* **Derive**: container attributes of enums are dropped – C57; `pub (A, B)` in tuple
  structs, `pub(crate) struct`, negative discriminants panic – C58, C59; a private
  tuple-struct field whose type starts with punctuation is misread – C58; const generics
  give an invalid header – C61; of a function type `Fn(A, B) -> R` only the first argument is read
  (`C61_derive_fn_arguments_dropped`), and a bound `Tr<A, Item = B>` is written back as `Tr<A= B>`
  (`C61_derive_assoc_after_argument`), so the generated `impl` has other bounds – C61; `default = "x"` on `Option<String>` yields an unquoted
  expression in RON – C60; the readers name a local variable `_` + field name, so a raw identifier (`r#type`)
  gives `_r#type`, which is not an identifier (noted); others (trailing comma in `nserde(..)`, `(T,)`, raw strings)
  noted in the model's comments.

## 5. Testing the theorems against wrong programs

`seeded/LOG.jsonl` records every seeded bug: the definition edited, the edit, the claim
it breaks, which lemmas and theorems stopped proving, and what was tightened.  Each
mutation is applied to a scratch copy; since Lean stops at a broken lemma, a second pass
leaves holes in the broken lemmas (in the scratch copy only) and continues, so that the
log shows which *property theorems* break, not only which helper lemma did.
