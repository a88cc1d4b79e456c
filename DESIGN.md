# Formal model of yeslogic/doodle in Lean 4

`/verif/lean/Verif/*` is a Lean 4 model of the pure core of doodle at the pinned
commit, and a set of theorems about it.  `properties.jsonl` lists the English
properties (C01 ...), `MANIFEST.json` maps each of them to the theorems that
prove (or refute, or partly prove) it, `seeded/LOG.jsonl` records the mutation
experiments.

## Layout

* `Verif/Model/*.lean` – the model: one definition per Rust function, each with a
  comment citing file and lines in `/repo`, and naming every simplification.
* `Verif/Spec/*.lean` – small independent specifications (sets of bytes, integer
  intervals, the declarative grammar relation, RFC-style Huffman codes, ...).
* `Verif/Lemmas/*.lean` – helper lemmas.
* `Verif/Props/*.lean` – the property theorems, one file per area, each with a
  non-vacuity `example` next to it.

## Modelling conventions

* `usize`/`u64` are `Nat` with explicit range guards wherever the code can
  overflow and the property is about overflow; `BitVec`/`UInt8` where the bits matter.
* A Rust panic (`unwrap`, `unreachable!`, overflow check, index out of range) is an
  explicit error value in the model (`.panic`), distinct from an ordinary `Err`.
* `&mut self` methods return the new value.
* Loops are structural recursion/folds where possible.  The interpreter, the
  compiler and the lookahead-tree construction recurse through named formats, so
  they take a fuel argument and return an explicit out-of-fuel value; theorems hold for
  every fuel, and results other than out-of-fuel do not depend on the fuel.
* Names (`Label`) are `String`.

## Plan per property

| id | modelled by | proof idea |
|----|-------------|-----------|
| C01 | `Model/ByteSet` (4 × `BitVec 64`) | membership characterisation of each operator, bit-level lemmas |
| C02 | `Model/ByteSet` | min: proof; max: code negates the words of quadrants 2,1,0 – refuted by witness, proved for sets with a member ≥ 192 |
| C03 | `Model/ByteSet` | extensionality; iteration = filter of 0..255 |
| C04 | `Model/Bounds` | per-operator soundness; `&` and `<<` refuted by witnesses |
| C05 | `Model/Expr` + `Model/Bounds` | induction on expressions |
| C06 | `Model/Read` | invariant by induction over operation sequences |
| C07 | `Model/Decoder` | induction on fuel |
| C08 | `Model/Format` (match_bounds) + `Model/Decoder` | induction; refuted for Permit; proved for Permit-free formats |
| C09 | `Model/Decoder` | direct |
| C10 | `Model/Decoder` | relational induction on two runs |
| C11 | `Model/Compile`, `Model/Decoder`, `Spec/Grammar` | simulation, induction on fuel |
| C12 | the same plus `Model/MatchTree`; `Spec/Words` and `Spec/Regular`, and `Spec/Predictive` | tree completeness on the regex-like fragment; for formats in which one byte decides every choice, induction on derivations with the sets of first and following bytes (`Lemmas/Predictive`, `Lemmas/PredictiveFound`), and a checker for that class (`Lemmas/PredictiveCheck`); the full claim is refuted |
| C13 | `Model/MatchTree` | invariant of tree construction |
| C14 | `Model/Decoder` | progress measure; refuted for Permit bodies |
| C15 | `Model/Decoder` | induction on iterations; RepeatBetween refuted |
| C16 | `Model/Decoder` | induction on branch lists |
| C17 | `Model/WithErr` | induction |
| C18 | `Model/Record` (constructors of record formats), `Model/Compile`, `Model/Decoder` | induction on the field list; partial: a later field of the same name replaces a kept one (`C18_rebind_refuted`) |
| C19 | `Model/Record` (`RecordBuilder`, `into_format`, `merge_records`, `remap_field`) | induction on the shape of the format; refuted for renamed, doubled, reordered and clashing fields |
| C20 | `Model/Expr` (`Scope`), `Model/Decoder` | induction on scope chains |
| C21 | `Model/Expr` | induction on expressions |
| C22 | `Model/Expr`, `Model/ValueType` | type soundness by induction |
| C23 | `Model/Format`, `Model/ValueType` | type soundness by induction |
| C24 | `Model/Expr` (`Pattern.matches`) | induction; nested-wrapper part refuted |
| C25 | `Model/LocDecoder`; `Spec/Loc`, `Spec/Located` | simulation with location erasure for programs without constructs treated differently (each restriction has a counterexample); locations bounded by an invariant on the scope (values decoded one after the other occupy disjoint windows) |
| C26 | `Model/ValueType` | induction on types |
| C27 | `Model/SeqKind` | abstraction to lists; `sub_range` bound refuted |
| C28 | `Model/Search` | loop invariant |
| C29 | `Model/Prelude` | refinement to a one-element-at-a-time copy |
| C30 | `Model/Huffman` | prefix-freeness, tree insertion invariant |
| C31 | `Model/Huffman`, `Model/Compile`, `Model/Decoder`, `Lemmas/HuffmanDecode` | equality of two loops; the compiled decoder: its tree exists by the converse of C13, it selects by prefix-freeness (C30, C12) |
| C32–C35 | `Model/Parser` (offset, view stack, parser) | invariants over operation sequences; bit-mode limit refuted |
| C36 | `Model/NumEval` | case analysis with integer arithmetic; MIN cases refuted |
| C37, C38 | `Model/NumCore` | finite table of type pairs × integer arithmetic |
| C39 | `Model/NumCore` | induction on expression trees |
| C40 | `Model/BaseSet` | counting ranks, loop invariant of the choice, loop over machine types; grouping-independence refuted |
| C41 | `Model/Inference` (engine, elaborator), `Spec/Inference` (typing rules on annotated trees) | each step of the engine adds exactly its constraint to the set of satisfying assignments (or refutes it); induction on the expression; reading off succeeds iff each class has one solution |
| C42 | `Model/Name` | invariant over histories of context and declaration operations; global uniqueness refuted for labels containing `__dupX` and for declarations sharing a place |
| C43 | `Model/Precedence`, `Model/Printer` | reading back by an operator-precedence reader; exact set of collisions; refuted by witness |
| C44 | `Model/WithErr` (`IxHeap`) | refinement to a list of lists |
| C45 | `Model/Prelude` | induction on lists |
| C46 | `Model/Precedence`, `Model/Printer` | reading back by Rust's precedence rules, then induction on expressions; refuted by witnesses |
| C47 | `Model/Parser` | case analysis on the guarded increment over the reachable-state invariant; the reported position is refuted inside views by a witness |
| C48 | `Model/Infer`, `Model/Expr` | independent inductive list of run-time faults (`Spec/Progress`); progress by mutual induction over expressions on top of type soundness, converse by induction on faults; refuted for `Numeric` and range operands |
| C49 | `Model/Inference` (`Alias`, `Aliases.pair`), `Spec/Alias` (equivalence closure of the requests) | invariant: back and forward references agree, and roots are equal iff linked; every arm is a join of the greater root to the lesser |
| C50 | `Model/Gen` (code the generator emits, run on `Model/Parser`) against `Model/Decoder`; fragment in `Spec/Gen` | simulation relation between the reader and the runtime parser, induction on fuel over all constructs of the fragment; every restriction of the fragment is refuted by a witness program run in both ways |
| C51 | `Model/Helper` (`bitFields`, `packedWord`), compiled by `Model/Compile` and run by `Model/Decoder`; `Spec/Helper` cuts the list of bits | invariant of the loop that assigns shifts and masks, arithmetic of shift and mask against binary digits; the check of reserved segments, whole-word fields and empty fields are refuted |
| C52 | `Model/Helper` (`word`, `signedWord`, `isByte`, `isBytes`, `byteSeq`); `Spec/Helper` says what number the bytes are the digits of | the compiled decoder is computed for every place in a format; induction on the bytes |
| C53 | `Model/Helper` (conditions and expressions), `Spec/Conditions` (what a condition is to do with any inner format; values of expressions in a scope) | a lemma about conditions for any inner decoder, evaluation lemmas per construct, induction on operands and elements; name capture and lengths of `2 ^ 32` are refuted |
| C54 | `Model/Text` (the six items of the text format), Lean's `String.utf8EncodeChar` as specification | each of the ten byte forms against the encoder by linear arithmetic; derivations by composition lemmas (`Lemmas/Reads`); decoder by C11, C12, C14, C55 |
| C55 | `Spec/Safe` (no reached expression is without a value), the decoder as for C11 | induction on the fuel against the compiled decoder, reached positions described by derivations; a bounded repetition with a lower bound is refuted |
| C56 | `Model/Unify` (unification core of the type checker, with a history variable that records the requests); `Spec/Unify`, `Spec/Request` (solutions, requests) | each function of the recursion gets a claim about the solutions of its final state whose types are below a bound; claims compose; a final induction on the size of the types of a solution discharges the bound. `Hole` and `Empty` are refuted |
| C57 | `Model/TypeCheck` (inference of the module type checker for patterns, numeric trees, annotations and expressions, on top of `Model/Unify`); `Spec/TypeCheck` (scopes that agree, expressions the verdict can be relied on for) | structural induction over expressions: each inference function, from a well formed state, reaches a well formed state all of whose solutions make the expression sound at the type of its variable; the claims about unification of C56 compose. Records that mention earlier labels, lengths of sequences, infinite types and unions inside annotated tuples are refuted |
| C58 | `Model/TypeCheckFormat` (inference of the module type checker for formats, calls of items with memoised types, views, reading types off with the occurs check, `typecheck`, `infer_module`); `Spec/TypeCheckFormat` (formats the verdict can be relied on for, types inside types, sane states) | structural induction over formats, then induction on the nesting of calls, as in C57; a solution is built from what is recorded by well-founded recursion on the types inside types, under which every type read off is the type of its variable; composed with C11 for the decoder. `Fail`, `Pos`, calls with further alternatives and panics are refuted |
| C59 | `Model/TypedFormat` (typed formats, conversion back to formats, their own bounds), `Model/TypedCompile` (continuations that mix typed and untyped formats, steps over them, levels and trees over them, the code generator's compiler); `Spec/TypedFormat` (formats without the shapes on which the two compilers differ) | simulation between the two tree constructions (steps, levels and trees are related up to the order of branches), then lockstep of the two compilers over their queues with related continuations, then equality of runs of related decoders by induction on steps; acceptance by the same simulation run forward, with the total size of queued formats as measure of termination. Optional formats, `Align(1)`, phantoms, casts in counts, the lookahead of `SkipRemainder` and panics are refuted |
| C60 | `Model/NumCodegen` (classification of signatures, names of helpers, generated code as a tree, its typing against the helpers that exist, its value with the helpers of `Model/NumEval`); `Spec/NumCodegen` (exact integer meaning with every part in its type; the expressions and values excluded) | the helper named for a signature is compared with the helpers that exist for all signatures (a finite table) and with the exact operation for all operands (C36), then induction over typed expressions. Refuted: 18 mixed 64-bit signatures, negation from unsigned to a signed type that is not wider, successors and predecessors name helpers that do not exist; constants outside their type; MIN rem -1; abs and negation of MIN; remainders by negative numbers and intermediate results outside their type differ from the interpreter |
| C61 | no new model: `Model/Gen`, `Model/TypedCompile`, `Model/Compiler`, `Spec/Grammar` | composition of C59 (both compilers), C50 (generated code against the interpreter), C11 and C12 (meaning of formats), C14 and C55 (end, no panic), and independence of the step limit of generated code |
| C62 | `Model/Formats`: the four formats as their `main` functions build them, with `Model/Record` and `Model/Helper`; documents in `Spec/Formats` | the relation between bytes and values each format derives (`Lemmas/Reads`, `Lemmas/Formats`), then C11, C12, C14, C55 for the compiled decoder |
| C63 | `Model/ByteSetPrint`: `as_token`, the raw form, `as_range`, the split into runs and the fallback of `src/byte_set/pretty_print.rs`, with the overflow checks as a flag; `Spec/ByteSetPrint`: the bytes that a printed piece stands for | the runs partition the set; each piece stands for its run; the fault of `max_elem` and the overflow of the end of a run are witnessed, and bound the sets for which the claim holds |
| C64 | `Model/Expr`, `Model/Value`, `Model/SeqKind`, `Model/Search`; `Spec/ExprMeaning`: what each operator computes, on numbers and on lists of items, with no reference to the evaluator's functions | one equivalence for each operator, from the values of the operands to the value of the whole; loops by induction on the items |
| C65 | `Model/TypeAnalysis`: the analyses in any monad, run with and without the table of answers; `Spec/TypeAnalysis`: Rust's rule for `Copy`, rounding up, room for fields | one relation between two monads carried through all analyses, used for more levels and for the table; induction on types and on the order of definitions for the rest |
| C66 | `Model/TreeExpr`: expressions as operator trees, a third instance of the printer of C43 and C46; `Spec/TreeExpr`: the usual rules of reading, regrouping to the left | types leave only chains of one class to be confused; printing is invariant under regrouping, and regrouped trees have tight operands, hence what is read is known exactly |
| C67 | `Model/Fragment`: fragments, the questions asked of them, and the builder; `Spec/Fragment`: texts with a separator between each two, histories of a builder | induction on fragments; a builder's content is invariant under `renew` and grows by what is written |
| C68 | `Model/TreeLayout`: the layout of values in tree views, without formats; `Spec/TreeLayout`: outlines, how they are drawn, and how a drawing is read | every value's fragment either fits inline or is the drawing of its outline under every gutter, by induction on the value; reading a drawing gives back depths and headlines, which determine the outline |
| C69 | `Model/Flat`: the flat listing of a value along with its format, and the check for bytes outside titled items; `Spec/Flat`: the lines of a value, the formats that can be listed, and the formats with bytes outside titled items | induction on parses, together with a claim on the scope that record-shaped formats leave to their record; induction on formats and on the nesting of items for the check |
| C70 | `Model/ReadWidth`: read widths of types and definitions; `Spec/ReadWidth`: the numbers of bytes that values of a type are made of | a width describes exactly the set of these numbers, by induction on types, and on the nesting of definitions; sums and alternatives of widths describe sums and unions of sets |
| C71 | `Model/Riff`: the items of the RIFF format; `Spec/Riff`: the layout of files and what their values show | the languages of the parts are put together by the laws of the grammar, with slices only inside the input; decoders read slices to their ends, because their loops stop only where no byte is left that they could take, and find every file, because a loop goes on as long as there are bytes; decoding ends, because loops move |
| C72 | `Model/Gzip`: the items of the extra field of gzip; `Spec/Gzip`: its layout and what its value shows | as for C71; subfields hold no choices, so that decoders find all their derivations |
| C73 | `Model/Tiff`: the items of the TIFF format, with the byte order as argument; `Spec/Tiff`: the layout of headers and directories and what their values show | derivations of the format are described exactly, in both directions; decoders find every header with a directory; with the soundness of decoders (C11) and because runs with more fuel agree, nothing else is decoded |
| C74 | `Model/GzipHeader`: the items for the header and the footer of gzip, with the flags made by `bit_fields_u8`; `Spec/GzipHeader`: the bytes of headers and trailers and what their values show | the derivations of both formats are described exactly; soundness of decoders (C11) and completeness of plain chains carry this over to decoders; the check of the reserved bits is refuted |
| C75 | `Model/GzipName`: the items for the name, the comment and the checksum of gzip headers, with `asciiz_string` | the derivations of the formats are described exactly; soundness of decoders (C11) and completeness for predictive formats (C12) carry this over to decoders |
| C76 | `Model/GzipMember`: all items of the gzip format, with any item for the data; `Spec/GzipMember`: which fields a member has, in which order | the derivations of the format are described exactly, in both directions, with the data as a parameter; soundness of decoders (C11) carries one direction over to decoders |

## Trusted base

* Lean 4.33.0's kernel.
* The axioms listed per theorem in the section "Axioms per theorem" below: only `propext`,
  `Classical.choice` and `Quot.sound` occur.
* The reading of the Rust source: the model is hand-written from the text, not extracted.  The citations in
  the comments of the model are the only tie to the code.
* What a Rust primitive does (wrapping and checked integer operations, `as` casts, shifts, slices, `Vec`,
  `BTreeMap`, `HashMap`, `char`) is taken from the language's documentation and written into the model.

## Parts of the code that are modelled

The table lists, for every file of `/repo/src` that the model cites, the lines cited by a definition of the
model.  A line outside these ranges is not modelled.  Within a cited range every case of a `match` is modelled
unless the comment of the definition names it as left out.

<!-- begin generated: coverage -->
| file | lines | cited by | modelled lines |
|---|---|---|---|
| `doodle-formats/src/format/gzip.rs` | 123 | `Gzip`, `GzipHeader`, `GzipMember`, `GzipName` | 15-122 |
| `doodle-formats/src/format/numbers.rs` | 50 | `Formats` | 5-50 |
| `doodle-formats/src/format/peano.rs` | 16 | `Formats` | 4-16 |
| `doodle-formats/src/format/riff.rs` | 32 | `Riff` | 5-31 |
| `doodle-formats/src/format/run_length.rs` | 58 | `Formats` | 4-58 |
| `doodle-formats/src/format/text.rs` | 128 | `Text` | 7-128 |
| `doodle-formats/src/format/tiff.rs` | 91 | `Tiff` | 8-67, 71-80, 83-91 |
| `doodle-formats/src/format/waldo.rs` | 36 | `Formats` | 4-38 |
| `src/bounds.rs` | 682 | `Bounds` | 11-16, 53-56, 100-117, 121-126, 139-178, 182-187, 191-193, 196-201, 204-208, 211-213, 216-218, 221-226, 229-235, 239-247, 259-270, 274-279, 286-295, 314-386, 389-414, 417-476, 481-491 |
| `src/byte_set.rs` | 473 | `ByteSet` | 8-38, 41-43, 51-53, 56-63, 69-178, 181-210, 213-273, 276-295, 313-338 |
| `src/byte_set/pretty_print.rs` | 215 | `ByteSet`, `ByteSetPrint` | 12, 22-193, 196-200 |
| `src/codegen/mod.rs` | 5860 | `Gen`, `Printer` | 400-700, 741-879, 1090-1235, 2749-2833, 2843-2867, 2887-2960, 3000-3258, 3287-3340, 3365-3446, 3468-3520, 3557-3735, 3745-3756, 3760-3900 |
| `src/codegen/model.rs` | 529 | `Gen` | 258-260, 355-372 |
| `src/codegen/name.rs` | 504 | `Name` | 11-14, 17-21, 26-57, 61-106, 110-114, 118-123, 129-139, 146-162, 165-169, 173-178, 182-186, 193-199, 206-222, 250-262, 265-290, 295-319, 323-332, 336-340, 343-360, 364-380 |
| `src/codegen/path_names.rs` | 108 | `Name` | 8-15, 18-42, 53-107 |
| `src/codegen/rust_ast/analysis.rs` | 817 | `ReadWidth`, `TypeAnalysis` | 17-25, 48-133, 140-151, 155-208, 212-222, 230-237, 241-257, 261-268, 292-301, 305-329, 333-339, 355-371, 375-380, 396-412, 416-421, 440-466, 474-492, 500-512, 520-528, 532-548, 552-561, 569-571, 575-581, 585-587, 595-601, 605-632, 636-641, 649-654, 658-682, 686-691, 699-704, 708-730, 734-738, 742-744 |
| `src/codegen/rust_ast/analysis/heap_optimize.rs` | 428 | `TypeAnalysis` | 10-13, 43-66, 69-93, 96-98, 107-110, 119-154, 157-200, 203-382, 385-428 |
| `src/codegen/rust_ast/analysis/read_width.rs` | 230 | `ReadWidth` | 8-12, 19-24, 28-33, 36-55, 58-82, 90-230 |
| `src/codegen/rust_ast/mod.rs` | 4926 | `NumCodegen`, `Printer`, `TypeAnalysis` | 647-650, 660-663, 686-691, 697-704, 915-941, 984-986, 990-994, 1073-1076, 1089-1094, 1116-1125, 1152-1155, 1274-1279, 1293-1299, 1442-1449, 2830-2845, 2872-3030, 3230-3249, 3273-3290, 3435-3465 |
| `src/codegen/typed_decoder.rs` | 806 | `TypedCompile` | 286-291, 298-323, 328-358, 366-768 |
| `src/codegen/typed_format.rs` | 1309 | `TypedCompile`, `TypedFormat` | 228-326, 331-496, 512-516, 888-900, 1074-1076, 1149-1259 |
| `src/decoder.rs` | 2819 | `Compile`, `Decoder`, `Expr`, `Huffman`, `Prelude` | 65-467, 480-533, 541-546, 549-554, 557-594, 604-906, 923-960, 969-997, 1039-1068, 1099-1105, 1125-1131, 1146-1152, 1159-1700, 1703-1721, 1724-1822 |
| `src/decoder/search.rs` | 147 | `Search`, `Value` | 20-38, 54-147 |
| `src/decoder/seq_kind.rs` | 262 | `LocDecoder`, `SeqKind`, `Value` | 10-13, 19-22, 25-47, 51-93, 98-107, 114-119, 122-127, 131-136, 140-180, 183-190, 226-254 |
| `src/decoder/value.rs` | 813 | `Expr`, `TreeLayout`, `Value` | 23-52, 70-72, 75-79, 83-263, 272-281, 285-294, 298-323, 329-331, 335, 356-366, 369-392, 395-468, 471-593 |
| `src/format.rs` | 536 | `Compile`, `Flat`, `Format`, `Record` | 59-153, 156, 169-171, 174-258, 262-338, 342-425, 428-430, 433-492 |
| `src/helper.rs` | 2134 | `ByteSetPrint`, `Formats`, `Gzip`, `GzipMember`, `Helper`, `Record`, `Riff`, `Text`, `Tiff` | 18-35, 38-63, 69-83, 88-102, 116-168, 173-185, 190-241, 341-347, 385-394, 399-419, 454-469, 500-515, 523-525, 596-604, 628-630, 638-640, 647-652, 655-657, 660-662, 665-667, 670-672, 690-696, 914-937, 949-1001, 1011-1024, 1030-1035, 1042-1045, 1048-1051, 1092-1106, 1139-1146, 1159-1161, 1179-1187, 1201-1203, 1230-1232, 1237-1245, 1253-1255, 1260-1262, 1267-1272, 1280-1292, 1303-1310, 1331-1335, 1351-1361, 1395-1397, 1404-1418, 1428-1451, 1456-1458, 1468-1478, 1485-1487, 1497-1505, 1519-1521, 1529-1531, 1537-1539, 1550-1587, 1607-1612, 1617-1619, 1624-1632, 1648-1657, 1665-1676, 1686-1688, 1760-1768, 1784-1800, 1814-1828, 1832-1852, 1860-1869, 1873-1889, 1922-1935, 1939-1946, 1963-1969, 2026-2028, 2052-2055, 2102-2119 |
| `src/lib.rs` | 2442 | `Expr`, `Format`, `Infer`, `MatchTree`, `TypedCompile`, `Value` | 57-63, 110-214, 217, 233-625, 631-702, 705-763, 783-787, 805-823, 907-914, 917-925, 946-971, 1002-1012, 1019-1358, 1363-1379, 1386-1398, 1401-1405, 1408-1415, 1418-1422, 1426-1431, 1434-1439, 1442-1447, 1450-1468, 1471-1477, 1481-1503, 1507-1530, 1533-1965, 1968-2139, 2143-2155, 2159-2164, 2169-2178, 2181-2210, 2213-2225, 2233-2242, 2251-2275, 2282-2294, 2300-2307, 2310-2314, 2354-2366 |
| `src/loc_decoder.rs` | 2037 | `LocDecoder` | 23-31, 97-111, 122-128, 148-169, 173-189, 192-202, 215-220, 226-231, 240-245, 251-267, 314-324, 330-560, 568-584, 587-1077, 1081-1091, 1095-1143, 1146-1174, 1203-1232, 1263-1269, 1289-1295, 1311-1929, 1932-1981 |
| `src/marker.rs` | 113 | `Format` | 37-56 |
| `src/numeric/codegen.rs` | 422 | `NumCodegen` | 21-32, 36-40, 58-81, 99-158, 161-192, 197-422 |
| `src/numeric/core.rs` | 1905 | `BaseSet`, `Expr`, `Infer`, `LocDecoder`, `NumCodegen`, `NumCore`, `Printer`, `Value` | 20-26, 47-56, 75-81, 115-118, 171-174, 179-195, 211-222, 269-272, 297-300, 307-327, 340-352, 360-362, 366-368, 373-382, 392-395, 411-417, 444-452, 465-500, 578-585, 608-628, 639-651, 764-771, 847-854, 898-904, 949-956, 969-993, 1010-1020, 1036-1042, 1074-1134, 1155-1160, 1171-1174, 1184-1198, 1240-1248, 1262-1331, 1336-1551 |
| `src/numeric/elaborator.rs` | 683 | `BaseSet`, `Inference` | 79-88, 231-243, 284-292, 338-352, 437-513, 567-573, 632-681 |
| `src/numeric/eval.rs` | 889 | `NumCodegen`, `NumEval` | 27-34, 63-66, 81-90, 98-207, 212-534, 540-568, 576-592, 599-620, 623-637, 640-662, 666-681, 684-703, 708-794, 808-831, 836-846, 849-864, 869-888 |
| `src/numeric/printer.rs` | 364 | `Inference`, `Printer` | 21-38, 79-115, 132-179, 317-324 |
| `src/output.rs` | 446 | `Fragment`, `Name` | 11-29, 32-47, 84-86, 96-117, 124-145, 150-158, 163-165, 204-214, 220-224, 246-248, 269-302, 310-331, 336-342, 347-353, 357-360, 363-372, 376-382, 386-408, 411-446 |
| `src/output/flat.rs` | 377 | `Flat` | 7-13, 111-218, 224-376 |
| `src/output/tree.rs` | 2553 | `TreeExpr`, `TreeLayout` | 42-46, 219-286, 376-393, 812-850, 1040-1062, 1199-1226, 1422-1479, 1507-1537, 1578-1607, 1641-1670, 1712-1736, 1753-1775, 1816-2130 |
| `src/parser/error.rs` | 235 | `Parser` | 61-87, 175-198 |
| `src/parser/mod.rs` | 361 | `Parser` | 10-13, 17-25, 29-35, 43-48, 61-321, 326-328, 334-339, 352-360 |
| `src/parser/offset.rs` | 687 | `Parser` | 4-11, 35-43, 46-82, 102-162, 165-185, 204-223, 248-261, 274-287, 293-312, 320-337, 344-349, 355-362, 368-380, 386-393, 398-404, 417-448, 459-482, 527-532, 552-596, 599-603, 606-610, 613-617, 630-637, 644-651, 657-659, 665-667, 684-686 |
| `src/parser/view.rs` | 94 | `Gen`, `Parser` | 14-17, 28-65 |
| `src/pattern.rs` | 220 | `Infer`, `Value` | 12-28, 60-105, 154-163, 175-185, 201-219 |
| `src/precedence.rs` | 318 | `Precedence`, `Printer`, `TreeExpr` | 29-90, 103-113, 139-212, 221-301, 311-318 |
| `src/prelude.rs` | 525 | `Gen`, `Huffman`, `Prelude` | 109-119, 125-135, 138-146, 152-166, 172-188, 209-242, 248-250, 261-330, 343-350, 364-396, 433-449, 453-461, 467-498, 506-525 |
| `src/read.rs` | 137 | `Read` | 4-8, 22-29, 33-39, 49-71, 75-136 |
| `src/record_fmt.rs` | 242 | `Record` | 6-13, 56-62, 65-73, 117-125, 129-142, 146-163, 166-170, 173-241 |
| `src/scope.rs` | 39 | `Expr`, `LocDecoder`, `NumCore` | 7-14, 24-40 |
| `src/typecheck.rs` | 4420 | `BaseSet`, `Inference`, `TypeCheck`, `TypeCheckFormat`, `Unify` | 36-117, 123-300, 328-415, 423-437, 441-452, 459-464, 479-484, 499-509, 518-523, 526-531, 535-547, 568-572, 576-585, 600-608, 617-626, 634-639, 659-665, 699-712, 717-725, 751-757, 760-765, 769-932, 941-1072, 1075-1086, 1095-1097, 1202-1208, 1211-1213, 1217-1249, 1253-1281, 1291-1374, 1385-1417, 1421-1456, 1460-1513, 1517-1557, 1561-1620, 1623-1741, 1744-1756, 1775-1791, 1809-1831, 1837-1841, 1855-1862, 1865-1904, 1911-2141, 2147-2182, 2185-2206, 2209-2217, 2222-2834, 2839-2846, 2851-2889, 2894-2990, 2993-3009, 3021-3033, 3052-3211, 3226-3236, 3251-3254, 3261-3316, 3326-3338, 3349-3364, 3370-3390, 3393-3796, 3814-3887, 4050-4059 |
| `src/typecheck/base_set.rs` | 913 | `BaseSet`, `TypeCheck`, `Unify` | 13-19, 23-28, 31-36, 42, 46, 50-75, 78-86, 99-111, 115-119, 128-133, 142-160, 167-198, 202-228, 231-236, 240-252, 258-263, 266-268, 274-292, 295-299, 305-306, 310-312, 315-317, 321-323, 332-340, 345-353, 357-370, 377-390, 401-410, 420-431, 435-446, 455-483, 488-492, 524-527, 541-555, 562-564, 568-577, 587-590, 602-604, 609-620, 624-635, 644-672, 688-700, 704-712, 902-910 |
| `src/typecheck/error.rs` | 425 | `Inference` | 368-377 |
| `src/typecheck/inference.rs` | 978 | `Inference` | 8-12, 26-32, 119-124, 149-156, 159-180, 185-190, 193-213, 226-257, 266-269, 281-301, 314-317, 324-499, 503-578, 584-606, 610-790, 799-823 |
| `src/util.rs` | 294 | `Decoder`, `WithErr` | 27-31, 41-46, 61-76, 81-84, 97-103, 107-119, 122-124, 127-132, 139-144, 152-165, 168-170, 173-181, 184-186, 189-195, 206-209, 218, 221-235 |
| `src/valuetype.rs` | 506 | `Infer`, `TypeCheckFormat`, `Unify`, `ValueType` | 16-24, 45-49, 106-120, 138-157, 175-202, 217-223, 241-252, 277-373, 481-505 |
<!-- end generated: coverage -->

## Parts of the code that are not modelled

* `src/alt.rs`, `src/alt/*`: the alternative, not yet adopted format language.
* `src/codegen/mod.rs`, `src/codegen/{model,catalog,ixlabel,trace,util}*`: code
  generation, apart from the precedence rules of the emitted expressions and the lines in the table.
* `src/codegen/rust_ast/*`: the Rust syntax tree, its printing and its resolution, apart from the lines in the table.
* `src/typecheck.rs`, `src/typecheck/deps.rs`: the lines not in the table (how sequences are borrowed, error values, printing).
* `src/output/*`: tree printing of values along with their formats or locations (tables, strings, formats themselves) and the titles of flat listings, apart from the lines in the table.
* `src/numeric/helper.rs`: shorthands for numeric expressions.
* `src/helper.rs`: the builders of formats and expressions, apart from the lines in the table.
* `src/{dep_ref,marker,validation}.rs`, `src/*/error.rs`: bookkeeping and error messages.  Errors carry their
  kind, not their text.
* `doodle-formats` (apart from the text format, `Model/Text`, RIFF, `Model/Riff`, the extra field of gzip, `Model/Gzip`, its header and footer, `Model/GzipHeader`, its names and comments, `Model/GzipName`, its members, `Model/GzipMember`, TIFF, `Model/Tiff`, and numbers, run_length, peano and waldo, `Model/Formats`), `smallsorts`, `generated`, `experiments`, `frontend`, `custom`: the formats defined with
  the library, the code generated from them and other programs.

## Simplifications that apply throughout

* Reference counting, borrowing and lifetimes are not represented: `Rc<T>`, `Box<T>`, `&T` are `T`.
* `BTreeMap` is an association list that keeps the map's order where a theorem depends on it.
* Allocation never fails; stack depth is unbounded.  Unbounded recursion shows as running out of fuel.
* Addition of offsets is unbounded except where a definition has an overflow guard (`C06`, `C27`, `C47`).
* Error messages are left out; which error is returned is kept where a property speaks of it.
* Debug assertions are modelled as panics (a debug build); a theorem that speaks of release builds says so.

## Claims that do not hold of the code

Each of these is a theorem about the model whose name ends in `_refuted`, with a concrete witness.

<!-- begin generated: refuted -->
* `C02_maxElem_refuted`: The code violates it: `max_elem` of the empty set is `Some(191)`, and of `{5}` it is `Some(191)`.
* `C04_bitAnd_refuted`: Refuted: `15 & (0..=255)` is computed as exactly `0`.
* `C04_shl_refuted`: Refuted: with `a = 0..=2^63`, `b = 0..=1`, the upper end is computed as `2^63 << 1 = 0`.
* `C05_bitAnd_refuted`: Bit-and: `15u8 & x` with `x = 15` (cast from an unbounded value) is 15, the bounds say 0.
* `C05_shl_refuted`: Left shift: the evaluator drops the bits shifted out of the operand's type, the bounds are computed on 64-bit words: `200u8 << 1u8` is 144, its bounds are exactly 400.
* `C05_shr_refuted`: Right shift: the shift amount is truncated to 32 bits before shifting, so `255 >> (y + 5)` with `y + 5 = 2^32` is 255, while the bounds are `0..=7`.
* `C06_splitAt_overflow_refuted`: The full claim "split fails cleanly exactly when it would pass the end" is false for lengths near `2^64`: the addition overflows (a panic in a debug build).
* `C08_permit_refuted`: `Permit` has the bounds of the format it guards, but its fallback consumes nothing.
* `C08_size_refuted`: The size of a slice given by a bit-and: the static size is 0, one byte is consumed.
* `C11_peekNot_refuted`: The full claim with "rejected" read as "has no derivation" does not hold of the code: a compiled `PeekNot f` succeeds at a position where `f` has a derivation, because the lookahead tree of a union with a slice rejects input that the slice would accept.
* `C12_greedy_refuted`: The claim does not hold for every input: on `ac` the first alternative of `Union [EMPTY, Tuple [a, b]]` has a derivation (of nothing), nothing follows, and yet the compiled decoder fails: it has committed to the second alternative when it saw `a`.
* `C12_item_refuted`: Not even a derivation of the whole input is found in general: when the alternation is an item of the module, it is compiled without regard to what follows, because its tree can be built without. `Tuple [item, a, c]` on `ac` fails, although with the alternation written in place of the item the same input is parsed.
* `C14_permit_refuted`: A repetition the compiler accepts and that never returns: the body is `Permit`, whose bounds ignore the fallback.
* `C14_until_refuted`: A loop ended by a condition that is never met, over a format that consumes nothing, is accepted and never returns.
* `C15_between_refuted`: The rest of the claim fails: between 0 and 2 times the byte 1, on an input holding exactly one byte 1. The single element can be parsed and nothing is left, yet decoding fails.
* `C17_fold_order_refuted`: Refuted: batches come out most recent first (`join` and `fold` append the older errors after the newer ones).
* `C18_auto_refuted`: "The verbatim identifier after the `#`" is not kept when it starts with a `#` itself.
* `C18_rebind_refuted`: The condition is needed: with two kept fields of one name, the record has the value of the second twice.
* `C19_clash_refuted`: A field that is temporary in the format is kept in the rebuilt one if a kept field has its name.
* `C19_doubled_refuted`: It fails for a field that the record has twice: the rebuilt format drops one of them.
* `C19_empty_refuted`: Record formats that keep no field cannot be flattened, and merging one panics.
* `C19_order_refuted`: It fails for a record whose fields are in another order than they are decoded in: the rebuilt format has them in the order of decoding.
* `C19_renamed_refuted`: The full claim fails when a field has another name in the record than in the fields after it: the format decodes, the rebuilt one does not know the old name and panics.
* `C21_record_refuted`: The full claim fails: in `{x: true, y: x}` the search stops at the field called `x`, although the field `y` reads the outer variable `x`.
* `C22_enum_refuted`: `EnumFromTo(0u32, 5u32)[0]` is typed `U32` and evaluates to a `usize`.
* `C22_fallback_refuted`: A component of a fallback value is a placeholder without type: with `x` bound to a fallback value of type `(U8)`, `x.0` is typed `U8` and evaluates to the placeholder.
* `C22_flatMapAccum_refuted`: `FlatMapAccum(λp. (B(true), [p.0]), A(0u8), Union{A: U8}, [1u8, 2u8])`: the accumulator of the body is unified with the annotation, but the result of the unification is discarded. The items are typed `Union{A: U8}`, and the second one is `B(true)`.
* `C22_flatMapList_refuted`: `FlatMapList(λp. match SeqLength(p.0) { 0 → [B(1u8)], _ → [A(p.0[0])] }, Bool, [0u8, 0u8])`: the items are never compared with the annotation. They are typed `Union{A: Bool, B: U8}`, and the second one is `A(B(1))`.
* `C22_leftFold_refuted`: `LeftFold(λp. (Some(1u8), p.0.0), (None, None), (Option Any, Option Any), [1u8, 2u8])` is typed `(Option U8, Option Any)` and evaluates to `(Some(1u8), Some(1u8))`.
* `C22_numeric_refuted`: The numeric expression `200u8 + 100u8` is typed `U8` and evaluates to 300.
* `C23_accumUntil_refuted`: The accumulator of `AccumUntil` is unified with its annotation, and the result of the unification is discarded: the accumulator is typed `Union{A: U8}` and comes out as `B(true)`.
* `C23_accumUntil_scope_refuted`: The parameter of the termination function of `AccumUntil` is in scope where the update function is typed, but not where it runs: with an outer variable of the same name, the update function is typed with the one and run with the other. The accumulator, of type `U8`, comes out as `true`.
* `C23_argument_refuted`: Arguments of items are unified with the declared types, and the results are discarded: an item that returns its argument, declared as `Union{A: U8}`, is called with `B(true)` and typed `Union{A: U8}`.
* `C23_pos_refuted`: `Pos` is typed with an open numeric type but decodes to a `U64`: `let x = Pos in [x, 1u32]` is typed `Seq U32`, and its first element is a `U64`.
* `C24_nested_wrappers_refuted`: Wrappers below the top level are not looked through: a pair whose first component was parsed by an alternation does not match the pattern for it, although the component inside the wrapper does.
* `C25_bitsLocation_refuted`: Locations inside `Bits` count bits: they are not in the input.
* `C25_doubledField_refuted`: So is that of a record that names a value twice.
* `C25_dup_refuted`: A repeated element is written out by decoding with locations: the values are not literally the same.
* `C25_emptyRecord_refuted`: A record expression without fields: plain decoding succeeds, with locations it panics.
* `C25_forEach_refuted`: `ForEach` over the result of an alternative: plain decoding succeeds, with locations it panics.
* `C25_letWrapped_refuted`: `Compute` of the result of an alternative inside a tuple that is then matched: plain decoding succeeds, with locations it panics.
* `C25_numeric_refuted`: Matching a numeric expression against a machine integer: plain decoding succeeds, with locations it panics.
* `C25_peekLocation_refuted`: A value looked at lies outside the input consumed.
* `C25_permit_refuted`: Matching on the default of `Permit`: plain decoding succeeds, with locations it panics.
* `C25_rangeChar_refuted`: A character from an element of a range: plain decoding succeeds, with locations it panics.
* `C25_rangeFold_refuted`: Folding over a range: plain decoding panics, with locations it succeeds.
* `C25_recordLocation_refuted`: The location of a record of a byte looked at and the same byte decoded is longer than the input.
* `C25_untilSeqLocation_refuted`: The location of a repetition until a condition on the sequence has length 0, whatever was decoded.
* `C25_wrapped_refuted`: Where `Compute` names the result of an alternative, the two decoders yield different values.
* `C27_subRange_refuted`: Refuted: taking the whole of a range (or any stretch reaching its end) trips the assertion, which is off by one.
* `C31_overfull_refuted`: The two do not refuse the same tables. With lengths 1, 1, 2 the generated code refuses the table, since the code words are 0, 1 and 00; the interpreter compiles a decoder and reads the third symbol from 00.
* `C32_bits_refuted`: **C32 is false of bit mode.** The limit check compares a position in bits with a limit in bytes and lets up to seven bits past it: with one slice of one byte open and all its eight bits read, `remaining()` is 0, but the next read succeeds, delivers a bit of the byte after the slice and leaves the cursor outside the slice.
* `C32_escape_refuted`: **C32 is false of bit mode.** Leaving bit mode after such an overrun puts the cursor past the end of the buffer, where `remaining()` and `view()` panic.
* `C33_next_alt_refuted`: **C33 is false of nested alternations.** A branch reads a byte, an alternation inside it succeeds (its lens stays on the stack) and then the branch fails: the next alternative starts where the *inner* alternation began, one byte too far. This is the sequence of calls generated for `UnionNondet [ (byte, UnionNondet [byte, …], fail), … ]`.
* `C33_peek_not_refuted`: **C33 is false of negative lookaheads inside alternations.** A branch reads a byte and then a negative lookahead fails because its body succeeds (generated code returns the error without closing it): the next alternative starts where the lookahead began.
* `C34_bits_refuted`: **C34 is false of bit mode.** A well-bracketed history of successful calls that reads bits past the end of a slice makes closing the slice fail, and the failure forgets every open context.
* `C35_skip_refuted`: **C35 is false when the rest is skipped in bit mode.** `skip_remainder` silently returns to byte mode, so that leaving bit mode afterwards fails; the code generated for `Bits(SkipRemainder)` never succeeds.
* `C36_div_rem_refuted`: The full statement fails: `MIN / -1` (a number, one too big for the type) and `MIN % -1` (which is 0) are reported as not-a-number.
* `C36_neg_min_refuted`: At `MIN` the helper panics with overflow checks and returns the wrong machine value without.
* `C37_auto_refuted`: From an abstract (`Auto`) representation the cast does not reduce at all: the property fails there.
* `C40_grouping_refuted`: The order of intersections matters: the same three constraints choose a type or fail to choose one depending on how they are grouped, since an intermediate normalisation forgets how much better one type was. (membership does not depend on the grouping, by `C40_intersection`)
* `C40_unify_conflict_refuted`: … but it can also succeed with a set that has no member: "any unsigned type" and "a type that holds `-1 … 300`" have nothing in common, yet unifying them reports no conflict.
* `C40_unify_refuted`: Unifying "any unsigned integer" with `bool` or `char` aborts instead of reporting a conflict.
* `C41_self_refuted`: **C41**: the claim about sequences of unifications outside of inference does not hold. A variable asked to be equal to itself makes reading off its type run for ever, whatever the depth allowed (C49 has a failing assertion).
* `C42_better_order_refuted`: "Better" is not an order: two places with dead ends equally near to their ends are each better than the other, and than themselves.
* `C42_types_unique_refuted`: Two different declarations met at the same place get the same name.
* `C42_unique_refuted`: Three different registered paths, two of which get the same name.
* `C43_refuted`: The property is false: `1 - (1 - 1)` and `(1 - 1) - 1` are different expressions with different values and the same text `1? - 1? - 1?`.
* `C43_text_refuted`: The text adds a confusion of its own: the absolute value of `x` is written like the variable `absx`, though their tokens differ.
* `C46_chain_refuted`: Nested comparisons are printed as a chain, which Rust rejects: `(a < b) < c`.
* `C46_comparison_refuted`: Operands of comparisons lose their grouping: `false == (true && false)` is printed as `false == true && false`, which Rust reads as `(false == true) && false`.
* `C46_division_refuted`: Miscompilation: `100 / (10 / 5)` is 50 in the interpreter; the generated code is `100 / 10 / 5`, which is 2 in Rust.
* `C46_shift_amount_refuted`: With overflow checks, a shift by 2^32 aborts the generated code, while the interpreter truncates the amount and returns a value.
* `C46_shift_refuted`: Shifts are confused in the same way: `1 << (1 << 3)` is 256, its code `1 << 1 << 3` is 16.
* `C47_position_refuted`: A parser made from a view reports its position from the start of the view, but jumps count from the start of the buffer: in the view of `[1, 2, 3, 4]` that starts at 2, after one read the reported position is 1, and jumping there is refused.
* `C48_numeric_refuted`: With `x : U8` bound to a `Numeric` value of representation `U8`, `x + 1u8` is typed `U8` and panics, although the sum fits: the interpreter has no arithmetic between `Numeric` and machine values.
* `C48_range_refuted`: `LeftFold(λp. p.0, true, Bool, EnumFromTo(0u8, 3u8))` is typed `Bool` and panics: folds do not accept ranges.
* `C49_numeric_refuted`: In the other order the copy for numeric expressions fails an assertion of its own (debug builds): it looks for the wrong variable (src/typecheck/inference.rs:353). The type checker's copy accepts the same history.
* `C50_bits_limit_refuted`: Looking ahead at nine bits in a slice of one byte: the interpreter reports an error, the generated decoder reads the ninth bit beyond the slice and succeeds.
* `C50_capture_name_refuted`: A variable of the format named like one of the generated code: the condition is about another value.
* `C50_capture_panic_refuted`: Taking more bytes from a view than there are: the interpreter reports an error, the generated decoder panics.
* `C50_enforce_refuted`: `Enforce` has no effect in generated code.
* `C50_offset_panic_refuted`: A base and an offset of one byte each whose sum is more than 255: the generated decoder panics, although the target is in the input.
* `C50_optional_end_refuted`: An optional byte at the end of the input: the interpreter takes the other alternative, the generated decoder reports an error, because it reads a byte before deciding.
* `C50_optional_other_refuted`: Two optional bytes and neither follows: the interpreter takes the third, empty alternative, the generated decoder reports an error.
* `C50_overfull_refuted`: A table of code lengths 1, 1, 2 with the code words 0, 1 and 00: the interpreter reads the symbol of 00, the generated decoder refuses the table.
* `C50_parallel_nested_refuted`: A choice inside an alternative of another leaves its place on the stack: when the alternative fails later, the next one is tried from the place of the inner choice.
* `C50_peekNot_nested_refuted`: A failed negative lookahead inside another leaves its place on the stack: reading goes on from there.
* `C50_permit_rewind_refuted`: `Permit` goes on where the failed format stopped, the interpreter where it began.
* `C50_repeat1_end_refuted`: One or more bytes at the end of the input: the interpreter reports an error, the generated decoder reads none.
* `C50_repeatBetween_refuted`: At most two bytes, and there is one: the interpreter asks for the number of bytes at the start in every round, and reports an error at the second, the generated decoder reads one.
* `C50_seek_limit_refuted`: Reading at an earlier offset inside a slice reaches beyond the slice.
* `C50_view_limit_refuted`: A view made inside a slice reaches beyond the slice.
* `C50_view_pos_refuted`: The position inside a view: the interpreter counts from the start of the input, the generated decoder from the start of the view.
* `C51_empty_refuted`: With a field of no bits at the start of the word the format compiles, and its decoder panics on each byte.
* `C51_whole_refuted`: A field that is the whole word cannot be made.
* `C51_zero_refuted`: Bits that a reserved segment declares to be zero are not checked: with the first four bits reserved, the byte 0xF5 decodes without an error, tolerated or not.
* `C53_any_refuted`: One `seq_any` inside another: the outer element is not seen by the inner test. Of the two lists `[1]` and `[2]` it is said that some element of one is equal to some element of the other.
* `C53_eq_refuted`: An expected value that is the variable `actual` of the scope is not looked at: where it is 5, the byte 7 is accepted.
* `C53_index_refuted`: A sequence of `2 ^ 32` elements has no first element and no last one.
* `C53_within_refuted`: A value that is no integer is outside every interval, without the error that the description of `is_within` announces.
* `C55_between_refuted`: The lower bound of a repetition with bounds really has to be zero: with one or two bytes `a` required, input that does not begin with an `a` is met with a panic instead of an error.
* `C56_empty_forgets_refuted`: With `Empty` (the type of a format that always fails) the claim is false: joining a variable known to be `Empty` with a union that was made later forgets the variants of the union.
* `C56_hole_forgets_refuted`: With `Hole` inside a type the claim is false: a sequence whose elements are known to have the type of a variable is no longer connected to that variable once it has been unified with a sequence of `Hole`.
* `C56_infinite_type_refuted`: An accepted history need not have a solution: a variable may be unified with a type that contains it, or made a variant of itself, since the check for cycles is only made when two types are unified.
* `C56_mismatch_panics_refuted`: A type error is not always reported as an error: a projection from a variable whose type has another shape, or a type of another shape for a variable that has been projected from, panics. So does adding a variant to a variable that a failing alternative made `Empty`.
* `C57_infinite_type_refuted`: Infinite types are accepted: `match [] { a → append a [a] }` is accepted, although no assignment of types solves the state; it has a value.
* `C57_record_scope_refuted`: A record whose field mentions the label of an earlier field: the type checker takes the name for the field, the evaluator for the variable of that name outside. `match true { a → { a: 1u8, b: a } }` has type `{ a: U8, b: U8 }` in every solution, and its value is `{ a: 1, b: true }`.
* `C57_seqLength_refuted`: The length of a sequence is a `U32` at run time, but the type checker accepts it at every unsigned type: `[length of [], 1u8]` is a sequence of `U8`, and the first element of its value is a `U32`.
* `C57_tuple_annotation_refuted`: An annotation with a union inside a tuple only fixes the components it lists: a tuple with more components is accepted. Here the accumulator of a fold starts with `(A 1, true)` and its annotated type is `(Union{A: U8})`.
* `C58_argument_refuted`: The type of an item is inferred at its first call. A later call with another alternative of a union is accepted, and keeps the type of the first: with `item(x) = x`, `(item(A 1), item(B true))` has type `({A: U8}, {A: U8})`.
* `C58_fail_refuted`: `Fail` has the type `Empty`, which is matched with every type and stays: `match true { false → Fail, _ → A: byte }` has the type `Empty`, and decodes to `A(7)`.
* `C58_panic_refuted`: **Formats that panic in the type checker.** Whether a union of a byte and a variant is reported or panics depends on their order; a projection out of a byte panics; so does a union that starts with `Fail`, although it is a correct format.
* `C58_pos_refuted`: `Pos` may have any unsigned type but decodes to a `U64`: `let x = Pos in [x, 1u32]` has type `Seq U32`, and the first element of its value is a `U64`.
* `C58_unused_item_refuted`: **Modules that panic in the type checker.** An item with a parameter that the top format does not use is inferred without its parameter in scope: the module with the item `item(x) = x` cannot be checked with any top format that does not call it.
* `C59_cast_count_not_nullable_refuted`: Refuted: a repetition of three bytes is refused by the code generator as possibly empty if the number three is cast.
* `C59_cast_counts_compile_refuted`: Refuted: casts are unknown to the code generator's bounds. Between 0 and 2 repetitions, with the numbers cast to `u8`, are compiled by the interpreter; the code generator panics.
* `C59_optional_format_refuted`: Refuted: an optional format is compiled with what follows it by the code generator, on its own by the interpreter. On `ab`, an optional repetition of `a` and then `ab` is decoded by generated code and rejected by the interpreter.
* `C59_peek_not_lookahead_refuted`: Refuted: the code generator accepts `PeekNot(SkipRemainder)`, which has no bounded lookahead and is refused by the interpreter.
* `C59_phantom_accepted_refuted`: Refuted: a format that the interpreter compiles can be refused by the code generator: the inner format of a phantom is compiled, and may repeat what can be empty.
* `C59_same_panics_refuted`: Refuted: neither compiler is free of panics where the other one has none: `Align(0)` after a repetition panics in the interpreter's compiler only, a format that is just `Fail` in the code generator's only.
* `C59_trivial_alignment_refuted`: Refuted: `Align(1)` in what follows a repetition hides the rest from the code generator's trees but not from the interpreter's. On `ab`, repeated `a`, `Align(1)` and then `ab` is decoded by the interpreter and rejected by generated code.
* `C60_compiles_refuted`: Expressions that elaboration accepts and whose code Rust does not: a successor; a negation from `u8` to `i8`; a sum of a `u64` and a `u8` in `u64`; a constant outside the type it names.
* `C60_complete_refuted`: An exact result that the code does not yield: the remainder of -128 by -1 in `i8`, with or without checks; and, with checks, the absolute value of -128 in `u8`, which panics.
* `C60_intermediate_refuted`: The interpreter gives 200 for `(200 + 100) - 100` in `u8`; the code stops at 300.
* `C60_remainder_refuted`: The code yields 1 for the remainder of 7 by -2 in `i8`; the interpreter refuses remainders by negative numbers.
* `C60_unchecked_refuted`: Without checks of overflow, negating -128 in `i8` yields -128; the interpreter gives 128.
* `C62_peano_refuted`: `SSSZ` stands for the number 3, but the decoder that is compiled for the format refuses it: it only ever reads none or nine `S`.
* `C62_waldo_refuted`: Input that names a place before the end of its header, here the place 0, is not refused: decoding panics.
* `C63_injective_refuted`: Two sets are printed alike: the bytes up to 190, and the bytes up to 191 without 190 (`max_elem` takes 190, the largest byte that is missing, for the largest member, and the number of bytes happens to fit).
* `C63_panic_refuted`: With overflow checks, printing "every byte but the line feed" panics.
* `C63_span_refuted`: With overflow checks, printing the continuation bytes of UTF-8 panics.
* `C65_heap_nested_refuted`: An `Option` directly inside of an `Option`: the analysis panics if something is to be done to the type inside.
* `C65_heap_option_refuted`: The layout that is told for an `Option` is that of a `Box` although nothing in it that large is put into a `Box`: here, an `Option` of a definition that keeps 40 bytes of its own, only a part of which is put into a `Box`, counts as 16 bytes.
* `C65_heap_tag_refuted`: Where two variants are put into a `Box` because they are larger than the smallest one, the layout that is told for the enumeration has no room for the byte that tells them apart.
* `C65_local_copy_refuted`: Looking at a definition alone is not enough to find all: a reference to another definition counts as not `Copy`.
* `C65_size_overflow_refuted`: Sizes are added without a check: for definitions that the generator may make, the analysis overflows (a panic in a build with checks).
* `C65_slice_refuted`: A shared reference to a slice takes two words, an address and a length; the analysis says one.
* `C65_two_strategies_refuted`: The table does not tell for which strategy an answer is: a table that was filled with one strategy gives wrong answers with another one (the code says so in a comment, and makes a new table).
* `C66_chain_refuted`: Whatever the operands, the grouping of operators of one class is lost (unless they are `&&`, `||`, `==` or `!=`): `a op (b op' c)` is printed like `(a op b) op' c`.
* `C66_equality_refuted`: `a == (b && c)`, which has no type, is printed without parentheses, and then read as `(a == b) && c`.
* `C66_numeric_refuted`: A numeric expression with an operator gets no parentheses where it is the right operand of an operator of the same class: `x - (a - b)`, with a numeric difference on the right, is printed as `x - a - b`.
* `C66_order_refuted`: `(a == b) < c`, which has no type, is printed as a chain of comparisons, which cannot be read.
* `C66_sub_refuted`: The text misleads about values: `5 - (3 - 1)` is 3, but is printed as `5 - 3 - 1`, which is read as an expression whose value is 1.
* `C67_inline_refuted`: C67: without that hypothesis the documented promise fails: an atom whose text has a newline is said to fit inline.
* `C67_single_line_refuted`: C67: the converse fails: a line with its newline, followed by a fragment that shows nothing, is not said to be a single line.
* `C68_hidden_refuted`: C68: but around a record they do: with nothing but hidden fields the record is drawn below its variant, and without fields inside braces.
* `C68_newline_refuted`: C68: without the hypothesis on labels this fails: a record of two fields, one with a newline in its name, looks like one of three fields.
* `C69_negated_refuted`: The condition on what is negated is needed: its value is an empty tuple, which the listing takes for a value of the negated format.
* `C69_permit_refuted`: The condition on what is permitted to fail is needed: a value that was permitted to fail and did not is marked, and the listing does not expect the mark.
* `C69_silent_refuted`: A format being accepted does not mean that what is read is listed: titled items are accepted behind functions and conditions, and not listed there.
* `C70_order_refuted`: It does matter to whether the width is said to vary for a dynamic reason.
* `C74_reserved_refuted`: The reserved bits of the flags, which the format says are to be checked, are not: however the decoder is compiled, and wherever the format is used, a header is decoded in which all of them are set, and nothing is logged. By `C74_header_complete` this holds of all such headers.
<!-- end generated: refuted -->

## Axioms per theorem

<!-- begin generated: axioms -->
* no axioms (12 theorems): `C27_subRange_refuted`, `Num.C36_abs_min_panics`, `Prelude.C45_seqAppend`, `ReadCtxt.C06_new`, `ReadCtxt.C06_remaining`, `ReadCtxt.C06_splitAt_overflow_refuted`, `WithErr.C17_downgrade`, `WithErr.C17_fold_total`, `WithErr.C17_join_partial`, `WithErr.C17_lift`, `WithErr.C17_map`, `WithErr.C17_new`
* `propext` (78 theorems): `Bounds.C04_bitOr_ok`, `Bounds.C04_bitOr_panics`, `Bounds.C04_union_left`, `Bounds.C04_union_right`, `C20_decoder`, `C20_eval_var`, `C20_value`, `C20_value_none`, `C20_view`, `C22_char_pattern_panics`, `C24_nested_wrappers_refuted`, `C24_shadows`, `C64_asChar`, `C64_asNum`, `C64_deterministic`, `C64_lambda`, `C64_numeric`, `C64_tupleProj`, `C64_unary`, `Gzip.C72_unique`, `GzipHeader.C74_unique`, `Helper.C53_any_refuted`, `Helper.C53_fields`, `Helper.C53_within_refuted`, `Huffman.C30_empty_panics`, `Names.C42_better_order_refuted`, `Names.C42_nested`, `Names.C42_types_unique_refuted`, `Num.C36_casts_cover`, `Num.C36_div_rem_refuted`, `Num.C36_neg_min_refuted`, `Num.C37_auto_refuted`, `Num.C38_bounds_contains`, `Out.C67_cat`, `Out.C67_inline_refuted`, `Out.C67_join`, `Out.C67_single_line_refuted`, `Prelude.C45_flatMapAppend`, `Prelude.C45_flatMapAppend_err`, `Prelude.C45_flatMap_err`, `Prelude.C45_flatMap_ok`, `Prelude.C45_foldLeft_err`, `Prelude.C45_foldLeft_ok`, `Prelude.C45_foldMap`, `Prelude.C45_foldMap_err`, `Printer.C43_refuted`, `Printer.C43_text_refuted`, `Printer.C46_chain_refuted`, `Printer.C46_shift_amount_refuted`, `ReadCtxt.C06_readByte`, `Record.C19_clash_refuted`, `Record.C19_empty_refuted`, `Record.C19_remap`, `Rt.C32_jump_limit`, `Rt.C34_bits_refuted`, `Rt.C47_align_zero_panics`, `SeqKind.C27_denotes_unique`, `SeqKind.C27_eq_not_extensional`, `SeqKind.C27_get`, `SeqKind.C27_intoVec`, `SeqKind.C27_len`, `Tc.C40_grouping_refuted`, `Tc.C40_unify_conflict_refuted`, `Tc.C40_unify_refuted`, `Tc.C40_width_sets`, `Tiff.C73_unique`, `TreeExpr.C66_chain_refuted`, `TreeExpr.C66_numeric_refuted`, `TreeExpr.C66_order_refuted`, `TreeExpr.C66_tree`, `TypeAnalysis.C70_order_refuted`, `WithErr.C17_fold_order_refuted`, `WithErr.C17_fold_partial`, `WithErr.C17_fold_perm`, `WithErr.C17_fold_stop`, `WithErr.C17_hasErrs`, `WithErr.C17_intoStrict`, `WithErr.C17_join_assoc`
* `Quot.sound`, `propext` (171 theorems): `Bounds.C04_add`, `Bounds.C04_add_words`, `Bounds.C04_any`, `Bounds.C04_bitAnd_refuted`, `Bounds.C04_bitsToBytes`, `Bounds.C04_contains`, `Bounds.C04_exact`, `Bounds.C04_mul`, `Bounds.C04_mul_words`, `Bounds.C04_shl_partial`, `Bounds.C04_shl_refuted`, `Bounds.C04_shr`, `Bounds.C04_sub`, `Bounds.C04_union_least`, `ByteSet.C01_contains_empty`, `ByteSet.C01_contains_insert`, `ByteSet.C01_contains_intersection`, `ByteSet.C01_contains_union`, `ByteSet.C01_ext`, `ByteSet.C01_isDisjoint`, `ByteSet.C01_isEmpty`, `ByteSet.C01_len`, `ByteSet.C02_bounds_panics`, `ByteSet.C02_findEnclosingRange`, `ByteSet.C02_findEnclosingRange_none`, `ByteSet.C02_maxElem_refuted`, `ByteSet.C02_maxElem_singleton_wrong`, `ByteSet.C02_span_panics`, `ByteSet.C03_allBytes`, `ByteSet.C03_iter_length`, `ByteSet.C03_iter_mem`, `ByteSet.C63_injective_refuted`, `ByteSet.C63_panic_refuted`, `ByteSet.C63_span_refuted`, `C05_bitAnd_refuted`, `C05_shl_refuted`, `C05_shr_refuted`, `C07_forward`, `C07_run`, `C09_limit`, `C09_peek`, `C09_peekNot`, `C09_relative`, `C09_stays`, `C10_confined`, `C10_exact`, `C10_nested`, `C12_item_next`, `C14_fuel`, `C15_between_partial`, `C15_count`, `C15_maybe`, `C15_untilLast`, `C15_untilSeq`, `C16_permit`, `C16_unionNondet`, `C17_enforce`, `C17_where`, `C20_frame`, `C21_exact_partial`, `C21_record_refuted`, `C27_subRange_partial`, `C28_unsorted`, `C59_counts_have_the_same_bounds_partial`, `C64_flatMap`, `C64_flatMapAccum`, `C64_flatMapList`, `C64_fromBytes`, `C64_gives`, `C64_leftFold`, `C64_literal`, `C64_seqLength`, `C64_var`, `C64_wrap`, `Flat.C69_covered`, `Flat.C69_lines`, `Flat.C69_lines_unique`, `Flat.C69_negated_refuted`, `Flat.C69_refused`, `Flat.C69_total_partial`, `Gen.C50_repeat1_reads`, `Gen.C61_fuel`, `Helper.C53_any_partial`, `Helper.C53_bitor`, `Helper.C53_within`, `Helper.C53_within_any`, `Huffman.C30_first`, `Huffman.C31_reorder`, `Loc.C25_bitsLocation_refuted`, `Loc.C25_doubledField_refuted`, `Loc.C25_dup_refuted`, `Loc.C25_emptyRecord_refuted`, `Loc.C25_forEach_refuted`, `Loc.C25_letWrapped_refuted`, `Loc.C25_numeric_refuted`, `Loc.C25_peekLocation_refuted`, `Loc.C25_permit_refuted`, `Loc.C25_rangeChar_refuted`, `Loc.C25_rangeFold_refuted`, `Loc.C25_recordLocation_refuted`, `Loc.C25_untilSeqLocation_refuted`, `Loc.C25_wrapped_refuted`, `Names.C42_better_dead_end`, `Names.C42_better_shorter`, `Names.C42_unique_refuted`, `Num.C39_binop_exact`, `Num.C39_same_value`, `Num.C39_valid_iff`, `Num.C39_valid_value`, `Num.C60_compiles_refuted`, `Num.C60_complete_refuted`, `Num.C60_intermediate_refuted`, `Num.C60_remainder_refuted`, `Num.C60_unchecked_refuted`, `Out.C67_inline_partial`, `Out.C67_intervene`, `Out.C67_single_line_partial`, `Out.C67_vacuous`, `Prelude.C29_extendFromWithinExt`, `Prelude.C29_interpreter`, `Prelude.C29_interpreter_range`, `Prelude.C29_sliceExt`, `Prelude.C29_start_past_end`, `Prelude.C45_endian`, `Prelude.C45_findUnsorted`, `Printer.C46_comparison_refuted`, `ReadCtxt.C06_history`, `ReadCtxt.C06_readBe`, `ReadCtxt.C06_readBe_none`, `ReadCtxt.C06_seekTo`, `ReadCtxt.C06_splitAt`, `ReadCtxt.C06_split_confined`, `Record.C18_chaining`, `Record.C18_failure`, `Record.C18_fields_partial`, `Record.C18_last_binding`, `Record.C18_scope`, `Record.C19_identity_partial`, `Record.C19_lookup`, `Record.C19_merge_partial`, `Record.C19_rebuild_partial`, `Riff.C71_extent`, `Riff.C71_unique`, `Rt.C32_bits_refuted`, `Rt.C32_escape_refuted`, `Rt.C32_seek_limit`, `Rt.C33_next_alt_partial`, `Rt.C33_next_alt_refuted`, `Rt.C33_peek`, `Rt.C33_peek_not_partial`, `Rt.C33_peek_not_refuted`, `Rt.C33_seek`, `Rt.C35_interpreter`, `Rt.C35_interpreter_escape`, `Rt.C35_skip_refuted`, `Rt.C47_align_bits`, `Rt.C47_position_refuted`, `Rt.C47_seek_bits`, `Rt.C47_seek_bits_back`, `SeqKind.C27_index`, `Tc.C40_choice`, `Tc.C40_convert`, `Tc.C40_convert_sets`, `Tc.C40_empty`, `Tc.C40_singleton`, `Tc.C40_solution_ints`, `Tc.C41_eval`, `Tc.C41_self_refuted`, `Tc.C49_numeric_refuted`, `TreeExpr.C66_equality_refuted`, `TypeAnalysis.C65_local_copy`
* `Classical.choice`, `Quot.sound`, `propext` (407 theorems): `Bounds.C04_asExact`, `Bounds.C04_bitAnd_partial`, `Bounds.C04_bitOr`, `Bounds.C04_bitOr_no_panic`, `Bounds.C04_clamp`, `Bounds.C04_div`, `Bounds.C04_rem`, `ByteSet.C01_contains_complement`, `ByteSet.C01_contains_difference`, `ByteSet.C01_contains_fromIter`, `ByteSet.C01_contains_fromRange`, `ByteSet.C01_contains_fromRangeInclusive`, `ByteSet.C01_contains_full`, `ByteSet.C01_contains_remove`, `ByteSet.C01_contains_singleton`, `ByteSet.C01_isFull`, `ByteSet.C02_containsRange`, `ByteSet.C02_maxElem_partial`, `ByteSet.C02_minElem_none`, `ByteSet.C02_minElem_some`, `ByteSet.C03_iter_sorted`, `ByteSet.C03_roundtrip`, `ByteSet.C03_serialize_roundtrip`, `ByteSet.C63_injective_partial`, `ByteSet.C63_panics_iff`, `ByteSet.C63_printed_partial`, `ByteSet.C63_release_total`, `C05_bounds_partial`, `C08_grammar_partial`, `C08_notNullable_partial`, `C08_permit_refuted`, `C08_run_partial`, `C08_size_refuted`, `C11_peekNot_refuted`, `C11_sound_definite`, `C11_sound_partial`, `C12_complete_partial`, `C12_greedy_refuted`, `C12_item_refuted`, `C12_munch`, `C12_selects_partial`, `C12_selects_whole`, `C12_unique_partial`, `C12_whole_partial`, `C13_decided`, `C13_found`, `C13_lookahead`, `C13_refused`, `C13_selected`, `C13_unambiguous`, `C13_words_built_iff`, `C13_words_disjoint`, `C13_words_selected`, `C13_words_within_80`, `C14_permit_refuted`, `C14_repeat1_partial`, `C14_repeat_partial`, `C14_terminates_partial`, `C14_until_refuted`, `C15_between_full`, `C15_between_none`, `C15_between_panics`, `C15_between_refuted`, `C21_rebind_partial`, `C21_unaffected_partial`, `C22_enum_refuted`, `C22_eval_partial`, `C22_fallback_refuted`, `C22_flatMapAccum_refuted`, `C22_flatMapList_refuted`, `C22_leftFold_refuted`, `C22_numeric_refuted`, `C22_plain_partial`, `C22_wf_partial`, `C23_accumUntil_refuted`, `C23_accumUntil_scope_refuted`, `C23_argument_refuted`, `C23_decode_partial`, `C23_derivation_partial`, `C23_extension`, `C23_plain_partial`, `C23_pos_refuted`, `C23_wf_partial`, `C24_binders`, `C24_deterministic`, `C24_first_match`, `C24_matches_partial`, `C24_plain_partial`, `C28_sorted`, `C28_unsorted_first`, `C48_faults_panic`, `C48_numeric_refuted`, `C48_panics_iff_partial`, `C48_plain_partial`, `C48_progress_partial`, `C48_range_refuted`, `C48_wrapped_panics`, `C55_between_refuted`, `C55_no_panic_partial`, `C59_cast_count_not_nullable_refuted`, `C59_cast_counts_compile_refuted`, `C59_generated_program_decodes_as_interpreted_partial`, `C59_generator_accepts_what_is_interpreted_partial`, `C59_optional_format_refuted`, `C59_peek_not_lookahead_refuted`, `C59_phantom_accepted_refuted`, `C59_same_panics_refuted`, `C59_trivial_alignment_refuted`, `C64_append`, `C64_append_defined`, `C64_arith`, `C64_destructure`, `C64_dup`, `C64_enumFromTo`, `C64_findByKey`, `C64_findByKey_sorted`, `C64_intRel`, `C64_match`, `C64_record`, `C64_recordProj`, `C64_seq`, `C64_seqIx`, `C64_subSeq`, `C64_subSeqInflate`, `C64_subSeq_defined`, `C64_tuple`, `Flat.C69_permit_refuted`, `Flat.C69_silent_refuted`, `Formats.Numbers.C62_numbers_derived`, `Formats.Numbers.C62_numbers_derives`, `Formats.Numbers.C62_numbers_exact`, `Formats.Numbers.C62_numbers_found`, `Formats.Numbers.C62_numbers_sound`, `Formats.Peano.C62_peano_derived`, `Formats.Peano.C62_peano_derives`, `Formats.Peano.C62_peano_refuted`, `Formats.Peano.C62_peano_sound`, `Formats.Rle.C62_rle_complete`, `Formats.Rle.C62_rle_derived`, `Formats.Rle.C62_rle_derives`, `Formats.Rle.C62_rle_safe`, `Formats.Rle.C62_rle_sound`, `Formats.Rle.C62_rle_terminates`, `Formats.Waldo.C62_waldo_refuted`, `Gen.C50_bits_limit_refuted`, `Gen.C50_capture_name_refuted`, `Gen.C50_capture_panic_refuted`, `Gen.C50_enforce_refuted`, `Gen.C50_generated_complete_partial`, `Gen.C50_generated_fails_partial`, `Gen.C50_generated_sound_partial`, `Gen.C50_offset_panic_refuted`, `Gen.C50_optional_end_refuted`, `Gen.C50_optional_other_refuted`, `Gen.C50_overfull_refuted`, `Gen.C50_parallel_nested_refuted`, `Gen.C50_peekNot_nested_refuted`, `Gen.C50_permit_rewind_refuted`, `Gen.C50_repeat1_end_refuted`, `Gen.C50_repeatBetween_refuted`, `Gen.C50_seek_limit_refuted`, `Gen.C50_view_limit_refuted`, `Gen.C50_view_pos_refuted`, `Gen.C61_answers_partial`, `Gen.C61_derived_partial`, `Gen.C61_ends_partial`, `Gen.C61_found_partial`, `Gen.C61_rejects_partial`, `Gen.C61_terminates_partial`, `Gen.C61_values_partial`, `Gzip.C72_complete`, `Gzip.C72_safe`, `Gzip.C72_sound`, `Gzip.C72_terminates`, `GzipHeader.C74_footer_complete`, `GzipHeader.C74_footer_safe`, `GzipHeader.C74_footer_sound`, `GzipHeader.C74_header_complete`, `GzipHeader.C74_header_safe`, `GzipHeader.C74_header_sound_partial`, `GzipHeader.C74_made`, `GzipHeader.C74_reserved_refuted`, `GzipMember.C76_derives`, `GzipMember.C76_sound_partial`, `GzipName.C75_checksum_complete`, `GzipName.C75_checksum_sound`, `GzipName.C75_comment_complete`, `GzipName.C75_comment_sound`, `GzipName.C75_name_complete`, `GzipName.C75_name_sound`, `GzipName.C75_safe`, `GzipName.C75_string_sound`, `GzipName.C75_terminates`, `Helper.C51_empty_refuted`, `Helper.C51_fields_partial`, `Helper.C51_pair`, `Helper.C51_total`, `Helper.C51_whole_refuted`, `Helper.C51_zero_refuted`, `Helper.C52_byte`, `Helper.C52_bytes`, `Helper.C52_signed`, `Helper.C52_unsigned`, `Helper.C53_between`, `Helper.C53_eq_partial`, `Helper.C53_eq_refuted`, `Helper.C53_if`, `Helper.C53_index_partial`, `Helper.C53_index_refuted`, `Helper.C53_last_partial`, `Helper.C53_max`, `Helper.C53_nonzero`, `Helper.C53_option_partial`, `Huffman.C30_codes_canonical`, `Huffman.C30_construct`, `Huffman.C30_decode`, `Huffman.C30_next`, `Huffman.C30_prefix_free`, `Huffman.C31_agree`, `Huffman.C31_decode`, `Huffman.C31_interpreter_refuses_iff`, `Huffman.C31_overfull_refuted`, `Huffman.C31_refusal`, `IxHeap.C44_roundtrip`, `Loc.C25_agree_partial`, `Loc.C25_buffer_partial`, `Loc.C25_consumed_partial`, `Names.C42_collision`, `Names.C42_registered`, `Names.C42_renaming_partial`, `Names.C42_stable`, `Names.C42_types_stable`, `Names.C42_types_total`, `Names.C42_types_unique_partial`, `Names.C42_unique_partial`, `Num.C36_abs_into_unsigned_partial`, `Num.C36_abs_same_partial`, `Num.C36_abs_unsigned`, `Num.C36_abs_widening`, `Num.C36_add_sub_mul`, `Num.C36_attempt_cast`, `Num.C36_direct_cast`, `Num.C36_div_rem_partial`, `Num.C36_fallback`, `Num.C36_neg_into_unsigned`, `Num.C36_neg_same_partial`, `Num.C36_neg_unsigned`, `Num.C36_neg_widening`, `Num.C36_unary_fallback`, `Num.C37_bitwiseCast`, `Num.C37_out_of_range_panics`, `Num.C38_asUsize`, `Num.C38_bounds_encompasses`, `Num.C38_bounds_unify`, `Num.C38_encompasses`, `Num.C38_getAsUnsized`, `Num.C38_isRepresentable`, `Num.C38_isSuperset`, `Num.C60_agree_partial`, `Num.C60_compiles`, `Num.C60_complete_partial`, `Num.C60_elaborated`, `Num.C60_eval_partial`, `Num.C60_iff_partial`, `Num.C60_sound`, `Out.C67_builder`, `Out.C67_builder_sep`, `Out.C67_seq`, `Out.C68_distinct_partial`, `Out.C68_drawing_partial`, `Out.C68_hidden`, `Out.C68_hidden_refuted`, `Out.C68_inline_partial`, `Out.C68_nested_partial`, `Out.C68_newline_refuted`, `Out.C68_preview_partial`, `Out.C68_read_partial`, `Predictive.C12_predictive_partial`, `Predictive.C12_predictive_unique_partial`, `Prelude.C45_repeatBetweenFinished`, `Printer.C43_collisions`, `Printer.C43_exact`, `Printer.C43_injective_partial`, `Printer.C43_partial`, `Printer.C43_read`, `Printer.C46_checked_partial`, `Printer.C46_division_refuted`, `Printer.C46_read_partial`, `Printer.C46_shift_refuted`, `Printer.C46_value_partial`, `Record.C18_auto`, `Record.C18_auto_refuted`, `Record.C18_rebind_refuted`, `Record.C19_doubled_refuted`, `Record.C19_order_refuted`, `Record.C19_renamed_refuted`, `Riff.C71_complete`, `Riff.C71_derived`, `Riff.C71_derives`, `Riff.C71_safe`, `Riff.C71_sound`, `Riff.C71_terminates`, `Rt.C32_read`, `Rt.C32_remaining`, `Rt.C32_window`, `Rt.C32_window_partial`, `Rt.C34_close`, `Rt.C34_open`, `Rt.C34_read_past`, `Rt.C35_escape`, `Rt.C35_reads`, `Rt.C47_advance`, `Rt.C47_align`, `Rt.C47_position_partial`, `Rt.C47_seek`, `Rt.C47_skip_remainder`, `SeqKind.C27_append`, `SeqKind.C27_isEmpty`, `SeqKind.C27_subSeq`, `Tc.C40_agreed_choice`, `Tc.C40_bounds`, `Tc.C40_grouping_members`, `Tc.C40_intersection`, `Tc.C40_intersection_neutral`, `Tc.C40_normalize`, `Tc.C40_unify_ints`, `Tc.C40_unify_unsigned`, `Tc.C41_elaborate`, `Tc.C41_iff`, `Tc.C41_sound`, `Tc.C49_checker`, `Tc.C49_numeric_partial`, `Tc.C56_empty_forgets_refuted`, `Tc.C56_history_kept_partial`, `Tc.C56_hole_forgets_refuted`, `Tc.C56_infinite_type_refuted`, `Tc.C56_mismatch_panics_refuted`, `Tc.C56_request_kept_partial`, `Tc.C56_unified_type_partial`, `Tc.C57_annotation_partial`, `Tc.C57_closed_partial`, `Tc.C57_expr_partial`, `Tc.C57_infinite_type_refuted`, `Tc.C57_lambda_partial`, `Tc.C57_pattern`, `Tc.C57_record_scope_refuted`, `Tc.C57_seqLength_refuted`, `Tc.C57_tuple_annotation_refuted`, `Tc.C58_argument_refuted`, `Tc.C58_decode_partial`, `Tc.C58_fail_refuted`, `Tc.C58_infer_partial`, `Tc.C58_module_partial`, `Tc.C58_occurs`, `Tc.C58_panic_refuted`, `Tc.C58_pos_refuted`, `Tc.C58_read`, `Tc.C58_solvable`, `Tc.C58_typecheck_partial`, `Tc.C58_unused_item_refuted`, `Text.C54_derived`, `Text.C54_derives`, `Text.C54_exact`, `Text.C54_sound`, `Text.C54_stops`, `Text.C54_whole`, `Text.C54_zderived`, `Text.C54_zderives`, `Text.C54_zsound`, `Text.C54_zwhole`, `Tiff.C73_complete`, `Tiff.C73_derived`, `Tiff.C73_derives`, `Tiff.C73_safe`, `Tiff.C73_sound`, `Tiff.C73_terminates`, `TreeExpr.C66_collisions`, `TreeExpr.C66_distinct_partial`, `TreeExpr.C66_exact`, `TreeExpr.C66_read`, `TreeExpr.C66_read_partial`, `TreeExpr.C66_sub_refuted`, `TypeAnalysis.C65_aligned`, `TypeAnalysis.C65_copy`, `TypeAnalysis.C65_heap_nested_refuted`, `TypeAnalysis.C65_heap_option_refuted`, `TypeAnalysis.C65_heap_partial`, `TypeAnalysis.C65_heap_tag_refuted`, `TypeAnalysis.C65_levels`, `TypeAnalysis.C65_local_copy_refuted`, `TypeAnalysis.C65_size`, `TypeAnalysis.C65_size_overflow_refuted`, `TypeAnalysis.C65_slice_refuted`, `TypeAnalysis.C65_table`, `TypeAnalysis.C65_two_strategies_refuted`, `TypeAnalysis.C70_fixed`, `TypeAnalysis.C70_order_partial`, `TypeAnalysis.C70_total`, `TypeAnalysis.C70_varies`, `ValueType.C26_any`, `ValueType.C26_assoc`, `ValueType.C26_comm`, `ValueType.C26_fails`, `ValueType.C26_idem`, `ValueType.C26_join`, `ValueType.C26_order`, `ValueType.C26_values`
<!-- end generated: axioms -->
