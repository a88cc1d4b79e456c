{"id": "C01", "title": "ByteSet is a set of bytes", "statement": "Every ByteSet constructor and operator computes exactly the mathematical set it names: contains() after empty, full, singleton, insert, remove, union, intersection, difference, complement, conversion from a slice, from a half-open range and from an inclusive range answers true precisely for the bytes in the corresponding set; is_disjoint is true iff no byte is in both; len is the number of members; is_empty iff no members.", "quantifier": "all byte sets (2^256 of them), all bytes, all ranges lo..hi and lo..=hi", "why_tests_cant": "2^256 sets; the range constructors have quadrant special cases whose boundary mistakes affect only a few of the 65536 ranges", "anchors": ["src/byte_set.rs:ByteSet", "src/byte_set.rs:From<RangeInclusive<u8>>"]}
{"id": "C02", "title": "ByteSet extremes are the true extremes", "statement": "min_elem returns the least member and None exactly for the empty set; max_elem returns the greatest member and None exactly for the empty set.", "quantifier": "all byte sets", "why_tests_cant": "2^256 sets; existing tests exercise only sets with members in the top quadrant", "anchors": ["src/byte_set.rs:ByteSet::min_elem", "src/byte_set.rs:ByteSet::max_elem"]}
{"id": "C03", "title": "ByteSet iteration is sorted enumeration", "statement": "Iterating a ByteSet yields each member exactly once in strictly increasing order and nothing else, and collecting the iterator gives back an equal set; two ByteSets are equal iff they have the same members.", "quantifier": "all byte sets", "why_tests_cant": "2^256 sets", "anchors": ["src/byte_set.rs:ByteSet::iter", "src/byte_set.rs:FromIterator"]}
{"id": "C04", "title": "Interval arithmetic on Bounds is sound", "statement": "For each operator on Bounds (addition, subtraction, multiplication, division, remainder, shift left, shift right, bit-or, bit-and, union, clamp, bits-to-bytes) applied to intervals, if x lies in the first and y in the second operand then the concrete result of the operation on x and y lies in the resulting interval.", "quantifier": "all pairs of intervals over machine words, all members x and y", "why_tests_cant": "four 64-bit endpoints and two 64-bit members: testing samples a vanishing fraction, and unsound corners are at word boundaries and masks", "anchors": ["src/bounds.rs:Bounds"]}
{"id": "C05", "title": "Static bounds of an expression contain its run-time value", "statement": "If Expr::bounds gives an interval for an expression and evaluating that expression in any scope yields an unsigned number without panicking, the number is inside the interval.", "quantifier": "all expressions and all evaluation scopes", "why_tests_cant": "infinitely many expressions; bounds are computed without looking at the scope", "anchors": ["src/lib.rs:Expr::bounds", "src/decoder.rs:Expr::eval"]}
{"id": "C06", "title": "Reading never leaves the window", "statement": "For every sequence of read, seek, split and skip operations on a read context: the position never exceeds the end of the window, each successful byte read returns the input byte at the current position and advances by exactly one, an operation fails exactly when it would pass the end, a split gives a first part that can never see beyond the split point and a second part starting there, and multi-byte reads are the big-endian value of the next bytes.", "quantifier": "all buffers, all positions, all operation sequences", "why_tests_cant": "unbounded buffer sizes and operation histories", "anchors": ["src/read.rs:ReadCtxt"]}
{"id": "C07", "title": "Decoding only moves forward inside the input", "statement": "Whenever decoding any format with any scope on any input succeeds, the remaining input is the same buffer with a position not before the starting position and not after the end of the buffer.", "quantifier": "all formats, decoders, scopes, inputs and starting positions", "why_tests_cant": "unbounded formats and inputs; includes nested slices, peeks, bit-mode, views and recursion", "anchors": ["src/decoder.rs:Decoder::parse"]}
{"id": "C08", "title": "Consumption respects static match bounds", "statement": "Whenever decoding a format succeeds, the number of bytes consumed lies inside the interval that the format's static match bounds promise; the compiler uses this to reject repetition of formats that may consume nothing.", "quantifier": "all formats, modules, scopes and inputs", "why_tests_cant": "unbounded formats and inputs; the bounds guard against infinite loops", "anchors": ["src/format.rs:Format::match_bounds", "src/format.rs:Format::is_nullable", "src/decoder.rs:Decoder::parse"]}
{"id": "C09", "title": "Lookahead consumes nothing", "statement": "A successful Peek, PeekNot or relative-offset parse leaves the position exactly where it was; PeekNot succeeds exactly when its body fails; a value computation, the position query, and a failed-over Permit consume nothing.", "quantifier": "all formats, scopes and inputs", "why_tests_cant": "unbounded formats and inputs", "anchors": ["src/decoder.rs:Decoder::parse"]}
{"id": "C10", "title": "Slices confine their body", "statement": "A slice of size n succeeds only if n bytes are available, its body's outcome is independent of every byte at or after the end of the slice, and on success exactly n bytes are consumed, however little of them the body read; nesting slices never widens the window.", "quantifier": "all formats, scopes, slice sizes and inputs (pairs of inputs agreeing on the slice)", "why_tests_cant": "relates two runs on arbitrary inputs; unbounded formats", "anchors": ["src/decoder.rs:Decoder::parse", "src/read.rs:ReadCtxt::split_at"]}
{"id": "C11", "title": "Decoding is sound for the format's declarative meaning", "statement": "If the compiled decoder for a format returns a value and a rest, then that value and rest are a derivation of the format's declarative grammar (sequence, alternation, repetition, lookahead, binding, computation), read as an inductive relation that never mentions lookahead trees or compilation.", "quantifier": "all formats in the modelled language, all inputs", "why_tests_cant": "relates a compiler plus table-driven interpreter to a denotation on all inputs", "anchors": ["src/decoder.rs:Compiler::compile_format", "src/decoder.rs:Decoder::parse", "src/format.rs:Format"]}
{"id": "C12", "title": "Deterministic alternation loses no parse", "statement": "If the compiler accepts an alternation, then for every input on which some branch of it, followed by what comes next, derives a parse in the declarative grammar, the compiled decoder selects that branch and does not report failure.", "quantifier": "all alternations accepted by the compiler, all continuations and inputs", "why_tests_cant": "completeness over all inputs; missing parses show up only on inputs nobody tried", "anchors": ["src/lib.rs:MatchTree", "src/decoder.rs:Compiler::compile_format"]}
{"id": "C13", "title": "Accepted alternations are unambiguous within the lookahead", "statement": "If a lookahead tree is built for a list of alternatives then no input sequence drives the tree to accept two different branches; the branch chosen for an input is a function of the first 80 bytes at most, and the tree never inspects more bytes than its depth.", "quantifier": "all lists of alternatives, all inputs", "why_tests_cant": "unbounded inputs and alternations", "anchors": ["src/lib.rs:MatchTree::build", "src/lib.rs:MatchTree::matches", "src/lib.rs:MatchTreeLevel::grow"]}
{"id": "C14", "title": "Repetition terminates and consumes what it should", "statement": "Decoding a repetition that the compiler accepted terminates on every input: each iteration of an accepted unbounded repetition consumes at least one byte.", "quantifier": "all accepted repetition formats and inputs", "why_tests_cant": "termination over all inputs cannot be observed by running finitely many", "anchors": ["src/decoder.rs:Decoder::parse", "src/decoder.rs:Compiler::compile_format"]}
{"id": "C15", "title": "Counted and conditional repetition return the promised sequence", "statement": "RepeatCount(n) returns exactly n elements; RepeatBetween(lo,hi) returns between lo and hi elements and keeps going while another element can be parsed and hi is not reached; RepeatUntilLast returns a sequence whose last element satisfies the condition and no earlier one does; RepeatUntilSeq returns the shortest non-empty prefix sequence satisfying the condition.", "quantifier": "all element formats, counts, conditions, scopes and inputs", "why_tests_cant": "unbounded repetition counts and inputs", "anchors": ["src/decoder.rs:Decoder::parse"]}
{"id": "C16", "title": "Fallible alternatives are tried in order", "statement": "UnionNondet returns the result of the first branch in declaration order that decodes successfully from the start position, tagged with its index, and fails only if all fail; Permit returns its body's result when the body succeeds and otherwise a fallback value at the original position, never failing.", "quantifier": "all branch lists, scopes and inputs", "why_tests_cant": "unbounded branch lists and inputs", "anchors": ["src/decoder.rs:Decoder::parse"]}
{"id": "C17", "title": "Recoverable errors are neither lost nor invented", "statement": "The error log accompanying a decoded value is the concatenation, in evaluation order, of the logs of the steps that produced it: mapping changes no errors, sequencing concatenates, folding over a list accumulates one batch per step, and a strict conversion fails exactly when the log is non-empty.", "quantifier": "all values, all step functions, all lists of steps", "why_tests_cant": "unbounded histories of steps", "anchors": ["src/util.rs:WithErr"]}
{"id": "C18", "title": "Records bind fields in order and keep exactly the permanent ones", "statement": "A record format decodes its fields left to right, each field being able to refer to every earlier named field, and yields a record holding exactly the persistent fields in declaration order with the values they decoded to; anonymous and temporary fields consume input but do not appear.", "quantifier": "all field lists, field formats, scopes and inputs", "why_tests_cant": "unbounded field lists", "anchors": ["src/format.rs:Format::record", "src/format.rs:Format::__chain_record"]}
{"id": "C19", "title": "Flattening a record format and rebuilding it is the identity on meaning", "statement": "Converting a record-shaped format to its flat list of labelled fields and back yields a format that decodes every input to the same result.", "quantifier": "all record-shaped formats and inputs", "why_tests_cant": "unbounded field lists and inputs", "anchors": ["src/record_fmt.rs:RecordFormat", "src/record_fmt.rs:OwnedRecordFormat::into_format"]}
{"id": "C20", "title": "Variable lookup is lexical", "statement": "Looking up a name returns the value of the innermost enclosing binding of that name, through every kind of scope frame, and fails only if no enclosing frame binds it; shadowed bindings are restored when the inner scope ends.", "quantifier": "all scope chains and names", "why_tests_cant": "unbounded nesting", "anchors": ["src/decoder.rs:Scope"]}
{"id": "C21", "title": "The shadowing test is exact for variable capture", "statement": "If an expression is reported as not shadowing-affected by a name then rebinding that name in the scope cannot change what the expression evaluates to.", "quantifier": "all expressions, names, scopes and values", "why_tests_cant": "quantifies over every value the name could be bound to", "anchors": ["src/lib.rs:Expr::is_shadowed_by", "src/decoder.rs:Expr::eval"]}
{"id": "C22", "title": "Well-typed expressions evaluate to values of their type", "statement": "If type inference assigns a type to an expression in a typing scope, then in every value scope agreeing with it, evaluation - when it returns rather than hitting an arithmetic overflow or out-of-range panic - returns a value of that type.", "quantifier": "all expressions, typing scopes and conforming value scopes", "why_tests_cant": "type soundness ranges over all expressions and environments", "anchors": ["src/lib.rs:Expr::infer_type", "src/decoder.rs:Expr::eval"]}
{"id": "C23", "title": "Well-typed formats decode to values of their type", "statement": "If format type inference assigns a type to a format, every value decoded by it has that type.", "quantifier": "all formats, modules, scopes and inputs", "why_tests_cant": "type soundness ranges over all formats and inputs", "anchors": ["src/lib.rs:FormatModule::infer_format_type", "src/decoder.rs:Decoder::parse"]}
{"id": "C24", "title": "Pattern matching is first-match and structural", "statement": "Matching a value against a list of patterns selects the first pattern that matches; a pattern matches a value according to the value's shape, looking through the wrappers that alternation, mapping and permit put around values at every nesting level; the bindings produced are exactly the pattern's binders in left-to-right order.", "quantifier": "all patterns and values", "why_tests_cant": "unbounded pattern/value nesting", "anchors": ["src/decoder/value.rs:Value::matches", "src/pattern.rs:Pattern"]}
{"id": "C25", "title": "Location-tracking decoding agrees with plain decoding", "statement": "Decoding with location tracking succeeds on exactly the inputs on which plain decoding does, ends at the same position, and yields the same value once locations are erased; every recorded location lies within the input consumed.", "quantifier": "all formats, scopes and inputs", "why_tests_cant": "two 2000-line interpreters must agree on every input", "anchors": ["src/loc_decoder.rs:Decoder::parse_with_loc", "src/decoder.rs:Decoder::parse"]}
{"id": "C26", "title": "Type unification is a lattice join", "statement": "Unifying two value types is commutative and idempotent up to success/failure and result, Any is its identity, the result is an upper bound of both, and every value of either type is a value of the unified type.", "quantifier": "all pairs and triples of types", "why_tests_cant": "infinitely many types", "anchors": ["src/valuetype.rs:ValueType::unify"]}
{"id": "C27", "title": "Sequence representations are observationally lists", "statement": "The compressed repeated-element representation and the strict vector representation of sequences answer length, emptiness, indexing, subsequence, iteration and append identically to the list they denote.", "quantifier": "all sequences, indices, ranges", "why_tests_cant": "unbounded lengths; two representations must agree on every range", "anchors": ["src/decoder/seq_kind.rs:SeqKind", "src/decoder/seq_kind.rs:sub_range"]}
{"id": "C28", "title": "Keyed search finds exactly the matching element", "statement": "On a sequence sorted by key, sorted search returns an index whose element has the query key whenever one exists and nothing otherwise, without ever indexing out of range or underflowing; on any sequence unsorted search returns the first element with the key or nothing.", "quantifier": "all sequences of any length and all queries", "why_tests_cant": "unbounded lengths; binary-search boundary errors hide at particular lengths", "anchors": ["src/decoder/search.rs:find_index_by_key_sorted", "src/decoder/search.rs:find_index_by_key_unsorted"]}
{"id": "C29", "title": "Back-reference copy equals byte-at-a-time copy", "statement": "Inflating a back-reference of length n at distance d, in the interpreter and in the generated-code runtime, yields exactly what copying one element at a time from d positions back would give, including when n exceeds d.", "quantifier": "all buffers, distances and lengths", "why_tests_cant": "unbounded lengths and overlaps", "anchors": ["src/prelude.rs:slice_ext", "src/prelude.rs:extend_from_within_ext", "src/decoder.rs:Expr::eval"]}
{"id": "C30", "title": "Canonical Huffman codes decode what they encode", "statement": "For every table of code lengths, the constructed code assigns canonical codewords (ordered by length then symbol); the decoder construction succeeds iff no codeword is a prefix of another; and when it succeeds reading the codeword of any used symbol returns that symbol after consuming exactly its length in bits, whatever follows.", "quantifier": "all code-length tables and all bit streams", "why_tests_cant": "unbounded tables and streams", "anchors": ["src/prelude.rs:make_huffman_decoder", "src/prelude.rs:HuffmanNode", "src/decoder.rs:make_huffman_codes"]}
{"id": "C31", "title": "Interpreter and generated runtime agree on Huffman codes", "statement": "The set of (codeword, symbol) pairs that the interpreter builds from a list of code lengths equals the one the generated-code runtime builds.", "quantifier": "all code-length tables", "why_tests_cant": "two separately written algorithms must agree on all tables", "anchors": ["src/decoder.rs:make_huffman_codes", "src/prelude.rs:make_huffman_decoder"]}
{"id": "C32", "title": "Runtime buffer cursor never escapes its window", "statement": "For every history of successful reads, skips, seeks, slice openings and closings, lookahead contexts and alternations, the runtime parser's cursor never passes the buffer end or the end of any open slice, byte reads return the byte at the cursor, and remaining() is exactly the number of further bytes that can be read.", "quantifier": "all buffers and all operation histories, in byte mode and bit mode", "why_tests_cant": "unbounded histories of nested contexts", "anchors": ["src/parser/offset.rs:BufferOffset", "src/parser/mod.rs:Parser"]}
{"id": "C33", "title": "Runtime lookahead and alternation restore the cursor", "statement": "Closing a peek context returns the cursor and the stack of open contexts to exactly what they were when it was opened, whatever well-bracketed operations happened inside; trying the next alternative returns to where the alternation began.", "quantifier": "all well-bracketed operation histories", "why_tests_cant": "unbounded nesting", "anchors": ["src/parser/offset.rs:ViewStack", "src/parser/mod.rs:Parser", "src/codegen/mod.rs:ParallelLogic"]}
{"id": "C34", "title": "Runtime slices nest", "statement": "A slice can be opened only inside the current window, closing it puts the cursor exactly at its end and restores the enclosing window, and an attempt to read past it fails without moving the cursor.", "quantifier": "all operation histories", "why_tests_cant": "unbounded nesting", "anchors": ["src/parser/offset.rs:BufferOffset::close_slice", "src/parser/mod.rs:Parser::start_slice"]}
{"id": "C35", "title": "Bit mode reads least-significant bit first and realigns", "statement": "In bit mode successive reads deliver the bits of each byte from least to most significant in byte order; leaving bit mode advances to the next byte boundary and reports the number of bits consumed; the interpreter's Bits format sees the same bit stream.", "quantifier": "all buffers, positions and read counts", "why_tests_cant": "unbounded streams", "anchors": ["src/parser/offset.rs:ByteOffset", "src/parser/mod.rs:Parser::read_byte", "src/decoder.rs:Decoder::parse"]}
{"id": "C36", "title": "Machine arithmetic helpers are exact", "statement": "Each typed arithmetic helper used by generated numeric code evaluates to the exact mathematical result: it yields a machine value equal to it when representable in the output type, a deferred exact integer when not, and not-a-number only for mathematically undefined operations (division or remainder by zero).", "quantifier": "all pairs of machine integers at all widths and signedness combinations", "why_tests_cant": "2^128 operand pairs; errors sit at MIN, -1 and mixed-sign boundaries", "anchors": ["src/numeric/eval.rs"]}
{"id": "C37", "title": "Bitwise cast is reduction modulo the word size", "statement": "A bitwise cast between machine types returns the unique integer of the target type congruent to the source value modulo two to the target width.", "quantifier": "all 64 ordered pairs of machine types and all values", "why_tests_cant": "2^64 values for each of 64 pairs", "anchors": ["src/numeric/core.rs:bitwise_cast"]}
{"id": "C38", "title": "Representability tests are exact", "statement": "A machine type is reported a superset of another iff every value of the second is a value of the first; a constant is reported representable iff it lies within its type's range; bounds containment, unification and membership agree with integer intervals.", "quantifier": "all machine types, all integers", "why_tests_cant": "infinite integer range", "anchors": ["src/numeric/core.rs:MachineRep::is_superset", "src/numeric/core.rs:TypedConst::is_representable", "src/numeric/core.rs:Bounds"]}
{"id": "C39", "title": "Strict numeric evaluation flags every out-of-range intermediate", "statement": "Evaluating a numeric tree strictly returns the same number as lenient evaluation, and marks the result valid iff the value of every sub-expression is representable in the type that sub-expression was assigned; errors (division by zero, non-positive modulus, ambiguous type) coincide.", "quantifier": "all numeric expression trees and scopes", "why_tests_cant": "unbounded trees", "anchors": ["src/numeric/core.rs:Expr::eval", "src/numeric/core.rs:Expr::eval_strict"]}
{"id": "C40", "title": "Ranked integer-type sets intersect as sets and choose the unique best", "statement": "Intersecting two candidate-type sets keeps exactly the types in both; normalisation changes neither membership nor relative preference; the chosen solution is returned iff exactly one member has the best preference, and is that member; candidate sets derived from value bounds contain exactly the machine types that can represent the whole range.", "quantifier": "all ranked sets and all bounds", "why_tests_cant": "all rank assignments and unbounded integer bounds", "anchors": ["src/typecheck/base_set.rs:UintSet", "src/typecheck/base_set.rs:PrimIntSet", "src/typecheck/base_set.rs:IntSet::from_bounds"]}
{"id": "C41", "title": "Numeric type inference gives the one possible typing", "statement": "For every numeric expression, inferring and elaborating its machine types ends without a panic. It succeeds if and only if the typing rules leave exactly one way to give a machine type to every part of the expression, and then the result is that typing: named types are respected, untyped constants fit their type, operands of an operation that names no type agree. Evaluating an expression that has a typing never reports conflicting operand types, and a value with a type has the type given to the expression.", "quantifier": "all numeric expressions, of any depth", "why_tests_cant": "unbounded unification histories", "anchors": ["src/typecheck/inference.rs:InferenceEngine::infer_var_expr", "src/typecheck/inference.rs:InferenceEngine::reify_err", "src/numeric/elaborator.rs:Elaborator::elaborate_expr"]}
{"id": "C42", "title": "Generated type names are unique and stable", "statement": "Two different registered paths never receive the same final name, asking again for the same path gives the same name, and names already handed out never change when further paths are registered.", "quantifier": "all registration and lookup histories, all labels", "why_tests_cant": "unbounded histories and arbitrary label strings", "anchors": ["src/codegen/name.rs:NameCtxt"]}
{"id": "C43", "title": "Printed numeric expressions are unambiguous", "statement": "Rendering inserts enough parentheses that two different expression trees never render to the same text.", "quantifier": "all pairs of numeric expressions", "why_tests_cant": "quantifies over all pairs of trees", "anchors": ["src/numeric/printer.rs:compile_expr", "src/precedence.rs:cond_paren"]}
{"id": "C44", "title": "Index heap is a list of lists", "statement": "Storing rows in the compressed index heap and reading row i back returns the i-th stored row, empty rows included, and the length equals the number of rows stored.", "quantifier": "all push/get histories", "why_tests_cant": "unbounded histories", "anchors": ["src/util.rs:IxHeap"]}
{"id": "C45", "title": "Sequence helpers in the runtime are the list functions they name", "statement": "The fallible flat-map, append-flat-map, fold-left and fold-map helpers of the generated-code runtime return the same list as the corresponding pure list function when every step succeeds, and otherwise the first failure with no later step executed.", "quantifier": "all step functions and lists", "why_tests_cant": "unbounded lists and arbitrary step functions", "anchors": ["src/prelude.rs"]}
{"id": "C46", "title": "Generated arithmetic computes what the interpreter computes", "statement": "The Rust source text generated for an operator expression is read by the Rust compiler as the same tree of operations the format author wrote, and when the interpreter gives that expression a value, running the generated code yields the same value.", "quantifier": "all expressions, variable bindings and overflow-check modes", "why_tests_cant": "grouping errors only show for particular nestings of operators of the same class, and agreement must hold for all operand values", "anchors": ["src/codegen/mod.rs:embed_expr", "src/codegen/rust_ast/mod.rs:RustOp::to_fragment_precedence", "src/precedence.rs:cond_paren", "src/decoder/value.rs:Value::arith"]}
{"id": "C47", "title": "Runtime cursor moves land where the call says", "statement": "In the runtime parser that generated code uses, skipping n bytes, skipping to an alignment, jumping to an absolute position and skipping the rest of a slice each move the cursor to exactly the position asked for (for alignment: the least multiple at or after the cursor) when that position lies inside the buffer and inside every open slice, and otherwise fail without moving; and the position the parser reports is one a later jump returns to.", "quantifier": "all buffers, all parser states reachable through the API, all skip counts, alignments and targets", "why_tests_cant": "boundary errors show only for particular combinations of slice ends, offsets and alignments", "anchors": ["src/parser/mod.rs:advance_by", "src/parser/mod.rs:skip_align", "src/parser/mod.rs:advance_or_seek", "src/parser/mod.rs:skip_remainder", "src/parser/mod.rs:get_offset_u64", "src/parser/offset.rs:ByteOffset"]}
{"id": "C48", "title": "Well-typed expressions do not get stuck", "statement": "If type inference accepts an expression and every name it types is bound at run time to a value of its type, then evaluating the expression either returns a value of the inferred type or fails for a run-time fault of a specific kind (arithmetic overflow, zero divisor, oversized shift, lossy conversion, index or sub-sequence out of range, no matching branch); it never aborts because an operand is of the wrong kind, and conversely each such fault does abort it.", "quantifier": "all expressions, typing scopes, and run-time scopes that agree with them", "why_tests_cant": "ranges over all expressions and all values; a missing run-time case only shows for one combination of operand kinds", "anchors": ["src/lib.rs:Expr::infer_type", "src/decoder.rs:Expr::eval", "src/decoder/value.rs:Value::arith", "src/decoder/search.rs"]}
{"id": "C49", "title": "Metavariables are equal exactly when some request made them so", "statement": "For every history of creating metavariables and requesting two of them to be equal, in any order, the bookkeeping of the type checker and of numeric inference fails none of its assertions, and afterwards two metavariables have the same representative if and only if the requests together imply that they are equal; the representative is the oldest metavariable of its class.", "quantifier": "all histories of requests, of any length, over any number of metavariables", "why_tests_cant": "the state is a union-find structure with forward and backward references; assertions and merged classes depend on the order of arbitrarily many requests", "anchors": ["src/typecheck.rs:TypeChecker::unify_var_pair", "src/typecheck.rs:Alias", "src/typecheck/inference.rs:InferenceEngine::unify_var_pair"]}
{"id": "C50", "title": "Generated decoders do what the interpreter does", "statement": "For a format and an input, if the interpreter reads a value then the decoder generated as Rust code reads the same value and stops at the same byte; if the interpreter reports an error, so does the generated decoder; and, unless the interpreter aborts, the generated decoder does not abort and reads nothing the interpreter does not read.", "quantifier": "all formats, all inputs", "why_tests_cant": "two independent implementations of every construct (control flow, backtracking stack, slices, bits, views); they differ only for particular nestings of constructs and particular input lengths", "anchors": ["src/codegen/mod.rs:CodeGen::translate", "src/codegen/mod.rs:ToAst for CaseLogic", "src/decoder.rs:Decoder::parse", "src/parser/mod.rs:Parser"]}
{"id": "C51", "title": "Packed bit fields are cut from the word in order", "statement": "A format made from a list of named flags, named bit ranges and reserved segments reads one byte or one big-endian 16-bit word and yields a record with exactly the named fields in order, each holding its bits of the word counted from the most significant bit; a list whose widths do not add up to the width of the word is rejected when the format is made; a segment declared to be zero makes the decoder report an error when it is not.", "quantifier": "all lists of fields, all words, all scopes, any place in a larger format", "why_tests_cant": "the number of field lists and words is exponential, and shifts and masks go wrong only at particular boundaries", "anchors": ["src/helper.rs:bit_fields_u8", "src/helper.rs:bit_fields_u16", "src/helper.rs:packed_bits_u8", "src/helper.rs:BitFieldKind"]}
{"id": "C52", "title": "Integer and byte formats read the bytes they name", "statement": "The formats for unsigned and signed integers of 8, 16, 32 and 64 bits in either byte order read exactly as many bytes as the width says and yield the integer these bytes are the digits of (in two's complement when signed); the formats for one given byte, any other byte, and a given sequence of bytes accept exactly these; too few bytes are an error at the end of the input.", "quantifier": "all widths, byte orders, inputs, offsets, scopes, and places in a larger format", "why_tests_cant": "2^64 words per format and any offset and length of the remaining input", "anchors": ["src/helper.rs:u16be", "src/helper.rs:u32le", "src/helper.rs:i32be", "src/helper.rs:is_byte", "src/helper.rs:not_byte", "src/helper.rs:is_bytes", "src/helper.rs:byte_seq"]}
{"id": "C53", "title": "Conditions and expressions made by the helpers mean what their descriptions say", "statement": "A format with a condition on a number (between two bounds, within an interval or one of several, equal to an expected value, not zero) reads what the inner format reads, yields the same result when the number satisfies the condition, and otherwise fails, or tolerates an error if the condition is only an expectation. Expressions built with the helpers have the described value in every scope: a choice evaluates only the chosen branch, the maximum is the larger number, checked indexing and the last element are absent exactly when there is no such element, a balanced union has exactly the bits of its operands, field selection keeps the named fields in order, a test of any element says whether the test holds of some element.", "quantifier": "all inner formats, bounds, numbers, scopes, sequences and operand lists of any length", "why_tests_cant": "bounds and sequence lengths are unbounded, and wrong results come from the names a helper binds, which depend on the scope it is used in", "anchors": ["src/helper.rs:where_between", "src/helper.rs:where_within_any", "src/helper.rs:expect_eq", "src/helper.rs:index_checked", "src/helper.rs:seq_last_checked", "src/helper.rs:seq_any", "src/helper.rs:balanced_bitor", "src/helper.rs:subset_fields", "src/helper.rs:prepend_field", "src/helper.rs:expr_option_map_or"]}
{"id": "C54", "title": "The text format decodes exactly UTF-8", "statement": "The string format defined with the library reads UTF-8: on input that begins with the encoding of any characters and continues with nothing, or with a byte that begins no character, it returns exactly those characters and stops after them. On any other input it fails. It never panics and always comes to an end. Overlong forms, surrogates, numbers above U+10FFFF and truncated characters are not accepted. The null-terminated variant does the same for text without NUL characters.", "quantifier": "all sequences of Unicode characters, all byte strings, all positions in the input", "why_tests_cant": "there are more than a million characters and unboundedly many texts, and each of the ten byte forms has its own boundaries", "anchors": ["doodle-formats/src/format/text.rs:main", "doodle-formats/src/format/text.rs:drop_n_msb", "doodle-formats/src/format/text.rs:shift6_4", "src/helper.rs:byte_in", "src/helper.rs:VALID_ASCII"]}
{"id": "C55", "title": "Decoding does not panic on bad input", "statement": "If every expression of a format that decoding can reach has a value of the kind the format needs (a number for a length, a truth value for a condition, a pattern that applies in a match), then the decoder compiled from the format does not panic, whatever the input: it returns a value or an error.", "quantifier": "all modules and formats, all inputs, all starting positions, all iteration orders of hash sets", "why_tests_cant": "inputs are unbounded and which expressions are reached depends on the data", "anchors": ["src/decoder.rs:Decoder::parse", "src/decoder.rs:Compiler::compile_program", "src/lib.rs:MatchTree::matches", "src/read.rs:ReadCtxt"]}
{"id": "C56", "title": "Type inference forgets nothing it was told", "statement": "The type checker collects requirements on the types of formats and expressions one at a time. After any history of requirements that it accepted, every assignment of types that agrees with what it still records satisfies every requirement of the history: two unknown types are equal, a type has a given shape, a component, field, element or variant has a given type, a type is one of a set of base or integer types. It does not matter in which order hash tables are visited, nor that a requirement is suspended while others that it gives rise to join or change what it is working on.", "quantifier": "all histories of requirements, all states reached, all orders of hash tables, all depths of nested requirements", "why_tests_cant": "histories are unbounded, and whether a requirement is lost depends on how nested requirements interleave and on hash order", "anchors": ["src/typecheck.rs:unify_utype", "src/typecheck.rs:unify_var_pair", "src/typecheck.rs:unify_var_constraint", "src/typecheck.rs:unify_constraint_pair", "src/typecheck.rs:unify_varmaps", "src/typecheck.rs:transfer_constraints", "src/typecheck.rs:add_uvar_variant"]}
{"id": "C57", "title": "Values of expressions have the type the type checker finds", "statement": "The module type checker gives every expression, pattern and function a type. Whenever it accepts, every value that the expression evaluates to, in any scope whose values have the types recorded for their names, has the type found for it, whichever of the types it left open is finally chosen; a function takes arguments of its argument type to results of its result type; a pattern that matches a value of its type binds names to values of their types; an annotated type is the type that is found.", "quantifier": "all expressions and patterns of any nesting, all scopes, all states of the type checker before, all ways to complete the types, all orders of hash tables", "why_tests_cant": "expressions nest without bound, and the type of a part depends on everything the type checker learns later about the variables it shares", "anchors": ["src/typecheck.rs:infer_var_expr", "src/typecheck.rs:infer_var_scope_pattern", "src/typecheck.rs:infer_var_num_tree", "src/typecheck.rs:infer_vars_expr_lambda", "src/typecheck.rs:unify_var_valuetype", "src/lib.rs:Expr"]}
{"id": "C58", "title": "What a format decodes has the type the type checker finds", "statement": "The module type checker gives every format a type, or rejects it with an error. Whenever it finds a type, every value that the format decodes, on any input and through any items it calls, has that type; and it ends with a type or an error, never in a panic.", "quantifier": "all modules, formats of any nesting, inputs, orders of hash tables, and all types left open while inferring", "why_tests_cant": "formats nest without bound and call items with arguments; the type of a part is fixed only by everything the type checker learns later, and it must hold for every value the format can decode", "anchors": ["src/typecheck.rs:typecheck", "src/typecheck.rs:infer_var_format", "src/typecheck.rs:infer_var_format_level", "src/typecheck.rs:infer_var_format_union", "src/typecheck.rs:infer_module", "src/typecheck.rs:reify", "src/typecheck.rs:occurs", "src/lib.rs:Format"]}
{"id": "C59", "title": "Generated code and interpreter decode alike: the two compilers make equivalent programs", "statement": "A format can be interpreted, or turned into Rust code. The code generator has a compiler of its own that makes a program of decoders from the typed format, with its own static bounds and its own construction of prefix trees. Both compilers accept the same formats, and for every input the two programs of decoders have the same result, error or panic.", "quantifier": "all modules and typed formats of any nesting, with any extra roots, all inputs, step limits and orders of hash tables", "why_tests_cant": "the two compilers are separate copies of the same intricate code (lookahead trees over what follows, memoised calls); they can differ only on particular combinations of format, context and input", "anchors": ["src/codegen/typed_decoder.rs:GTCompiler::compile_program", "src/codegen/typed_decoder.rs:compile_gt_format", "src/codegen/typed_format.rs:TypedFormat", "src/codegen/typed_format.rs:TypedExpr::bounds", "src/lib.rs:MaybeTyped", "src/lib.rs:MatchTree::build", "src/decoder.rs:Compiler::compile_program"]}
{"id": "C60", "title": "The code generated for a numeric expression computes the expression", "statement": "For every numeric expression whose types were worked out, the code generator produces Rust code without failing. The code compiles. Whenever running it yields a number, that number is the exact result of the expression, computed over the integers with every part within its type, and is the number the interpreter gives; and it yields one whenever every part of the exact computation is within its type.", "quantifier": "all typed numeric expressions of any nesting (constants, variables, binary and unary operations with and without named result types, arithmetic and bitwise casts, all 8 machine types), all values of the variables, with and without checks of overflow", "why_tests_cant": "there are 512 signatures for each binary operation and 64 for each unary one, each mapped by a classification to the name of a helper that may or may not exist; nesting and values of variables are unbounded", "anchors": ["src/numeric/codegen.rs:synthesize", "src/numeric/codegen.rs:classify_binary", "src/numeric/eval.rs:EvalNum", "src/numeric/core.rs:Expr::eval", "src/numeric/elaborator.rs:TypedExpr"]}
{"id": "C61", "title": "The decoder generated for a format reads what the format says", "statement": "The code that the code generator writes for a format answers as the interpreter does. A value it reads is one that the format derives from the bytes read; a derivation that covers the whole input is found; an input of which the format derives nothing is refused with an error; and it comes to an end on every input.", "quantifier": "all modules and formats that both compilers accept, all inputs, all step limits", "why_tests_cant": "formats and inputs are unbounded, and the claim crosses two compilers, lookahead construction, the interpreter, the run-time parser and the generated code", "anchors": ["src/codegen/mod.rs:Generator::compile", "src/codegen/typed_decoder.rs:GTCompiler", "src/decoder.rs:Compiler", "src/decoder.rs:Decoder::parse", "src/parser/mod.rs:Parser"]}
{"id": "C62", "title": "Small bundled formats decode exactly their documents", "statement": "The bundled formats for lists of tagged numbers, run-length encoded data, unary numbers and a marked place decode every document of theirs to the value it encodes, refuse everything else with an error, and come to an end without a panic on every input, wherever in a module they are put.", "quantifier": "all documents, all inputs, all modules around the format, all places in the input", "why_tests_cant": "documents and inputs are unbounded", "anchors": ["doodle-formats/src/format/numbers.rs:main", "doodle-formats/src/format/run_length.rs:main", "doodle-formats/src/format/peano.rs:main", "doodle-formats/src/format/waldo.rs:main"]}
{"id": "C63", "title": "A printed byte set stands for the set", "statement": "Printing a set of bytes succeeds for every set, and what is printed (a name, a range, single bytes, lists of bytes, complements, joined as unions) stands for exactly the bytes of the set; so two different sets are never printed alike.", "quantifier": "all 2^256 sets of bytes, with and without overflow checks", "why_tests_cant": "there are 2^256 byte sets", "anchors": ["src/byte_set/pretty_print.rs:ByteSet::as_token", "src/byte_set/pretty_print.rs:Display for ByteSet", "src/byte_set/pretty_print.rs:ByteSet::span", "src/byte_set/pretty_print.rs:ByteSet::find_enclosing_range"]}
{"id": "C64", "title": "Expressions compute what their operators say", "statement": "Whatever the scope and the operands, evaluating an expression gives the value its operator stands for, and gives no value when the operator is not defined there: arithmetic is that of the natural numbers with the result in range of the one kind of the operands, comparison is that of numbers, conversions keep the number or fail, bytes make the number they stand for, projections, indexing, stretches, appending, copying, folding and mapping act on the items of the sequence whatever its representation, and searching finds the first (unsorted) or some (sorted) item with the key, or none when there is none.", "quantifier": "all expressions, scopes and values", "why_tests_cant": "expressions nest without bound and act on unbounded sequences; the three representations of sequences and four widths multiply the cases", "anchors": ["src/decoder.rs:Expr::eval", "src/decoder.rs:Expr::eval_value", "src/decoder.rs:Expr::eval_lambda", "src/decoder/seq_kind.rs:ValueSeq", "src/decoder/search.rs:find_index_by_key"]}
{"id": "C65", "title": "Generated types: Copy, sizes and boxing", "statement": "For every program whose definitions are made as the generator makes them, each referring only to earlier ones: a definition is given Copy exactly when Rust accepts that it derives Copy; its alignment is 1, 2, 4 or 8 and its size is the smallest multiple of it with room for its fields (or its largest variant and a byte); the analysis of what to put into a Box ends without a panic, and where it changes nothing tells the layout of the analysis of sizes; and no answer depends on what was asked before.", "quantifier": "all lists of definitions, all strategies, all histories of questions", "why_tests_cant": "definitions refer to each other without bound, and the answers are kept in a table that every earlier question has changed", "anchors": ["src/codegen/rust_ast/analysis.rs:SourceContext", "src/codegen/rust_ast/analysis.rs:copy_hint", "src/codegen/rust_ast/analysis.rs:size_hint", "src/codegen/rust_ast/analysis.rs:aligned_size", "src/codegen/rust_ast/analysis/heap_optimize.rs:heap_hint", "src/codegen/rust_ast/mod.rs:can_be_copy"]}
{"id": "C66", "title": "Expressions in tree views can be read back", "statement": "The text that tree views of formats show for an expression determines the expression: read by the usual rules of operators, its tokens give back the expression that was printed, wherever it is printed, so that no two expressions are shown alike.", "quantifier": "all expressions, of any depth, and all precedences they are printed with", "why_tests_cant": "whether parentheses are needed depends on every pair of nested operators, and expressions nest without bound", "anchors": ["src/output/tree.rs:compile_expr", "src/output/tree.rs:binary_op", "src/output/tree.rs:prefix_op", "src/precedence.rs:cond_paren"]}
{"id": "C67", "title": "Fragments of output show what was put together", "statement": "The text of a combination of output fragments is the combination of their texts, whichever shortcuts are taken: sequences put the separator between each two items, joining and surrounding put texts after each other, a separator is interposed exactly between two texts that are not empty, and a builder shows everything written or pushed, in order. A fragment said to fit inline shows no newline and has no guide, and one said to be a single line shows one line.", "quantifier": "all fragments, of any nesting, and all histories of a builder", "why_tests_cant": "fragments nest without bound, and the shortcuts taken depend on their structure", "anchors": ["src/output.rs:Fragment::seq", "src/output.rs:Fragment::cat", "src/output.rs:Fragment::intervene", "src/output.rs:Fragment::is_vacuous", "src/output.rs:Fragment::fits_inline", "src/output.rs:Fragment::is_single_line", "src/output.rs:Fragment::join_with_wsp", "src/output.rs:FragmentBuilder"]}
{"id": "C68", "title": "Tree views of values can be read back", "statement": "The tree view of a value draws its outline: one line for each field or item, below and to the right of the one it belongs to, with guides that say whether more follow, all items of sequences up to the preview length, and of longer ones the first ones, a mark and the last. The outline can be read back from the text by way of its guides, so that values that look alike have the same outline, and fields whose names start with two underscores leave no trace.", "quantifier": "all values, of any depth and size", "why_tests_cant": "values nest without bound, and each line depends on all entries above it", "anchors": ["src/output/tree.rs:TreePrinter::compile_value", "src/output/tree.rs:compile_field_value_continue", "src/output/tree.rs:compile_field_value_last", "src/output/tree.rs:compile_gutter", "src/output/tree.rs:compile_seq", "src/output/tree.rs:compile_record", "src/output/tree.rs:is_atomic_value"]}
{"id": "C69", "title": "Decoded values can be listed, and formats are checked for bytes outside titled items", "statement": "Listing a decoded value along with the format it was decoded with does not panic, and prints one line for each titled item in it, in order, without what is inside titled items. The check made before listing accepts a format only if none of its bytes are read outside titled items, and refuses it only if one is.", "quantifier": "all modules, formats, inputs and the values decoded from them, and all choices of titled items", "why_tests_cant": "the listing follows value and format side by side, and must agree with the decoder on the shape of the value of every format, for every input", "anchors": ["src/output/flat.rs:print_decoded_value", "src/output/flat.rs:check_covered", "src/output/flat.rs:write_flat", "src/output/flat.rs:write_record"]}
{"id": "C70", "title": "Fixed read widths of generated types are exact", "statement": "A generated type is said to have a fixed read width only if every value of it is made of exactly so many bytes, its parts one after the other, and is said to vary only if there are values made of different numbers of bytes; the definitions that the generator makes all get an answer, which does not depend on the order of variants.", "quantifier": "all types and definitions, of any nesting", "why_tests_cant": "types nest without bound, and a width is put together from those of all parts", "anchors": ["src/codegen/rust_ast/analysis/read_width.rs:ReadWidth", "src/codegen/rust_ast/analysis/read_width.rs:ValueWidth", "src/codegen/rust_ast/analysis.rs:SourceContext::get_width"]}
{"id": "C71", "title": "RIFF files are decoded by their layout", "statement": "Decoding the RIFF format succeeds exactly on the inputs that begin with the letters RIFF, a length, a form and chunks that fill exactly so many bytes, and padding after odd lengths; the value shows the form, and the tag, the length and the data of every chunk, with nothing left out; no length in the input makes decoding panic or go on for ever, and the bytes of a file are those of one file only.", "quantifier": "all inputs, all numbers and lengths of chunks, all modules that contain the format, all ways to compile it", "why_tests_cant": "lengths that disagree with the data, nested in other lengths, cannot be enumerated", "anchors": ["doodle-formats/src/format/riff.rs:main", "src/helper.rs:record", "src/decoder.rs:Decoder::Slice"]}
{"id": "C72", "title": "The extra fields of gzip are decoded by their layout", "statement": "Decoding the extra field of a gzip header succeeds exactly on the inputs that begin with a length of two bytes and subfields that fill exactly so many bytes, each with two letters, a length and so many bytes of data; the value shows every subfield; no length in the input makes decoding panic or go on for ever, and the bytes are those of one extra field only.", "quantifier": "all inputs, all numbers and lengths of subfields, all modules that contain the format, all ways to compile it", "why_tests_cant": "lengths that disagree with the data, nested in another length, cannot be enumerated", "anchors": ["doodle-formats/src/format/gzip.rs:main", "src/helper.rs:record", "src/decoder.rs:Decoder::Slice"]}
{"id": "C73", "title": "TIFF headers are decoded by their layout", "statement": "Decoding a TIFF header succeeds exactly on inputs with the bytes II or MM, two bytes, an offset of four bytes, and a directory as far from the beginning of the header as the offset says: a number, so many entries of twelve bytes, and the place of the next directory; all numbers are read in the byte order that the first two bytes tell; the value shows the header, every entry of the directory and all bytes after it; only the eight bytes of the header are taken; no offset and no number makes decoding panic or go on for ever.", "quantifier": "all inputs, positions, byte orders, offsets and directories, all modules that contain the format, all ways to compile it", "why_tests_cant": "offsets may point anywhere, into the header or behind the file, in either byte order", "anchors": ["doodle-formats/src/format/tiff.rs:main", "doodle-formats/src/format/tiff.rs:ifd", "src/decoder.rs:Decoder::WithRelativeOffset", "src/decoder.rs:Decoder::Match"]}
{"id": "C74", "title": "Headers and trailers of gzip members are decoded by their layout", "statement": "A gzip header is decoded exactly when the input begins with 1F 8B and eight further bytes, with the reserved bits of the flags zero; the value shows every field, the five flags as the bits of their byte and the time as a number with the least significant byte first. A trailer is decoded exactly when eight bytes are left, and the value shows the checksum and the length. Decoding neither panics nor logs anything.", "quantifier": "all inputs and positions, all values of the fields and flags, all modules that contain the formats, all ways to compile them", "why_tests_cant": "there are 256 flag bytes and any fields around them, in any module; a check of reserved bits that is never made shows on no valid file", "anchors": ["doodle-formats/src/format/gzip.rs:main", "src/helper.rs:bit_fields_u8", "src/helper.rs:byte_seq", "src/decoder.rs:Decoder::parse"]}
{"id": "C75", "title": "Strings that end with a zero byte are decoded up to it", "statement": "A string that is to end with a zero byte is decoded exactly when there is a zero byte in the rest of the input: the bytes up to the first one are taken with it, and the value shows them without it. This holds of the names and comments of gzip members; the checksum of their headers is two bytes, the less significant first. Decoding them does not panic, logs nothing and comes to an end on every input.", "quantifier": "all inputs and positions, strings of all lengths, whatever comes after them, all ways to compile the formats", "why_tests_cant": "strings may have any length and contents, and the end of the loop is decided by a compiled lookahead", "anchors": ["src/helper.rs:asciiz_string", "src/helper.rs:not_byte", "doodle-formats/src/format/gzip.rs:main", "src/decoder.rs:Decoder::While"]}
{"id": "C76", "title": "The fields of gzip members are there exactly if their flags are set", "statement": "A gzip file is decoded as members, one after the other and one at least. Each consists of a header; of an extra field, a name, a comment and a checksum, in this order, each of them if its flag is set in that header and otherwise absent from the input and from the value; of the compressed data; and of a trailer. The value shows all of them.", "quantifier": "all files, all numbers of members, all combinations of flags, all formats for the data, all modules that contain the format, all ways to compile it", "why_tests_cant": "members may be repeated without limit, with any of 32 combinations of flags in each of them", "anchors": ["doodle-formats/src/format/gzip.rs:main", "src/helper.rs:record_lens", "src/helper.rs:cond_maybe", "src/decoder.rs:Decoder::Maybe"]}
