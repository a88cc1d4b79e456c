{
 "C01": {
  "note": "all constructors and operations, all bytes",
  "status": "proved"
 },
 "C02": {
  "note": "min_elem proved in full; max_elem, bounds and span are refuted with witnesses (source negates the lower words); the partial theorem covers sets with a member >= 0xC0",
  "status": "partial"
 },
 "C03": {
  "note": "sorted enumeration, extensionality, serialised form determines the set",
  "status": "proved"
 },
 "C04": {
  "note": "sound for exact/any/union/clamp/add/sub/mul/div/rem/shr/bitor; shl and bitand are refuted with witnesses and proved in the largest fragment where the code is right; word-size overflow cases stated (add_words, mul_words, bitOr_panics)",
  "status": "partial"
 },
 "C05": {
  "note": "all expressions and scopes except unsafe operand intervals of &, << and >>, for which the full claim is refuted with witnesses",
  "status": "partial"
 },
 "C06": {
  "note": "all reads, seeks, splits and any history of them stay in the window; split_at with a count near 2^64 overflows its overflow-checked sum (refuted witness)",
  "status": "partial"
 },
 "C07": {
  "note": "every decoder, program, scope, input and start position; compiled or not",
  "status": "proved"
 },
 "C08": {
  "note": "all formats without Permit whose sizes have sound expression bounds (C05); both exclusions refuted with witnesses",
  "status": "partial"
 },
 "C09": {
  "note": "all look-only formats keep the position; peek, peekNot, relative offset characterised by iff; failed-over permit in C16_permit",
  "status": "proved"
 },
 "C10": {
  "note": "exact consumption, two-run independence of everything after the slice, nested windows",
  "status": "proved"
 },
 "C11": {
  "note": "all formats; negative conditions (PeekNot, order of UnionNondet, Permit fallback) are witnessed by failing runs in general; outright derivation for formats without them; with 'no derivation' as the reading of rejection the claim is refuted (C11_peekNot_refuted)",
  "status": "partial"
 },
 "C12": {
  "note": "Proved for two classes of formats. Plain formats (Spec/Words, Spec/Regular): the tree selects the alternative that has a word unless another can begin with more of the input; every derivation without negative conditions that covers the whole input, or that cannot be extended by the next byte, is found by the compiled decoder, whose result is then unique; after success of a format that ends in a repetition the next byte begins no further element (C12_munch). Predictive formats (Spec/Predictive: one byte decides every choice; with data-dependent counts and conditions, lookahead, slices, alignment, offsets, calls): every derivation followed by the end of input or by a byte that may follow is found, and is unique (C12_predictive_partial, C12_predictive_unique_partial). The full claim is false of the code: C12_greedy_refuted, C12_item_refuted. Missing: negative lookahead, bits, dynamic formats, RepeatBetween, ReadArray; derivations that use a rejected earlier alternative.",
  "status": "partial"
 },
 "C13": {
  "note": "All formats, every iteration order of the hash sets: the choice depends on the next 80 bytes at most (C13_lookahead); no byte string leads two alternatives to acceptance (C13_unambiguous); at most one alternative is left after 80 bytes (C13_decided); the chosen alternative is viable, and is complete or the only viable one (C13_selected); an alternative that accepts is found unless another one could begin with more of the input (C13_found); and a tree is refused only if two alternatives both accept after the same bytes or both can begin with the same 80 bytes (C13_refused). For plain formats (shape determined by the bytes) also in terms of the words the formats describe (C13_words_*); a tree is built exactly if no two alternatives share a word or an 80-byte beginning of words (C13_words_built_iff). The derivative steps from_next/from_format are themselves proved exact for plain formats.",
  "status": "proved"
 },
 "C14": {
  "note": "Every compiled program whose loop bodies have right static bounds (no Permit/bit-and sizes in loop bodies) and whose condition-ended loops have non-nullable bodies ends on every input; at most as many items as bytes consumed for Repeat/Repeat1; fuel is not observable. Refuted in general: Repeat(Permit ..) and RepeatUntilLast over a format that consumes nothing are accepted and never return.",
  "status": "partial"
 },
 "C15": {
  "note": "count, until-last, until-seq, maybe characterised by iff; RepeatBetween returns lo..hi elements but always 0 or hi: keep-going part refuted, panic on too few refuted",
  "status": "partial"
 },
 "C16": {
  "note": "ordered choice and permit characterised by iff for ok and err",
  "status": "proved"
 },
 "C17": {
  "note": "no log entry lost or invented, first strict failure stops; evaluation order of the log is refuted for join/fold (most recent batch first)",
  "status": "partial"
 },
 "C18": {
  "note": "Proved for every field list in which no field takes the name of an earlier kept one; for other lists the kept name stands for the last field of that name (C18_last_binding, C18_rebind_refuted). Failures, scopes and record_auto labels are covered in full.",
  "status": "partial"
 },
 "C19": {
  "note": "Proved when the record made at the end lists exactly the kept fields in order under their own names, one field at least is kept and no name is both kept and temporary. Refuted for renamed, doubled, reordered and clashing fields; record formats that keep nothing cannot be flattened.",
  "status": "partial"
 },
 "C20": {
  "note": "values, views and decoders are three namespaces; lookup is innermost-first in each",
  "status": "proved"
 },
 "C21": {
  "note": "proved for expressions with no record field of the tested name; refuted for records with such a field",
  "status": "partial"
 },
 "C22": {
  "note": "Type soundness of evaluation for every expression whose accumulators do not change type (Kept, or the syntactic Plain); refuted in general: EnumFromTo items are usize, Numeric arithmetic leaves its range, projections out of fallback values are untyped, and the types of FlatMapAccum, LeftFold and FlatMapList bodies are not held to the annotation.",
  "status": "partial"
 },
 "C23": {
  "note": "Type soundness of format decoding, for derivations and for the compiled decoder, under side conditions (Kept; or TypePlain, readable off the text); the unrestricted statement is refuted four ways (Pos typed as an open numeric type, AccumUntil annotation and scope, item arguments unified and discarded).",
  "status": "partial"
 },
 "C24": {
  "note": "shape, bindings, order, first match proved; wrappers are looked through at the top only (nested case refuted), full property on values without inner wrappers",
  "status": "partial"
 },
 "C25": {
  "note": "C25_agree_partial: the two interpreters give the same outcome (value up to locations and written-out repeats, position, non-critical errors, failure, panic) for every program in which no construct treats wrapped values, numeric expressions, Permit or ranges differently; each restriction has a counterexample (C25_*_refuted). C25_consumed_partial / C25_buffer_partial: every recorded location lies in the consumed input / in the buffer when records are built from adjacent values and nothing is decoded from bits or computed bytes; counterexamples otherwise.",
  "status": "partial"
 },
 "C26": {
  "note": "Order, join, failure, commutativity, idempotence, associativity and preservation of values, for all well-formed types (unions in key order, which BTreeMap guarantees).",
  "status": "proved"
 },
 "C27": {
  "note": "refines lists for all operations; sub_range refuted off by one on repeated sequences; structural equality is not extensional (witness)",
  "status": "partial"
 },
 "C28": {
  "note": "sorted search finds a match iff present; unsorted finds the first",
  "status": "proved"
 },
 "C29": {
  "note": "slice_ext, extend_from_within_ext and interpreter inflate equal one-at-a-time copying for every distance and length",
  "status": "proved"
 },
 "C30": {
  "note": "for at most 65536 symbols with lengths at most 47 bits (no word wrap); empty table is a panic",
  "status": "proved"
 },
 "C31": {
  "note": "For every table the generated code accepts (at most 65536 symbols, lengths at most 47, with or without re-ordering by values) the code tables agree (C31_agree), the interpreter compiles a decoder, and in every stream that compiled decoder (lookahead tree and all) and the generated decoder read the same symbol and leave the same bits, or both fail (C31_decode). Refusals differ, refuted by C31_overfull_refuted: the generated code refuses every over-subscribed table (C31_refusal), the interpreter only those in which two symbols have the same code word (C31_interpreter_refuses_iff); for lengths 1,1,2 it decodes 00 to the third symbol.",
  "status": "partial"
 },
 "C32": {
  "note": "Proved for all histories in byte mode, and in bit mode for callers that check remaining(); C32_bits_refuted and C32_escape_refuted show that bit mode itself lets up to seven bits (then a byte) past the window.",
  "status": "partial"
 },
 "C33": {
  "note": "Peeks and seeks: proved for all well-bracketed histories. Alternations and negative lookaheads: proved when the abandoned branch holds no other open alternation or negative lookahead; C33_next_alt_refuted and C33_peek_not_refuted show the property false otherwise.",
  "status": "partial"
 },
 "C34": {
  "note": "Proved for all histories in byte mode and for careful histories in bit mode; C34_bits_refuted shows that reading bits past the slice makes closing it fail and lose every context.",
  "status": "partial"
 },
 "C35": {
  "note": "Bit order, boundary and agreement with the interpreter proved for all buffers and positions; C35_skip_refuted: skipping the remainder in bit mode makes leaving it fail.",
  "status": "partial"
 },
 "C36": {
  "note": "add/sub/mul, widening and unsigned negation, widening abs and all casts exact for every row of the helper tables; MIN / -1, MIN % -1, type-preserving negation of MIN refuted with witnesses, abs of MIN panics when overflow checks are on",
  "status": "partial"
 },
 "C37": {
  "note": "proved for all 64 concrete pairs and all values, with uniqueness; from the abstract Auto representation the source performs no reduction (refuted)",
  "status": "partial"
 },
 "C38": {
  "note": "is_superset, encompasses, is_representable, contains, unify, as_usize, get_as_unsized",
  "status": "proved"
 },
 "C39": {
  "note": "all trees, all scopes; panics of bitwise casts coincide as well",
  "status": "proved"
 },
 "C40": {
  "note": "All clauses for rank vectors of every size and for the sets of unsigned and of machine types (bounds need min <= max). Beyond the statement: unifying an unsigned set with bool/char aborts instead of failing, unifying disjoint sets succeeds with an empty set, and the chosen type depends on how intersections are grouped (refuted by witnesses).",
  "status": "proved"
 },
 "C41": {
  "note": "Inference and elaboration of every numeric expression: no assertion fails, and they succeed exactly when there is one typing, which they return. Evaluation agrees with the types. C41_self_refuted records that a variable equated with itself, which inference never does, would loop.",
  "status": "proved"
 },
 "C42": {
  "note": "Stability and existence of names hold for every history. Uniqueness is refuted for labels that imitate the __dupX suffix, and for two declarations met at one place; proved for labels without dupX (C42_unique_partial) and, for declarations and the final renaming, when no two declarations share a place. C42_collision states exactly which raw names can collide.",
  "status": "partial"
 },
 "C43": {
  "note": "Full characterisation at token level: every printed expression reads as its regrouping to the left, two expressions collide iff their regroupings agree, and exactly the left-leaning ones read back. The property itself is refuted (a - (b - c)), and the concrete text adds a further collision (abs x / absx).",
  "status": "partial"
 },
 "C44": {
  "note": "index returned by push reads back the pushed item after any later pushes",
  "status": "proved"
 },
 "C45": {
  "note": "flat-map, append-flat-map, fold, fold-map, search, endian helpers, repeat-between decision",
  "status": "proved"
 },
 "C46": {
  "note": "Reading back proved for tame trees, and value agreement for tame expressions without overflow checks (with checks: without shifts); refuted in general for nested same-class division and shifts, logical operands of comparisons, chained comparisons. Leaves (calls, names, projections) are opaque; matches and blocks inside operators are not modelled.",
  "status": "partial"
 },
 "C47": {
  "note": "Advance, align, jump and skip-remainder proved for byte-mode cursors of reachable parsers (alignment also in bit mode); reported position is a valid jump target only outside views (C47_position_partial), refuted inside a view; alignment 0 panics.",
  "status": "partial"
 },
 "C48": {
  "note": "Proved (with converse: a panic iff a fault) for scopes and expressions without Numeric values, usize/range values and fallback values, under the side conditions of type soundness; wrapped components (Branch/Mapped inside a tuple) are listed as faults. Refuted for Numeric operands mixed with machine integers and for folds over ranges.",
  "status": "partial"
 },
 "C49": {
  "note": "Proved for the type checker's table. The copy for numeric inference has one assertion on the wrong variable: refuted in general, proved when requests name the younger variable first (and C41 shows that inference never meets it).",
  "status": "partial"
 },
 "C50": {
  "note": "Agreement in both directions is proved for the fragment of Spec/Gen (most constructs, in context, including Huffman codes with lengths that do not depend on the input and, for values, repetitions of at least one element whose first byte shows that an element follows); full agreement is refuted by sixteen compiled witness programs, one or more per restriction. Not in the fragment: loops that ask a match tree at the end of input or count between bounds, decoding from byte vectors, Huffman codes with lengths read from the input, Permit.",
  "status": "partial"
 },
 "C51": {
  "note": "Proved for every list of fields in which no field is empty or the whole word, for words of 8 and 16 bits and every place in a format: the record has exactly the named fields with their bits. The width check is proved. Refuted: segments declared zero are not checked; a whole-word field cannot be made (panic); an empty first field compiles and panics on every byte.",
  "status": "partial"
 },
 "C52": {
  "note": "Proved for all widths, byte orders, inputs and places in a format; signed integers in the big-endian order the helpers provide.",
  "status": "proved"
 },
 "C53": {
  "note": "Proved for all inner formats, scopes and operands, with the exceptions that are refuted: an expected value or test that uses a name the helper binds (actual, x, any, tuple_var) is captured, so one test of any element inside another compares elements of the same list; a sequence of 2^32 elements has no first or last element; a value that is no integer is outside every interval without an error.",
  "status": "partial"
 },
 "C54": {
  "note": "For every text and every input: soundness in any module that contains the text items (C54_sound, C54_zsound), completeness, termination, absence of panics and the exact characterisation for the module that consists of the text items (C54_whole, C54_stops, C54_exact).",
  "status": "proved"
 },
 "C55": {
  "note": "All formats and inputs, under Spec/Safe, a condition on the values of reached expressions. Repetition between two bounds is only covered with the lower bound zero: with another one the decoder panics on bad input (C55_between_refuted).",
  "status": "partial"
 },
 "C56": {
  "note": "Proved for every history of requests whose types do not contain Hole or Empty, for all hash orders and recursion depths. With Hole or Empty the claim is refuted, an accepted history need not have a solution (cyclic types), and mismatches in projections panic instead of being reported; witnesses given. The Rust error payloads are not modelled.",
  "status": "partial"
 },
 "C57": {
  "note": "proved for every expression whose annotations contain no Any/Empty/numeric hole, outside the refuted cases: fields of records that mention earlier labels, sequence lengths (U32 at run time, any width in the type), ranges and untamed numeric constants unless allowed by the reading of types; infinite types and unions in annotated tuples refuted",
  "status": "partial"
 },
 "C58": {
  "note": "Type checking of formats is sound: if typecheck finds a type for a format then everything it derives, and everything its compiled program returns, has that type (C58_typecheck_partial, C58_decode_partial), for formats and items without Fail, Pos and dynamic formats and with annotations without unions, when the collected requirements can be met; that is the case exactly if no type is infinite and no set of machine types is empty (C58_solvable), the first of which the occurs check establishes (C58_occurs). Types are read off consistently with one solution (C58_read). Refuted: Fail, Pos, calls with further alternatives, panics instead of errors, unused items with parameters. Missing: the excluded formats, and that errors are justified.",
  "status": "partial"
 },
 "C59": {
  "note": "Proved: for typed formats without the shapes refuted below (Fit), if both compilers accept then both programs of decoders give exactly the same outcome for every input and step limit, with any extra roots and any iteration order of the hash tables. Proved: the code generator's compiler accepts, and ends with a program, whatever the interpreter's compiler accepts (for Fit and Usual formats); counts made by adding and multiplying have the same bounds in both. Refuted: optional formats (compiled with or without what follows), Align(1) in what follows, phantoms whose inner format does not compile, casts in static bounds (panic, refusal), PeekNot(SkipRemainder), panics on Align(0) / root Fail. Not covered: formats with an empty byte set, variants of Fail, that the interpreter's compiler accepts what the code generator's accepts; printing the program as Rust.",
  "status": "partial"
 },
 "C60": {
  "note": "C60_compiles says exactly when the code has the type of the expression; C60_sound, C60_complete_partial and C60_iff_partial compare its value with exact computation, C60_eval_partial and C60_agree_partial with the interpreter. Refuted: signatures without helpers (C60_compiles_refuted), negation of the least number without overflow checks (C60_unchecked_refuted), the remainder of the least number by -1 and its absolute value (C60_complete_refuted), intermediate results (C60_intermediate_refuted) and remainders by negative numbers (C60_remainder_refuted), where interpreter and code differ.",
  "status": "partial"
 },
 "C61": {
  "note": "Proved for formats within the limits of C59 (Fit) and C50 (ProgramOk): no Huffman code lengths read from the input, no Permit, no loops decided by a tree that accepts the end of input.",
  "status": "partial"
 },
 "C62": {
  "note": "The numbers format is settled: decoding ends on every input without a panic, and succeeds exactly on documents that run to the end of input or to a byte that announces no entry, with the entries as value. For run-length data: what the format derives, in both directions; what is decoded is a document and its expansion; no panic; an end on every input; every document that is the whole input is decoded to its expansion (C62_rle_complete); that inputs with an incomplete run are refused is not proved. For unary numbers: what the format derives, in both directions, and soundness of decoding; completeness is refuted, the decoder only reads none or nine strokes. For the marked place: refuted, a place inside the header makes decoding panic.",
  "status": "partial"
 },
 "C63": {
  "note": "Proved for every set that has a byte from 192 up or lacks 191, in release builds or if one of the bytes 252 to 255 is missing: the printed pieces stand for exactly the bytes of the set, so sets printed alike are equal; release builds never panic; with overflow checks a set with the bytes 252 to 255 panics iff it is not a range. Refuted outside: two sets with top byte 190/191 print alike, the set of all bytes but line feed and the range 0x80..=0xBF panic with overflow checks. The claim is about the pieces; that the text of a list of pieces determines the pieces is not proved.",
  "status": "partial"
 },
 "C64": {
  "note": "One theorem for each operator of expressions.  Taking a stretch of a range of numbers up to its end fails although it lies inside (C27_subRange_refuted), and the length of a sequence is taken modulo 2^32: both are in the statements.",
  "status": "proved"
 },
 "C65": {
  "note": "Proved: the table of answers changes no answer (any definitions, any history, one strategy); Copy is given exactly where Rust's rule allows; rounding; sizes and alignments; boxing does not panic without an Option directly inside an Option. Refuted: Copy from a definition alone misses some; sizes overflow; a nested Option panics; the layouts told for Option, for boxed variants and for references to slices are too small; one table for two strategies.",
  "status": "partial"
 },
 "C66": {
  "note": "False as stated: chains of operators of one class lose their grouping (C66_chain_refuted, C66_sub_refuted with values). For typed expressions C66_read says exactly what is read, C66_exact when it is the expression printed, and C66_collisions which expressions are confused; compound numeric expressions as leaves are excluded (C66_numeric_refuted). Layout, elided parts and the text of arguments are not modelled.",
  "status": "partial"
 },
 "C67": {
  "note": "Proved for every fragment and history, but two documented promises fail and are refuted with witnesses: an atom whose own text has a newline is said to fit inline (C67_inline_refuted; proved for atoms without newlines, C67_inline_partial, C67_single_line_partial), and a line followed by a fragment that shows nothing is not said to be a single line (C67_single_line_refuted).",
  "status": "partial"
 },
 "C68": {
  "note": "Proved for the views compile_value builds without formats, of all values whose labels have no newline and given texts of numbers and characters without newlines (hypotheses PlainLabels, Texts.Plain); C68_newline_refuted shows that labels with newlines break it, C68_hidden_refuted that hidden fields influence how a variant around the record is drawn. Missing: views driven by formats or with locations.",
  "status": "partial"
 },
 "C69": {
  "note": "Totality is proved for formats whose record hints are around records with distinct field names, and in which what is negated or permitted to fail is not looked at by the listing; permitted and negated parts are refuted in general. Titled items behind functions and conditions are accepted by the check but never listed (refuted). Missing: the table of titles.",
  "status": "partial"
 },
 "C70": {
  "note": "Whether a width varies for a dynamic reason depends on the order of variants (refuted). Nothing is assumed of the bytes of truth values, characters, words, options, sequences and views. Missing: the table of answers, and that formats of a type read nothing beside its parts.",
  "status": "partial"
 },
 "C71": {
  "note": "Formats added after the module's other items are covered; names of items are not modelled.",
  "status": "proved"
 },
 "C72": {
  "note": "Covers the extra field where it is called, in any module; the rest of gzip is not modelled.",
  "status": "proved"
 },
 "C73": {
  "note": "Exactly the headers with a directory at their offset are decoded.",
  "status": "proved"
 },
 "C74": {
  "note": "Headers and trailers are decoded exactly by their layout, without panics; the check of reserved bits that the format asks for is refuted: headers with reserved bits set are decoded without an error.",
  "status": "partial"
 },
 "C75": {
  "note": "Strings up to a zero byte, and the name, comment and checksum of gzip headers, are decoded exactly; soundness and safety in any module, completeness and termination in the module of these items.",
  "status": "proved"
 },
 "C76": {
  "note": "The derivations of the format are described exactly, for any format of the data; decoded files are members of this shape. Missing: that decoders find every such file (it depends on the format of the data), and that they leave nothing after the subfields of an extra field (proved of the extra field by itself, C72).",
  "status": "partial"
 }
}