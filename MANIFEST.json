{
 "claims": [
  {
   "property": "C01",
   "status": "proved",
   "theorems": [
    "Doodle.ByteSet.C01_contains_empty",
    "Doodle.ByteSet.C01_contains_full",
    "Doodle.ByteSet.C01_contains_singleton",
    "Doodle.ByteSet.C01_contains_insert",
    "Doodle.ByteSet.C01_contains_remove",
    "Doodle.ByteSet.C01_contains_union",
    "Doodle.ByteSet.C01_contains_intersection",
    "Doodle.ByteSet.C01_contains_difference",
    "Doodle.ByteSet.C01_contains_complement",
    "Doodle.ByteSet.C01_contains_fromIter",
    "Doodle.ByteSet.C01_contains_fromRangeInclusive",
    "Doodle.ByteSet.C01_contains_fromRange",
    "Doodle.ByteSet.C01_ext",
    "Doodle.ByteSet.C01_isEmpty",
    "Doodle.ByteSet.C01_isFull",
    "Doodle.ByteSet.C01_isDisjoint",
    "Doodle.ByteSet.C01_len"
   ],
   "note": "all constructors and operations, all bytes"
  },
  {
   "property": "C02",
   "status": "partial",
   "theorems": [
    "Doodle.ByteSet.C02_minElem_some",
    "Doodle.ByteSet.C02_minElem_none",
    "Doodle.ByteSet.C02_maxElem_refuted",
    "Doodle.ByteSet.C02_maxElem_singleton_wrong",
    "Doodle.ByteSet.C02_maxElem_partial",
    "Doodle.ByteSet.C02_span_panics",
    "Doodle.ByteSet.C02_bounds_panics",
    "Doodle.ByteSet.C02_findEnclosingRange",
    "Doodle.ByteSet.C02_findEnclosingRange_none",
    "Doodle.ByteSet.C02_containsRange"
   ],
   "note": "min_elem proved in full; max_elem, bounds and span are refuted with witnesses (source negates the lower words); the partial theorem covers sets with a member >= 0xC0"
  },
  {
   "property": "C03",
   "status": "proved",
   "theorems": [
    "Doodle.ByteSet.C03_allBytes",
    "Doodle.ByteSet.C03_iter_mem",
    "Doodle.ByteSet.C03_iter_sorted",
    "Doodle.ByteSet.C03_iter_length",
    "Doodle.ByteSet.C03_roundtrip",
    "Doodle.ByteSet.C03_serialize_roundtrip"
   ],
   "note": "sorted enumeration, extensionality, serialised form determines the set"
  },
  {
   "property": "C04",
   "status": "partial",
   "theorems": [
    "Doodle.Bounds.C04_contains",
    "Doodle.Bounds.C04_exact",
    "Doodle.Bounds.C04_any",
    "Doodle.Bounds.C04_asExact",
    "Doodle.Bounds.C04_union_left",
    "Doodle.Bounds.C04_union_right",
    "Doodle.Bounds.C04_union_least",
    "Doodle.Bounds.C04_clamp",
    "Doodle.Bounds.C04_bitsToBytes",
    "Doodle.Bounds.C04_add",
    "Doodle.Bounds.C04_sub",
    "Doodle.Bounds.C04_mul",
    "Doodle.Bounds.C04_div",
    "Doodle.Bounds.C04_rem",
    "Doodle.Bounds.C04_shr",
    "Doodle.Bounds.C04_shl_refuted",
    "Doodle.Bounds.C04_shl_partial",
    "Doodle.Bounds.C04_bitOr",
    "Doodle.Bounds.C04_bitOr_ok",
    "Doodle.Bounds.C04_bitOr_panics",
    "Doodle.Bounds.C04_bitOr_no_panic",
    "Doodle.Bounds.C04_bitAnd_refuted",
    "Doodle.Bounds.C04_bitAnd_partial",
    "Doodle.Bounds.C04_add_words",
    "Doodle.Bounds.C04_mul_words"
   ],
   "note": "sound for exact/any/union/clamp/add/sub/mul/div/rem/shr/bitor; shl and bitand are refuted with witnesses and proved in the largest fragment where the code is right; word-size overflow cases stated (add_words, mul_words, bitOr_panics)"
  },
  {
   "property": "C05",
   "status": "partial",
   "theorems": [
    "Doodle.C05_bounds_partial",
    "Doodle.C05_shl_refuted",
    "Doodle.C05_shr_refuted",
    "Doodle.C05_bitAnd_refuted"
   ],
   "note": "all expressions and scopes except unsafe operand intervals of &, << and >>, for which the full claim is refuted with witnesses"
  },
  {
   "property": "C06",
   "status": "partial",
   "theorems": [
    "Doodle.ReadCtxt.C06_new",
    "Doodle.ReadCtxt.C06_remaining",
    "Doodle.ReadCtxt.C06_readByte",
    "Doodle.ReadCtxt.C06_readBe_none",
    "Doodle.ReadCtxt.C06_readBe",
    "Doodle.ReadCtxt.C06_splitAt",
    "Doodle.ReadCtxt.C06_splitAt_overflow_refuted",
    "Doodle.ReadCtxt.C06_seekTo",
    "Doodle.ReadCtxt.C06_history",
    "Doodle.ReadCtxt.C06_split_confined"
   ],
   "note": "all reads, seeks, splits and any history of them stay in the window; split_at with a count near 2^64 overflows its overflow-checked sum (refuted witness)"
  },
  {
   "property": "C07",
   "status": "proved",
   "theorems": [
    "Doodle.C07_forward",
    "Doodle.C07_run"
   ],
   "note": "every decoder, program, scope, input and start position; compiled or not"
  },
  {
   "property": "C08",
   "status": "partial",
   "theorems": [
    "Doodle.C08_grammar_partial",
    "Doodle.C08_run_partial",
    "Doodle.C08_notNullable_partial",
    "Doodle.C08_permit_refuted",
    "Doodle.C08_size_refuted"
   ],
   "note": "all formats without Permit whose sizes have sound expression bounds (C05); both exclusions refuted with witnesses"
  },
  {
   "property": "C09",
   "status": "proved",
   "theorems": [
    "Doodle.C09_stays",
    "Doodle.C09_peek",
    "Doodle.C09_peekNot",
    "Doodle.C09_limit",
    "Doodle.C09_relative"
   ],
   "note": "all look-only formats keep the position; peek, peekNot, relative offset characterised by iff; failed-over permit in C16_permit"
  },
  {
   "property": "C10",
   "status": "proved",
   "theorems": [
    "Doodle.C10_exact",
    "Doodle.C10_confined",
    "Doodle.C10_nested"
   ],
   "note": "exact consumption, two-run independence of everything after the slice, nested windows"
  },
  {
   "property": "C11",
   "status": "partial",
   "theorems": [
    "Doodle.C11_sound_partial",
    "Doodle.C11_sound_definite",
    "Doodle.C11_peekNot_refuted"
   ],
   "note": "all formats; negative conditions (PeekNot, order of UnionNondet, Permit fallback) are witnessed by failing runs in general; outright derivation for formats without them; with 'no derivation' as the reading of rejection the claim is refuted (C11_peekNot_refuted)"
  },
  {
   "property": "C12",
   "status": "partial",
   "theorems": [
    "Doodle.C12_selects_whole",
    "Doodle.C12_selects_partial",
    "Doodle.C12_whole_partial",
    "Doodle.C12_complete_partial",
    "Doodle.C12_unique_partial",
    "Doodle.C12_greedy_refuted",
    "Doodle.C12_item_refuted",
    "Doodle.C12_munch",
    "Doodle.Predictive.C12_predictive_partial",
    "Doodle.Predictive.C12_predictive_unique_partial",
    "Doodle.C12_item_next"
   ],
   "note": "Proved for two classes of formats. Plain formats (Spec/Words, Spec/Regular): the tree selects the alternative that has a word unless another can begin with more of the input; every derivation without negative conditions that covers the whole input, or that cannot be extended by the next byte, is found by the compiled decoder, whose result is then unique; after success of a format that ends in a repetition the next byte begins no further element (C12_munch). Predictive formats (Spec/Predictive: one byte decides every choice; with data-dependent counts and conditions, lookahead, slices, alignment, offsets, calls): every derivation followed by the end of input or by a byte that may follow is found, and is unique (C12_predictive_partial, C12_predictive_unique_partial). The full claim is false of the code: C12_greedy_refuted, C12_item_refuted. Missing: negative lookahead, bits, dynamic formats, RepeatBetween, ReadArray; derivations that use a rejected earlier alternative."
  },
  {
   "property": "C13",
   "status": "proved",
   "theorems": [
    "Doodle.C13_lookahead",
    "Doodle.C13_unambiguous",
    "Doodle.C13_decided",
    "Doodle.C13_selected",
    "Doodle.C13_found",
    "Doodle.C13_refused",
    "Doodle.C13_words_disjoint",
    "Doodle.C13_words_within_80",
    "Doodle.C13_words_built_iff",
    "Doodle.C13_words_selected"
   ],
   "note": "All formats, every iteration order of the hash sets: the choice depends on the next 80 bytes at most (C13_lookahead); no byte string leads two alternatives to acceptance (C13_unambiguous); at most one alternative is left after 80 bytes (C13_decided); the chosen alternative is viable, and is complete or the only viable one (C13_selected); an alternative that accepts is found unless another one could begin with more of the input (C13_found); and a tree is refused only if two alternatives both accept after the same bytes or both can begin with the same 80 bytes (C13_refused). For plain formats (shape determined by the bytes) also in terms of the words the formats describe (C13_words_*); a tree is built exactly if no two alternatives share a word or an 80-byte beginning of words (C13_words_built_iff). The derivative steps from_next/from_format are themselves proved exact for plain formats."
  },
  {
   "property": "C14",
   "status": "partial",
   "theorems": [
    "Doodle.C14_fuel",
    "Doodle.C14_terminates_partial",
    "Doodle.C14_repeat_partial",
    "Doodle.C14_repeat1_partial",
    "Doodle.C14_permit_refuted",
    "Doodle.C14_until_refuted"
   ],
   "note": "Every compiled program whose loop bodies have right static bounds (no Permit/bit-and sizes in loop bodies) and whose condition-ended loops have non-nullable bodies ends on every input; at most as many items as bytes consumed for Repeat/Repeat1; fuel is not observable. Refuted in general: Repeat(Permit ..) and RepeatUntilLast over a format that consumes nothing are accepted and never return."
  },
  {
   "property": "C15",
   "status": "partial",
   "theorems": [
    "Doodle.C15_count",
    "Doodle.C15_untilLast",
    "Doodle.C15_untilSeq",
    "Doodle.C15_between_partial",
    "Doodle.C15_between_refuted",
    "Doodle.C15_between_panics",
    "Doodle.C15_maybe",
    "Doodle.C15_between_full",
    "Doodle.C15_between_none"
   ],
   "note": "count, until-last, until-seq, maybe characterised by iff; RepeatBetween returns lo..hi elements but always 0 or hi: keep-going part refuted, panic on too few refuted"
  },
  {
   "property": "C16",
   "status": "proved",
   "theorems": [
    "Doodle.C16_permit",
    "Doodle.C16_unionNondet"
   ],
   "note": "ordered choice and permit characterised by iff for ok and err"
  },
  {
   "property": "C17",
   "status": "partial",
   "theorems": [
    "Doodle.C17_enforce",
    "Doodle.C17_where",
    "Doodle.WithErr.C17_new",
    "Doodle.WithErr.C17_map",
    "Doodle.WithErr.C17_intoStrict",
    "Doodle.WithErr.C17_hasErrs",
    "Doodle.WithErr.C17_lift",
    "Doodle.WithErr.C17_fold_order_refuted",
    "Doodle.WithErr.C17_fold_partial",
    "Doodle.WithErr.C17_fold_perm",
    "Doodle.WithErr.C17_fold_stop",
    "Doodle.WithErr.C17_fold_total",
    "Doodle.WithErr.C17_join_partial",
    "Doodle.WithErr.C17_join_assoc",
    "Doodle.WithErr.C17_downgrade"
   ],
   "note": "no log entry lost or invented, first strict failure stops; evaluation order of the log is refuted for join/fold (most recent batch first)"
  },
  {
   "property": "C18",
   "status": "partial",
   "theorems": [
    "Doodle.Record.C18_fields_partial",
    "Doodle.Record.C18_last_binding",
    "Doodle.Record.C18_failure",
    "Doodle.Record.C18_chaining",
    "Doodle.Record.C18_scope",
    "Doodle.Record.C18_rebind_refuted",
    "Doodle.Record.C18_auto",
    "Doodle.Record.C18_auto_refuted"
   ],
   "note": "Proved for every field list in which no field takes the name of an earlier kept one; for other lists the kept name stands for the last field of that name (C18_last_binding, C18_rebind_refuted). Failures, scopes and record_auto labels are covered in full."
  },
  {
   "property": "C19",
   "status": "partial",
   "theorems": [
    "Doodle.Record.C19_rebuild_partial",
    "Doodle.Record.C19_identity_partial",
    "Doodle.Record.C19_merge_partial",
    "Doodle.Record.C19_remap",
    "Doodle.Record.C19_renamed_refuted",
    "Doodle.Record.C19_doubled_refuted",
    "Doodle.Record.C19_order_refuted",
    "Doodle.Record.C19_clash_refuted",
    "Doodle.Record.C19_empty_refuted",
    "Doodle.Record.C19_lookup"
   ],
   "note": "Proved when the record made at the end lists exactly the kept fields in order under their own names, one field at least is kept and no name is both kept and temporary. Refuted for renamed, doubled, reordered and clashing fields; record formats that keep nothing cannot be flattened."
  },
  {
   "property": "C20",
   "status": "proved",
   "theorems": [
    "Doodle.C20_value",
    "Doodle.C20_value_none",
    "Doodle.C20_view",
    "Doodle.C20_decoder",
    "Doodle.C20_eval_var",
    "Doodle.C20_frame"
   ],
   "note": "values, views and decoders are three namespaces; lookup is innermost-first in each"
  },
  {
   "property": "C21",
   "status": "partial",
   "theorems": [
    "Doodle.C21_unaffected_partial",
    "Doodle.C21_rebind_partial",
    "Doodle.C21_exact_partial",
    "Doodle.C21_record_refuted"
   ],
   "note": "proved for expressions with no record field of the tested name; refuted for records with such a field"
  },
  {
   "property": "C22",
   "status": "partial",
   "theorems": [
    "Doodle.C22_eval_partial",
    "Doodle.C22_plain_partial",
    "Doodle.C22_wf_partial",
    "Doodle.C22_enum_refuted",
    "Doodle.C22_numeric_refuted",
    "Doodle.C22_fallback_refuted",
    "Doodle.C22_flatMapAccum_refuted",
    "Doodle.C22_leftFold_refuted",
    "Doodle.C22_flatMapList_refuted",
    "Doodle.C22_char_pattern_panics"
   ],
   "note": "Type soundness of evaluation for every expression whose accumulators do not change type (Kept, or the syntactic Plain); refuted in general: EnumFromTo items are usize, Numeric arithmetic leaves its range, projections out of fallback values are untyped, and the types of FlatMapAccum, LeftFold and FlatMapList bodies are not held to the annotation."
  },
  {
   "property": "C23",
   "status": "partial",
   "theorems": [
    "Doodle.C23_derivation_partial",
    "Doodle.C23_wf_partial",
    "Doodle.C23_decode_partial",
    "Doodle.C23_plain_partial",
    "Doodle.C23_extension",
    "Doodle.C23_pos_refuted",
    "Doodle.C23_accumUntil_refuted",
    "Doodle.C23_accumUntil_scope_refuted",
    "Doodle.C23_argument_refuted"
   ],
   "note": "Type soundness of format decoding, for derivations and for the compiled decoder, under side conditions (Kept; or TypePlain, readable off the text); the unrestricted statement is refuted four ways (Pos typed as an open numeric type, AccumUntil annotation and scope, item arguments unified and discarded)."
  },
  {
   "property": "C24",
   "status": "partial",
   "theorems": [
    "Doodle.C24_matches_partial",
    "Doodle.C24_deterministic",
    "Doodle.C24_binders",
    "Doodle.C24_shadows",
    "Doodle.C24_first_match",
    "Doodle.C24_nested_wrappers_refuted",
    "Doodle.C24_plain_partial"
   ],
   "note": "shape, bindings, order, first match proved; wrappers are looked through at the top only (nested case refuted), full property on values without inner wrappers"
  },
  {
   "property": "C25",
   "status": "partial",
   "theorems": [
    "Doodle.Loc.C25_agree_partial",
    "Doodle.Loc.C25_wrapped_refuted",
    "Doodle.Loc.C25_forEach_refuted",
    "Doodle.Loc.C25_letWrapped_refuted",
    "Doodle.Loc.C25_emptyRecord_refuted",
    "Doodle.Loc.C25_permit_refuted",
    "Doodle.Loc.C25_numeric_refuted",
    "Doodle.Loc.C25_rangeChar_refuted",
    "Doodle.Loc.C25_rangeFold_refuted",
    "Doodle.Loc.C25_dup_refuted",
    "Doodle.Loc.C25_consumed_partial",
    "Doodle.Loc.C25_buffer_partial",
    "Doodle.Loc.C25_recordLocation_refuted",
    "Doodle.Loc.C25_doubledField_refuted",
    "Doodle.Loc.C25_bitsLocation_refuted",
    "Doodle.Loc.C25_peekLocation_refuted",
    "Doodle.Loc.C25_untilSeqLocation_refuted"
   ],
   "note": "C25_agree_partial: the two interpreters give the same outcome (value up to locations and written-out repeats, position, non-critical errors, failure, panic) for every program in which no construct treats wrapped values, numeric expressions, Permit or ranges differently; each restriction has a counterexample (C25_*_refuted). C25_consumed_partial / C25_buffer_partial: every recorded location lies in the consumed input / in the buffer when records are built from adjacent values and nothing is decoded from bits or computed bytes; counterexamples otherwise."
  },
  {
   "property": "C26",
   "status": "proved",
   "theorems": [
    "Doodle.ValueType.C26_order",
    "Doodle.ValueType.C26_join",
    "Doodle.ValueType.C26_fails",
    "Doodle.ValueType.C26_comm",
    "Doodle.ValueType.C26_idem",
    "Doodle.ValueType.C26_any",
    "Doodle.ValueType.C26_assoc",
    "Doodle.ValueType.C26_values"
   ],
   "note": "Order, join, failure, commutativity, idempotence, associativity and preservation of values, for all well-formed types (unions in key order, which BTreeMap guarantees)."
  },
  {
   "property": "C27",
   "status": "partial",
   "theorems": [
    "Doodle.SeqKind.C27_denotes_unique",
    "Doodle.SeqKind.C27_len",
    "Doodle.SeqKind.C27_isEmpty",
    "Doodle.SeqKind.C27_intoVec",
    "Doodle.SeqKind.C27_get",
    "Doodle.SeqKind.C27_index",
    "Doodle.SeqKind.C27_subSeq",
    "Doodle.SeqKind.C27_append",
    "Doodle.SeqKind.C27_eq_not_extensional",
    "Doodle.C27_subRange_refuted",
    "Doodle.C27_subRange_partial"
   ],
   "note": "refines lists for all operations; sub_range refuted off by one on repeated sequences; structural equality is not extensional (witness)"
  },
  {
   "property": "C28",
   "status": "proved",
   "theorems": [
    "Doodle.C28_sorted",
    "Doodle.C28_unsorted",
    "Doodle.C28_unsorted_first"
   ],
   "note": "sorted search finds a match iff present; unsorted finds the first"
  },
  {
   "property": "C29",
   "status": "proved",
   "theorems": [
    "Doodle.Prelude.C29_sliceExt",
    "Doodle.Prelude.C29_extendFromWithinExt",
    "Doodle.Prelude.C29_interpreter",
    "Doodle.Prelude.C29_interpreter_range",
    "Doodle.Prelude.C29_start_past_end"
   ],
   "note": "slice_ext, extend_from_within_ext and interpreter inflate equal one-at-a-time copying for every distance and length"
  },
  {
   "property": "C30",
   "status": "proved",
   "theorems": [
    "Doodle.Huffman.C30_codes_canonical",
    "Doodle.Huffman.C30_first",
    "Doodle.Huffman.C30_next",
    "Doodle.Huffman.C30_prefix_free",
    "Doodle.Huffman.C30_construct",
    "Doodle.Huffman.C30_decode",
    "Doodle.Huffman.C30_empty_panics"
   ],
   "note": "for at most 65536 symbols with lengths at most 47 bits (no word wrap); empty table is a panic"
  },
  {
   "property": "C31",
   "status": "partial",
   "theorems": [
    "Doodle.Huffman.C31_agree",
    "Doodle.Huffman.C31_refusal",
    "Doodle.Huffman.C31_reorder",
    "Doodle.Huffman.C31_interpreter_refuses_iff",
    "Doodle.Huffman.C31_decode",
    "Doodle.Huffman.C31_overfull_refuted"
   ],
   "note": "For every table the generated code accepts (at most 65536 symbols, lengths at most 47, with or without re-ordering by values) the code tables agree (C31_agree), the interpreter compiles a decoder, and in every stream that compiled decoder (lookahead tree and all) and the generated decoder read the same symbol and leave the same bits, or both fail (C31_decode). Refusals differ, refuted by C31_overfull_refuted: the generated code refuses every over-subscribed table (C31_refusal), the interpreter only those in which two symbols have the same code word (C31_interpreter_refuses_iff); for lengths 1,1,2 it decodes 00 to the third symbol."
  },
  {
   "property": "C32",
   "status": "partial",
   "theorems": [
    "Doodle.Rt.C32_window_partial",
    "Doodle.Rt.C32_window",
    "Doodle.Rt.C32_read",
    "Doodle.Rt.C32_remaining",
    "Doodle.Rt.C32_bits_refuted",
    "Doodle.Rt.C32_escape_refuted",
    "Doodle.Rt.C32_jump_limit",
    "Doodle.Rt.C32_seek_limit"
   ],
   "note": "Proved for all histories in byte mode, and in bit mode for callers that check remaining(); C32_bits_refuted and C32_escape_refuted show that bit mode itself lets up to seven bits (then a byte) past the window."
  },
  {
   "property": "C33",
   "status": "partial",
   "theorems": [
    "Doodle.Rt.C33_peek",
    "Doodle.Rt.C33_seek",
    "Doodle.Rt.C33_next_alt_partial",
    "Doodle.Rt.C33_peek_not_partial",
    "Doodle.Rt.C33_next_alt_refuted",
    "Doodle.Rt.C33_peek_not_refuted"
   ],
   "note": "Peeks and seeks: proved for all well-bracketed histories. Alternations and negative lookaheads: proved when the abandoned branch holds no other open alternation or negative lookahead; C33_next_alt_refuted and C33_peek_not_refuted show the property false otherwise."
  },
  {
   "property": "C34",
   "status": "partial",
   "theorems": [
    "Doodle.Rt.C34_open",
    "Doodle.Rt.C34_close",
    "Doodle.Rt.C34_read_past",
    "Doodle.Rt.C34_bits_refuted"
   ],
   "note": "Proved for all histories in byte mode and for careful histories in bit mode; C34_bits_refuted shows that reading bits past the slice makes closing it fail and lose every context."
  },
  {
   "property": "C35",
   "status": "partial",
   "theorems": [
    "Doodle.Rt.C35_reads",
    "Doodle.Rt.C35_interpreter",
    "Doodle.Rt.C35_escape",
    "Doodle.Rt.C35_interpreter_escape",
    "Doodle.Rt.C35_skip_refuted"
   ],
   "note": "Bit order, boundary and agreement with the interpreter proved for all buffers and positions; C35_skip_refuted: skipping the remainder in bit mode makes leaving it fail."
  },
  {
   "property": "C36",
   "status": "partial",
   "theorems": [
    "Doodle.Num.C36_add_sub_mul",
    "Doodle.Num.C36_div_rem_partial",
    "Doodle.Num.C36_div_rem_refuted",
    "Doodle.Num.C36_fallback",
    "Doodle.Num.C36_unary_fallback",
    "Doodle.Num.C36_neg_same_partial",
    "Doodle.Num.C36_neg_min_refuted",
    "Doodle.Num.C36_neg_widening",
    "Doodle.Num.C36_neg_unsigned",
    "Doodle.Num.C36_neg_into_unsigned",
    "Doodle.Num.C36_abs_same_partial",
    "Doodle.Num.C36_abs_min_panics",
    "Doodle.Num.C36_abs_widening",
    "Doodle.Num.C36_abs_into_unsigned_partial",
    "Doodle.Num.C36_abs_unsigned",
    "Doodle.Num.C36_direct_cast",
    "Doodle.Num.C36_attempt_cast",
    "Doodle.Num.C36_casts_cover"
   ],
   "note": "add/sub/mul, widening and unsigned negation, widening abs and all casts exact for every row of the helper tables; MIN / -1, MIN % -1, type-preserving negation of MIN refuted with witnesses, abs of MIN panics when overflow checks are on"
  },
  {
   "property": "C37",
   "status": "partial",
   "theorems": [
    "Doodle.Num.C37_bitwiseCast",
    "Doodle.Num.C37_auto_refuted",
    "Doodle.Num.C37_out_of_range_panics"
   ],
   "note": "proved for all 64 concrete pairs and all values, with uniqueness; from the abstract Auto representation the source performs no reduction (refuted)"
  },
  {
   "property": "C38",
   "status": "proved",
   "theorems": [
    "Doodle.Num.C38_isSuperset",
    "Doodle.Num.C38_encompasses",
    "Doodle.Num.C38_isRepresentable",
    "Doodle.Num.C38_bounds_contains",
    "Doodle.Num.C38_bounds_encompasses",
    "Doodle.Num.C38_bounds_unify",
    "Doodle.Num.C38_asUsize",
    "Doodle.Num.C38_getAsUnsized"
   ],
   "note": "is_superset, encompasses, is_representable, contains, unify, as_usize, get_as_unsized"
  },
  {
   "property": "C39",
   "status": "proved",
   "theorems": [
    "Doodle.Num.C39_same_value",
    "Doodle.Num.C39_valid_iff",
    "Doodle.Num.C39_valid_value",
    "Doodle.Num.C39_binop_exact"
   ],
   "note": "all trees, all scopes; panics of bitwise casts coincide as well"
  },
  {
   "property": "C40",
   "status": "proved",
   "theorems": [
    "Doodle.Tc.C40_normalize",
    "Doodle.Tc.C40_intersection",
    "Doodle.Tc.C40_intersection_neutral",
    "Doodle.Tc.C40_choice",
    "Doodle.Tc.C40_agreed_choice",
    "Doodle.Tc.C40_singleton",
    "Doodle.Tc.C40_empty",
    "Doodle.Tc.C40_grouping_refuted",
    "Doodle.Tc.C40_grouping_members",
    "Doodle.Tc.C40_unify_ints",
    "Doodle.Tc.C40_unify_conflict_refuted",
    "Doodle.Tc.C40_solution_ints",
    "Doodle.Tc.C40_bounds",
    "Doodle.Tc.C40_width_sets",
    "Doodle.Tc.C40_unify_unsigned",
    "Doodle.Tc.C40_unify_refuted",
    "Doodle.Tc.C40_convert",
    "Doodle.Tc.C40_convert_sets"
   ],
   "note": "All clauses for rank vectors of every size and for the sets of unsigned and of machine types (bounds need min <= max). Beyond the statement: unifying an unsigned set with bool/char aborts instead of failing, unifying disjoint sets succeeds with an empty set, and the chosen type depends on how intersections are grouped (refuted by witnesses)."
  },
  {
   "property": "C41",
   "status": "proved",
   "theorems": [
    "Doodle.Tc.C41_elaborate",
    "Doodle.Tc.C41_iff",
    "Doodle.Tc.C41_sound",
    "Doodle.Tc.C41_eval",
    "Doodle.Tc.C41_self_refuted"
   ],
   "note": "Inference and elaboration of every numeric expression: no assertion fails, and they succeed exactly when there is one typing, which they return. Evaluation agrees with the types. C41_self_refuted records that a variable equated with itself, which inference never does, would loop."
  },
  {
   "property": "C42",
   "status": "partial",
   "theorems": [
    "Doodle.Names.C42_stable",
    "Doodle.Names.C42_registered",
    "Doodle.Names.C42_collision",
    "Doodle.Names.C42_unique_partial",
    "Doodle.Names.C42_unique_refuted",
    "Doodle.Names.C42_nested",
    "Doodle.Names.C42_better_shorter",
    "Doodle.Names.C42_better_dead_end",
    "Doodle.Names.C42_better_order_refuted",
    "Doodle.Names.C42_types_total",
    "Doodle.Names.C42_types_stable",
    "Doodle.Names.C42_types_unique_partial",
    "Doodle.Names.C42_renaming_partial",
    "Doodle.Names.C42_types_unique_refuted"
   ],
   "note": "Stability and existence of names hold for every history. Uniqueness is refuted for labels that imitate the __dupX suffix, and for two declarations met at one place; proved for labels without dupX (C42_unique_partial) and, for declarations and the final renaming, when no two declarations share a place. C42_collision states exactly which raw names can collide."
  },
  {
   "property": "C43",
   "status": "partial",
   "theorems": [
    "Doodle.Printer.C43_read",
    "Doodle.Printer.C43_partial",
    "Doodle.Printer.C43_collisions",
    "Doodle.Printer.C43_exact",
    "Doodle.Printer.C43_injective_partial",
    "Doodle.Printer.C43_refuted",
    "Doodle.Printer.C43_text_refuted"
   ],
   "note": "Full characterisation at token level: every printed expression reads as its regrouping to the left, two expressions collide iff their regroupings agree, and exactly the left-leaning ones read back. The property itself is refuted (a - (b - c)), and the concrete text adds a further collision (abs x / absx)."
  },
  {
   "property": "C44",
   "status": "proved",
   "theorems": [
    "Doodle.IxHeap.C44_roundtrip"
   ],
   "note": "index returned by push reads back the pushed item after any later pushes"
  },
  {
   "property": "C45",
   "status": "proved",
   "theorems": [
    "Doodle.Prelude.C45_flatMap_ok",
    "Doodle.Prelude.C45_flatMap_err",
    "Doodle.Prelude.C45_flatMapAppend",
    "Doodle.Prelude.C45_flatMapAppend_err",
    "Doodle.Prelude.C45_foldLeft_ok",
    "Doodle.Prelude.C45_foldLeft_err",
    "Doodle.Prelude.C45_foldMap",
    "Doodle.Prelude.C45_foldMap_err",
    "Doodle.Prelude.C45_seqAppend",
    "Doodle.Prelude.C45_findUnsorted",
    "Doodle.Prelude.C45_endian",
    "Doodle.Prelude.C45_repeatBetweenFinished"
   ],
   "note": "flat-map, append-flat-map, fold, fold-map, search, endian helpers, repeat-between decision"
  },
  {
   "property": "C46",
   "status": "partial",
   "theorems": [
    "Doodle.Printer.C46_read_partial",
    "Doodle.Printer.C46_value_partial",
    "Doodle.Printer.C46_checked_partial",
    "Doodle.Printer.C46_division_refuted",
    "Doodle.Printer.C46_shift_refuted",
    "Doodle.Printer.C46_comparison_refuted",
    "Doodle.Printer.C46_chain_refuted",
    "Doodle.Printer.C46_shift_amount_refuted"
   ],
   "note": "Reading back proved for tame trees, and value agreement for tame expressions without overflow checks (with checks: without shifts); refuted in general for nested same-class division and shifts, logical operands of comparisons, chained comparisons. Leaves (calls, names, projections) are opaque; matches and blocks inside operators are not modelled."
  },
  {
   "property": "C47",
   "status": "partial",
   "theorems": [
    "Doodle.Rt.C47_advance",
    "Doodle.Rt.C47_align",
    "Doodle.Rt.C47_align_bits",
    "Doodle.Rt.C47_seek",
    "Doodle.Rt.C47_seek_bits",
    "Doodle.Rt.C47_seek_bits_back",
    "Doodle.Rt.C47_skip_remainder",
    "Doodle.Rt.C47_position_partial",
    "Doodle.Rt.C47_position_refuted",
    "Doodle.Rt.C47_align_zero_panics"
   ],
   "note": "Advance, align, jump and skip-remainder proved for byte-mode cursors of reachable parsers (alignment also in bit mode); reported position is a valid jump target only outside views (C47_position_partial), refuted inside a view; alignment 0 panics."
  },
  {
   "property": "C48",
   "status": "partial",
   "theorems": [
    "Doodle.C48_progress_partial",
    "Doodle.C48_plain_partial",
    "Doodle.C48_faults_panic",
    "Doodle.C48_panics_iff_partial",
    "Doodle.C48_numeric_refuted",
    "Doodle.C48_range_refuted",
    "Doodle.C48_wrapped_panics"
   ],
   "note": "Proved (with converse: a panic iff a fault) for scopes and expressions without Numeric values, usize/range values and fallback values, under the side conditions of type soundness; wrapped components (Branch/Mapped inside a tuple) are listed as faults. Refuted for Numeric operands mixed with machine integers and for folds over ranges."
  },
  {
   "property": "C49",
   "status": "partial",
   "theorems": [
    "Doodle.Tc.C49_checker",
    "Doodle.Tc.C49_numeric_partial",
    "Doodle.Tc.C49_numeric_refuted"
   ],
   "note": "Proved for the type checker's table. The copy for numeric inference has one assertion on the wrong variable: refuted in general, proved when requests name the younger variable first (and C41 shows that inference never meets it)."
  },
  {
   "property": "C50",
   "status": "partial",
   "theorems": [
    "Doodle.Gen.C50_generated_complete_partial",
    "Doodle.Gen.C50_generated_fails_partial",
    "Doodle.Gen.C50_generated_sound_partial",
    "Doodle.Gen.C50_optional_end_refuted",
    "Doodle.Gen.C50_optional_other_refuted",
    "Doodle.Gen.C50_repeat1_end_refuted",
    "Doodle.Gen.C50_repeat1_reads",
    "Doodle.Gen.C50_repeatBetween_refuted",
    "Doodle.Gen.C50_parallel_nested_refuted",
    "Doodle.Gen.C50_peekNot_nested_refuted",
    "Doodle.Gen.C50_permit_rewind_refuted",
    "Doodle.Gen.C50_view_limit_refuted",
    "Doodle.Gen.C50_seek_limit_refuted",
    "Doodle.Gen.C50_capture_panic_refuted",
    "Doodle.Gen.C50_capture_name_refuted",
    "Doodle.Gen.C50_enforce_refuted",
    "Doodle.Gen.C50_offset_panic_refuted",
    "Doodle.Gen.C50_bits_limit_refuted",
    "Doodle.Gen.C50_overfull_refuted",
    "Doodle.Gen.C50_view_pos_refuted"
   ],
   "note": "Agreement in both directions is proved for the fragment of Spec/Gen (most constructs, in context, including Huffman codes with lengths that do not depend on the input and, for values, repetitions of at least one element whose first byte shows that an element follows); full agreement is refuted by sixteen compiled witness programs, one or more per restriction. Not in the fragment: loops that ask a match tree at the end of input or count between bounds, decoding from byte vectors, Huffman codes with lengths read from the input, Permit."
  },
  {
   "property": "C51",
   "status": "partial",
   "theorems": [
    "Doodle.Helper.C51_fields_partial",
    "Doodle.Helper.C51_total",
    "Doodle.Helper.C51_pair",
    "Doodle.Helper.C51_zero_refuted",
    "Doodle.Helper.C51_whole_refuted",
    "Doodle.Helper.C51_empty_refuted"
   ],
   "note": "Proved for every list of fields in which no field is empty or the whole word, for words of 8 and 16 bits and every place in a format: the record has exactly the named fields with their bits. The width check is proved. Refuted: segments declared zero are not checked; a whole-word field cannot be made (panic); an empty first field compiles and panics on every byte."
  },
  {
   "property": "C52",
   "status": "proved",
   "theorems": [
    "Doodle.Helper.C52_unsigned",
    "Doodle.Helper.C52_signed",
    "Doodle.Helper.C52_byte",
    "Doodle.Helper.C52_bytes"
   ],
   "note": "Proved for all widths, byte orders, inputs and places in a format; signed integers in the big-endian order the helpers provide."
  },
  {
   "property": "C53",
   "status": "partial",
   "theorems": [
    "Doodle.Helper.C53_between",
    "Doodle.Helper.C53_within",
    "Doodle.Helper.C53_within_any",
    "Doodle.Helper.C53_eq_partial",
    "Doodle.Helper.C53_nonzero",
    "Doodle.Helper.C53_eq_refuted",
    "Doodle.Helper.C53_if",
    "Doodle.Helper.C53_max",
    "Doodle.Helper.C53_index_partial",
    "Doodle.Helper.C53_last_partial",
    "Doodle.Helper.C53_index_refuted",
    "Doodle.Helper.C53_bitor",
    "Doodle.Helper.C53_fields",
    "Doodle.Helper.C53_any_partial",
    "Doodle.Helper.C53_option_partial",
    "Doodle.Helper.C53_any_refuted",
    "Doodle.Helper.C53_within_refuted"
   ],
   "note": "Proved for all inner formats, scopes and operands, with the exceptions that are refuted: an expected value or test that uses a name the helper binds (actual, x, any, tuple_var) is captured, so one test of any element inside another compares elements of the same list; a sequence of 2^32 elements has no first or last element; a value that is no integer is outside every interval without an error."
  },
  {
   "property": "C54",
   "status": "proved",
   "theorems": [
    "Doodle.Text.C54_derives",
    "Doodle.Text.C54_derived",
    "Doodle.Text.C54_zderives",
    "Doodle.Text.C54_zderived",
    "Doodle.Text.C54_sound",
    "Doodle.Text.C54_zsound",
    "Doodle.Text.C54_whole",
    "Doodle.Text.C54_zwhole",
    "Doodle.Text.C54_stops",
    "Doodle.Text.C54_exact"
   ],
   "note": "For every text and every input: soundness in any module that contains the text items (C54_sound, C54_zsound), completeness, termination, absence of panics and the exact characterisation for the module that consists of the text items (C54_whole, C54_stops, C54_exact)."
  },
  {
   "property": "C55",
   "status": "partial",
   "theorems": [
    "Doodle.C55_no_panic_partial",
    "Doodle.C55_between_refuted"
   ],
   "note": "All formats and inputs, under Spec/Safe, a condition on the values of reached expressions. Repetition between two bounds is only covered with the lower bound zero: with another one the decoder panics on bad input (C55_between_refuted)."
  },
  {
   "property": "C56",
   "status": "partial",
   "theorems": [
    "Doodle.Tc.C56_request_kept_partial",
    "Doodle.Tc.C56_history_kept_partial",
    "Doodle.Tc.C56_unified_type_partial",
    "Doodle.Tc.C56_empty_forgets_refuted",
    "Doodle.Tc.C56_hole_forgets_refuted",
    "Doodle.Tc.C56_infinite_type_refuted",
    "Doodle.Tc.C56_mismatch_panics_refuted"
   ],
   "note": "Proved for every history of requests whose types do not contain Hole or Empty, for all hash orders and recursion depths. With Hole or Empty the claim is refuted, an accepted history need not have a solution (cyclic types), and mismatches in projections panic instead of being reported; witnesses given. The Rust error payloads are not modelled."
  },
  {
   "property": "C57",
   "status": "partial",
   "theorems": [
    "Doodle.Tc.C57_expr_partial",
    "Doodle.Tc.C57_closed_partial",
    "Doodle.Tc.C57_lambda_partial",
    "Doodle.Tc.C57_pattern",
    "Doodle.Tc.C57_annotation_partial",
    "Doodle.Tc.C57_record_scope_refuted",
    "Doodle.Tc.C57_seqLength_refuted",
    "Doodle.Tc.C57_infinite_type_refuted",
    "Doodle.Tc.C57_tuple_annotation_refuted"
   ],
   "note": "proved for every expression whose annotations contain no Any/Empty/numeric hole, outside the refuted cases: fields of records that mention earlier labels, sequence lengths (U32 at run time, any width in the type), ranges and untamed numeric constants unless allowed by the reading of types; infinite types and unions in annotated tuples refuted"
  },
  {
   "property": "C58",
   "status": "partial",
   "theorems": [
    "Doodle.Tc.C58_infer_partial",
    "Doodle.Tc.C58_read",
    "Doodle.Tc.C58_solvable",
    "Doodle.Tc.C58_occurs",
    "Doodle.Tc.C58_typecheck_partial",
    "Doodle.Tc.C58_decode_partial",
    "Doodle.Tc.C58_module_partial",
    "Doodle.Tc.C58_fail_refuted",
    "Doodle.Tc.C58_pos_refuted",
    "Doodle.Tc.C58_argument_refuted",
    "Doodle.Tc.C58_panic_refuted",
    "Doodle.Tc.C58_unused_item_refuted"
   ],
   "note": "Type checking of formats is sound: if typecheck finds a type for a format then everything it derives, and everything its compiled program returns, has that type (C58_typecheck_partial, C58_decode_partial), for formats and items without Fail, Pos and dynamic formats and with annotations without unions, when the collected requirements can be met; that is the case exactly if no type is infinite and no set of machine types is empty (C58_solvable), the first of which the occurs check establishes (C58_occurs). Types are read off consistently with one solution (C58_read). Refuted: Fail, Pos, calls with further alternatives, panics instead of errors, unused items with parameters. Missing: the excluded formats, and that errors are justified."
  },
  {
   "property": "C59",
   "status": "partial",
   "theorems": [
    "Doodle.C59_generated_program_decodes_as_interpreted_partial",
    "Doodle.C59_generator_accepts_what_is_interpreted_partial",
    "Doodle.C59_counts_have_the_same_bounds_partial",
    "Doodle.C59_optional_format_refuted",
    "Doodle.C59_trivial_alignment_refuted",
    "Doodle.C59_phantom_accepted_refuted",
    "Doodle.C59_cast_counts_compile_refuted",
    "Doodle.C59_cast_count_not_nullable_refuted",
    "Doodle.C59_peek_not_lookahead_refuted",
    "Doodle.C59_same_panics_refuted"
   ],
   "note": "Proved: for typed formats without the shapes refuted below (Fit), if both compilers accept then both programs of decoders give exactly the same outcome for every input and step limit, with any extra roots and any iteration order of the hash tables. Proved: the code generator's compiler accepts, and ends with a program, whatever the interpreter's compiler accepts (for Fit and Usual formats); counts made by adding and multiplying have the same bounds in both. Refuted: optional formats (compiled with or without what follows), Align(1) in what follows, phantoms whose inner format does not compile, casts in static bounds (panic, refusal), PeekNot(SkipRemainder), panics on Align(0) / root Fail. Not covered: formats with an empty byte set, variants of Fail, that the interpreter's compiler accepts what the code generator's accepts; printing the program as Rust."
  },
  {
   "property": "C60",
   "status": "partial",
   "theorems": [
    "Doodle.Num.C60_compiles",
    "Doodle.Num.C60_sound",
    "Doodle.Num.C60_complete_partial",
    "Doodle.Num.C60_iff_partial",
    "Doodle.Num.C60_eval_partial",
    "Doodle.Num.C60_agree_partial",
    "Doodle.Num.C60_elaborated",
    "Doodle.Num.C60_compiles_refuted",
    "Doodle.Num.C60_unchecked_refuted",
    "Doodle.Num.C60_complete_refuted",
    "Doodle.Num.C60_intermediate_refuted",
    "Doodle.Num.C60_remainder_refuted"
   ],
   "note": "C60_compiles says exactly when the code has the type of the expression; C60_sound, C60_complete_partial and C60_iff_partial compare its value with exact computation, C60_eval_partial and C60_agree_partial with the interpreter. Refuted: signatures without helpers (C60_compiles_refuted), negation of the least number without overflow checks (C60_unchecked_refuted), the remainder of the least number by -1 and its absolute value (C60_complete_refuted), intermediate results (C60_intermediate_refuted) and remainders by negative numbers (C60_remainder_refuted), where interpreter and code differ."
  },
  {
   "property": "C61",
   "status": "partial",
   "theorems": [
    "Doodle.Gen.C61_fuel",
    "Doodle.Gen.C61_answers_partial",
    "Doodle.Gen.C61_values_partial",
    "Doodle.Gen.C61_ends_partial",
    "Doodle.Gen.C61_terminates_partial",
    "Doodle.Gen.C61_derived_partial",
    "Doodle.Gen.C61_rejects_partial",
    "Doodle.Gen.C61_found_partial"
   ],
   "note": "Proved for formats within the limits of C59 (Fit) and C50 (ProgramOk): no Huffman code lengths read from the input, no Permit, no loops decided by a tree that accepts the end of input."
  },
  {
   "property": "C62",
   "status": "partial",
   "theorems": [
    "Doodle.Formats.Numbers.C62_numbers_derives",
    "Doodle.Formats.Numbers.C62_numbers_derived",
    "Doodle.Formats.Numbers.C62_numbers_sound",
    "Doodle.Formats.Numbers.C62_numbers_found",
    "Doodle.Formats.Numbers.C62_numbers_exact",
    "Doodle.Formats.Rle.C62_rle_derives",
    "Doodle.Formats.Rle.C62_rle_derived",
    "Doodle.Formats.Rle.C62_rle_sound",
    "Doodle.Formats.Rle.C62_rle_safe",
    "Doodle.Formats.Rle.C62_rle_terminates",
    "Doodle.Formats.Peano.C62_peano_derives",
    "Doodle.Formats.Peano.C62_peano_derived",
    "Doodle.Formats.Peano.C62_peano_sound",
    "Doodle.Formats.Peano.C62_peano_refuted",
    "Doodle.Formats.Waldo.C62_waldo_refuted",
    "Doodle.Formats.Rle.C62_rle_complete"
   ],
   "note": "The numbers format is settled: decoding ends on every input without a panic, and succeeds exactly on documents that run to the end of input or to a byte that announces no entry, with the entries as value. For run-length data: what the format derives, in both directions; what is decoded is a document and its expansion; no panic; an end on every input; every document that is the whole input is decoded to its expansion (C62_rle_complete); that inputs with an incomplete run are refused is not proved. For unary numbers: what the format derives, in both directions, and soundness of decoding; completeness is refuted, the decoder only reads none or nine strokes. For the marked place: refuted, a place inside the header makes decoding panic."
  },
  {
   "property": "C63",
   "status": "partial",
   "theorems": [
    "Doodle.ByteSet.C63_printed_partial",
    "Doodle.ByteSet.C63_injective_partial",
    "Doodle.ByteSet.C63_release_total",
    "Doodle.ByteSet.C63_panics_iff",
    "Doodle.ByteSet.C63_injective_refuted",
    "Doodle.ByteSet.C63_panic_refuted",
    "Doodle.ByteSet.C63_span_refuted"
   ],
   "note": "Proved for every set that has a byte from 192 up or lacks 191, in release builds or if one of the bytes 252 to 255 is missing: the printed pieces stand for exactly the bytes of the set, so sets printed alike are equal; release builds never panic; with overflow checks a set with the bytes 252 to 255 panics iff it is not a range. Refuted outside: two sets with top byte 190/191 print alike, the set of all bytes but line feed and the range 0x80..=0xBF panic with overflow checks. The claim is about the pieces; that the text of a list of pieces determines the pieces is not proved."
  },
  {
   "property": "C64",
   "status": "proved",
   "theorems": [
    "Doodle.C64_gives",
    "Doodle.C64_deterministic",
    "Doodle.C64_literal",
    "Doodle.C64_var",
    "Doodle.C64_tuple",
    "Doodle.C64_seq",
    "Doodle.C64_record",
    "Doodle.C64_tupleProj",
    "Doodle.C64_recordProj",
    "Doodle.C64_wrap",
    "Doodle.C64_match",
    "Doodle.C64_destructure",
    "Doodle.C64_lambda",
    "Doodle.C64_arith",
    "Doodle.C64_unary",
    "Doodle.C64_intRel",
    "Doodle.C64_asNum",
    "Doodle.C64_asChar",
    "Doodle.C64_fromBytes",
    "Doodle.C64_seqLength",
    "Doodle.C64_seqIx",
    "Doodle.C64_subSeq",
    "Doodle.C64_subSeq_defined",
    "Doodle.C64_subSeqInflate",
    "Doodle.C64_append",
    "Doodle.C64_append_defined",
    "Doodle.C64_flatMap",
    "Doodle.C64_flatMapAccum",
    "Doodle.C64_flatMapList",
    "Doodle.C64_leftFold",
    "Doodle.C64_dup",
    "Doodle.C64_enumFromTo",
    "Doodle.C64_numeric",
    "Doodle.C64_findByKey",
    "Doodle.C64_findByKey_sorted"
   ],
   "note": "One theorem for each operator of expressions.  Taking a stretch of a range of numbers up to its end fails although it lies inside (C27_subRange_refuted), and the length of a sequence is taken modulo 2^32: both are in the statements."
  },
  {
   "property": "C65",
   "status": "partial",
   "theorems": [
    "Doodle.TypeAnalysis.C65_table",
    "Doodle.TypeAnalysis.C65_levels",
    "Doodle.TypeAnalysis.C65_copy",
    "Doodle.TypeAnalysis.C65_local_copy",
    "Doodle.TypeAnalysis.C65_local_copy_refuted",
    "Doodle.TypeAnalysis.C65_aligned",
    "Doodle.TypeAnalysis.C65_size",
    "Doodle.TypeAnalysis.C65_size_overflow_refuted",
    "Doodle.TypeAnalysis.C65_heap_partial",
    "Doodle.TypeAnalysis.C65_heap_nested_refuted",
    "Doodle.TypeAnalysis.C65_heap_option_refuted",
    "Doodle.TypeAnalysis.C65_slice_refuted",
    "Doodle.TypeAnalysis.C65_heap_tag_refuted",
    "Doodle.TypeAnalysis.C65_two_strategies_refuted"
   ],
   "note": "Proved: the table of answers changes no answer (any definitions, any history, one strategy); Copy is given exactly where Rust's rule allows; rounding; sizes and alignments; boxing does not panic without an Option directly inside an Option. Refuted: Copy from a definition alone misses some; sizes overflow; a nested Option panics; the layouts told for Option, for boxed variants and for references to slices are too small; one table for two strategies."
  },
  {
   "property": "C66",
   "status": "partial",
   "theorems": [
    "Doodle.TreeExpr.C66_read",
    "Doodle.TreeExpr.C66_exact",
    "Doodle.TreeExpr.C66_collisions",
    "Doodle.TreeExpr.C66_read_partial",
    "Doodle.TreeExpr.C66_distinct_partial",
    "Doodle.TreeExpr.C66_tree",
    "Doodle.TreeExpr.C66_chain_refuted",
    "Doodle.TreeExpr.C66_sub_refuted",
    "Doodle.TreeExpr.C66_equality_refuted",
    "Doodle.TreeExpr.C66_order_refuted",
    "Doodle.TreeExpr.C66_numeric_refuted"
   ],
   "note": "False as stated: chains of operators of one class lose their grouping (C66_chain_refuted, C66_sub_refuted with values). For typed expressions C66_read says exactly what is read, C66_exact when it is the expression printed, and C66_collisions which expressions are confused; compound numeric expressions as leaves are excluded (C66_numeric_refuted). Layout, elided parts and the text of arguments are not modelled."
  },
  {
   "property": "C67",
   "status": "partial",
   "theorems": [
    "Doodle.Out.C67_seq",
    "Doodle.Out.C67_cat",
    "Doodle.Out.C67_vacuous",
    "Doodle.Out.C67_intervene",
    "Doodle.Out.C67_builder",
    "Doodle.Out.C67_builder_sep",
    "Doodle.Out.C67_inline_partial",
    "Doodle.Out.C67_inline_refuted",
    "Doodle.Out.C67_single_line_partial",
    "Doodle.Out.C67_single_line_refuted",
    "Doodle.Out.C67_join"
   ],
   "note": "Proved for every fragment and history, but two documented promises fail and are refuted with witnesses: an atom whose own text has a newline is said to fit inline (C67_inline_refuted; proved for atoms without newlines, C67_inline_partial, C67_single_line_partial), and a line followed by a fragment that shows nothing is not said to be a single line (C67_single_line_refuted)."
  },
  {
   "property": "C68",
   "status": "partial",
   "theorems": [
    "Doodle.Out.C68_drawing_partial",
    "Doodle.Out.C68_nested_partial",
    "Doodle.Out.C68_read_partial",
    "Doodle.Out.C68_distinct_partial",
    "Doodle.Out.C68_inline_partial",
    "Doodle.Out.C68_newline_refuted",
    "Doodle.Out.C68_hidden",
    "Doodle.Out.C68_hidden_refuted",
    "Doodle.Out.C68_preview_partial"
   ],
   "note": "Proved for the views compile_value builds without formats, of all values whose labels have no newline and given texts of numbers and characters without newlines (hypotheses PlainLabels, Texts.Plain); C68_newline_refuted shows that labels with newlines break it, C68_hidden_refuted that hidden fields influence how a variant around the record is drawn. Missing: views driven by formats or with locations."
  },
  {
   "property": "C69",
   "status": "partial",
   "theorems": [
    "Doodle.Flat.C69_total_partial",
    "Doodle.Flat.C69_lines",
    "Doodle.Flat.C69_lines_unique",
    "Doodle.Flat.C69_covered",
    "Doodle.Flat.C69_refused",
    "Doodle.Flat.C69_permit_refuted",
    "Doodle.Flat.C69_negated_refuted",
    "Doodle.Flat.C69_silent_refuted"
   ],
   "note": "Totality is proved for formats whose record hints are around records with distinct field names, and in which what is negated or permitted to fail is not looked at by the listing; permitted and negated parts are refuted in general. Titled items behind functions and conditions are accepted by the check but never listed (refuted). Missing: the table of titles."
  },
  {
   "property": "C70",
   "status": "partial",
   "theorems": [
    "Doodle.TypeAnalysis.C70_fixed",
    "Doodle.TypeAnalysis.C70_varies",
    "Doodle.TypeAnalysis.C70_total",
    "Doodle.TypeAnalysis.C70_order_partial",
    "Doodle.TypeAnalysis.C70_order_refuted"
   ],
   "note": "Whether a width varies for a dynamic reason depends on the order of variants (refuted). Nothing is assumed of the bytes of truth values, characters, words, options, sequences and views. Missing: the table of answers, and that formats of a type read nothing beside its parts."
  },
  {
   "property": "C71",
   "status": "proved",
   "theorems": [
    "Doodle.Riff.C71_derives",
    "Doodle.Riff.C71_derived",
    "Doodle.Riff.C71_sound",
    "Doodle.Riff.C71_complete",
    "Doodle.Riff.C71_safe",
    "Doodle.Riff.C71_extent",
    "Doodle.Riff.C71_unique",
    "Doodle.Riff.C71_terminates"
   ],
   "note": "Formats added after the module's other items are covered; names of items are not modelled."
  },
  {
   "property": "C72",
   "status": "proved",
   "theorems": [
    "Doodle.Gzip.C72_sound",
    "Doodle.Gzip.C72_complete",
    "Doodle.Gzip.C72_safe",
    "Doodle.Gzip.C72_unique",
    "Doodle.Gzip.C72_terminates"
   ],
   "note": "Covers the extra field where it is called, in any module; the rest of gzip is not modelled."
  },
  {
   "property": "C73",
   "status": "proved",
   "theorems": [
    "Doodle.Tiff.C73_derives",
    "Doodle.Tiff.C73_derived",
    "Doodle.Tiff.C73_complete",
    "Doodle.Tiff.C73_sound",
    "Doodle.Tiff.C73_safe",
    "Doodle.Tiff.C73_unique",
    "Doodle.Tiff.C73_terminates"
   ],
   "note": "Exactly the headers with a directory at their offset are decoded."
  },
  {
   "property": "C74",
   "status": "partial",
   "theorems": [
    "Doodle.GzipHeader.C74_header_sound_partial",
    "Doodle.GzipHeader.C74_header_complete",
    "Doodle.GzipHeader.C74_header_safe",
    "Doodle.GzipHeader.C74_footer_sound",
    "Doodle.GzipHeader.C74_footer_complete",
    "Doodle.GzipHeader.C74_footer_safe",
    "Doodle.GzipHeader.C74_unique",
    "Doodle.GzipHeader.C74_made",
    "Doodle.GzipHeader.C74_reserved_refuted"
   ],
   "note": "Headers and trailers are decoded exactly by their layout, without panics; the check of reserved bits that the format asks for is refuted: headers with reserved bits set are decoded without an error."
  },
  {
   "property": "C75",
   "status": "proved",
   "theorems": [
    "Doodle.GzipName.C75_string_sound",
    "Doodle.GzipName.C75_comment_sound",
    "Doodle.GzipName.C75_name_sound",
    "Doodle.GzipName.C75_checksum_sound",
    "Doodle.GzipName.C75_safe",
    "Doodle.GzipName.C75_name_complete",
    "Doodle.GzipName.C75_comment_complete",
    "Doodle.GzipName.C75_checksum_complete",
    "Doodle.GzipName.C75_terminates"
   ],
   "note": "Strings up to a zero byte, and the name, comment and checksum of gzip headers, are decoded exactly; soundness and safety in any module, completeness and termination in the module of these items."
  },
  {
   "property": "C76",
   "status": "partial",
   "theorems": [
    "Doodle.GzipMember.C76_derives",
    "Doodle.GzipMember.C76_sound_partial"
   ],
   "note": "The derivations of the format are described exactly, for any format of the data; decoded files are members of this shape. Missing: that decoders find every such file (it depends on the format of the data), and that they leave nothing after the subfields of an extra field (proved of the extra field by itself, C72)."
  }
 ]
}
