{
 "claims": [
  {
   "property": "C01",
   "status": "proved",
   "theorems": [
    "Verif.BinTree.C01_verdict_of_marks",
    "Verif.BinTree.C01_verdict_order_independent",
    "Verif.BinTree.C01_order_irrelevant"
   ],
   "note": "All trees, all orders, all subsets of decided conditions; also for marks on whole subtrees (loops)."
  },
  {
   "property": "C02",
   "status": "proved",
   "theorems": [
    "Verif.BinTree.C02_early_decision_sound",
    "Verif.BinTree.C02_undecided_is_open",
    "Verif.BinTree.C02_decision_final"
   ],
   "note": "For the whole tree and for the loop body being evaluated; completeness for a single expression (merge nodes wait for both sides by design)."
  },
  {
   "property": "C03",
   "status": "proved",
   "theorems": [
    "Verif.BinTree.C03_no_panic",
    "Verif.BinTree.C03_unguarded_double_mark_panics"
   ],
   "note": "Guarded marks of any nodes, Resolve and Reset in any order."
  },
  {
   "property": "C04",
   "status": "proved",
   "theorems": [
    "Verif.BinTree.C04_reset_restores"
   ],
   "note": "From any reachable state, including abandoned loops."
  },
  {
   "property": "C05",
   "status": "proved",
   "theorems": [
    "Verif.BinTree.C05_loop_body_isolated",
    "Verif.BinTree.C05_clear_body",
    "Verif.BinTree.C05_loop_round_trip",
    "Verif.BinTree.C05_stall_needed"
   ],
   "note": "Any subtree as loop body, any number of iterations."
  },
  {
   "property": "C06",
   "status": "proved",
   "theorems": [
    "Verif.BinTree.C06_each_expression_own_verdict"
   ],
   "note": "Any number of merged expressions, conditions decided in any order."
  },
  {
   "property": "C07",
   "status": "proved",
   "theorems": [
    "Verif.Transform.C07_tree",
    "Verif.Transform.C07_buckets",
    "Verif.Transform.C07_no_validation_panic",
    "Verif.Transform.C32_fragment_partial"
   ],
   "note": "Proved for every list of expressions that compiles; which expressions compile is C32."
  },
  {
   "property": "C08",
   "status": "partial",
   "theorems": [
    "Verif.BinTree.C08_validate_accepts_layouts",
    "Verif.BinTree.C08_validate_sound_partial",
    "Verif.BinTree.C08_validate_sound_of_links",
    "Verif.BinTree.C08_validate_accepts_wrong_child_links",
    "Verif.BinTree.C08_validate_can_panic"
   ],
   "note": "The property is false of the code: child links are only range-checked; counterexamples proved. What Validate does guarantee is proved."
  },
  {
   "property": "C09",
   "status": "proved",
   "theorems": [
    "Verif.Token.C09_step_progress",
    "Verif.Token.C09_end_iff",
    "Verif.Token.C09_tokenizing_terminates"
   ],
   "note": "Every byte sequence and position."
  },
  {
   "property": "C10",
   "status": "proved",
   "theorems": [
    "Verif.Token.C10_token_text_exact",
    "Verif.Token.C10_unreached"
   ],
   "note": "Every byte sequence and position. C10_unreached: three of the four states that begin a token are never entered."
  },
  {
   "property": "C100",
   "status": "proved",
   "theorems": [
    "Verif.Transform.C100_not",
    "Verif.Transform.C100_compiles",
    "Verif.Transform.C100_ne",
    "Verif.Transform.C100_missing",
    "Verif.Transform.C100_twice"
   ],
   "note": "No fragment: everything that compiles. Constants are excepted: the matcher of TRUE crashes and that of NOT TRUE matches every document (example beside the theorem)."
  },
  {
   "property": "C101",
   "status": "proved",
   "theorems": [
    "Verif.Transform.C101_compiles",
    "Verif.Transform.C101_push",
    "Verif.Transform.C101_same",
    "Verif.Transform.C101_and",
    "Verif.Transform.C101_or"
   ],
   "note": "pushNot is the normal form, defined on expressions only. Constants are excepted: NOT NOT TRUE is no match on an object while TRUE crashes there (example)."
  },
  {
   "property": "C102",
   "status": "proved",
   "theorems": [
    "Verif.Transform.C102_compiles",
    "Verif.Transform.C102_laws",
    "Verif.Transform.C102_flat"
   ],
   "note": "C102_flat shows that dissolving a group is a chain of the steps the other two theorems speak of. Bodies of loops are left as they are; a connective with one operand at the very top is not replaced."
  },
  {
   "property": "C11",
   "status": "proved",
   "theorems": [
    "Verif.Token.C11_error_does_not_consume"
   ],
   "note": "Every byte sequence and position."
  },
  {
   "property": "C12",
   "status": "proved",
   "theorems": [
    "Verif.Token.C12_token_in_grammar",
    "Verif.Token.C12_grammar_accepted",
    "Verif.Token.C12_class_unique",
    "Verif.Token.C12_error_means_no_token",
    "Verif.Token.C12_plain_string",
    "Verif.Token.C12_integer"
   ],
   "note": "Both directions against an RFC 8259 token grammar."
  },
  {
   "property": "C13",
   "status": "proved",
   "theorems": [
    "Verif.Token.C13_tokens_of_document",
    "Verif.Token.C13_tokens_in_context"
   ],
   "note": "Every document of any depth with any whitespace layout."
  },
  {
   "property": "C14",
   "status": "proved",
   "theorems": [
    "Verif.Token.C14_skip_exact",
    "Verif.Token.C14_leave_never_stuck",
    "Verif.Token.C14_truncated_container_panics"
   ],
   "note": "Exactness for every value in every context; totality on arbitrary input; truncated containers panic (finding)."
  },
  {
   "property": "C15",
   "status": "proved",
   "theorems": [
    "Verif.Lit.C15_int_exact",
    "Verif.Lit.C15_int_mod",
    "Verif.Lit.C15_out_of_range_wraps"
   ],
   "note": "Every literal; outside the range the value is reduced modulo 2^64 (finding)."
  },
  {
   "property": "C16",
   "status": "proved",
   "theorems": [
    "Verif.Lit.C16_decode",
    "Verif.Lit.C16_never_longer",
    "Verif.Lit.C16_literal_in_document",
    "Verif.Lit.C16_lone_surrogate_reads_empty",
    "Verif.Lit.C16_lone_surrogate_swallows_text",
    "Verif.Lit.C16_low_low_pair"
   ],
   "note": "Decoding for every literal that denotes characters (surrogates paired); no overrun on arbitrary bytes. Unpaired surrogates denote no character; what happens to them is recorded by witnesses (finding)."
  },
  {
   "property": "C17",
   "status": "partial",
   "theorems": [
    "Verif.FastVal.C17_same_sign",
    "Verif.FastVal.C17_valid_is_exact_partial",
    "Verif.FastVal.C17_mixed_valid_iff",
    "Verif.FastVal.C17_mixed_counterexample",
    "Verif.FastVal.C17_full_statement_false"
   ],
   "note": "Every valid comparison is exact; validity characterised for document values. The statement as written is false for a signed zero against an unsigned value and for unsigned values above 2^63-1 (proved)."
  },
  {
   "property": "C18",
   "status": "partial",
   "theorems": [
    "Verif.FastVal.C18_antisymmetric_partial",
    "Verif.FastVal.C18_counterexample",
    "Verif.FastVal.C18_full_statement_false"
   ],
   "note": "Proved for every pair of values of every type with at most one user-supplied operand, except a user-supplied unsigned constant against a non-positive signed value, where it is false (proved). IEEE/time facts are hypotheses FloatLaws, TimeLaws. Both are proved of ext64, the finite binary64 numbers with one non-number and instants counted as natural numbers (floatLaws64, timeLaws64)."
  },
  {
   "property": "C19",
   "status": "proved",
   "theorems": [
    "Verif.FastVal.C19_equals_iff",
    "Verif.FastVal.C19_refl",
    "Verif.FastVal.C19_symm",
    "Verif.FastVal.C19_string_eq",
    "Verif.FastVal.C19_array_eq",
    "Verif.FastVal.C19_improper_never_equal",
    "Verif.FastVal.C19_null_eq"
   ],
   "note": "Float and time facts are explicit hypotheses; strings need injectivity of strconv.AppendQuote. FloatLaws and TimeLaws are proved of ext64, the finite binary64 numbers with one non-number and instants counted as natural numbers (floatLaws64, timeLaws64)."
  },
  {
   "property": "C20",
   "status": "proved",
   "theorems": [
    "Verif.FastVal.C20_add",
    "Verif.FastVal.C20_mul",
    "Verif.FastVal.C20_sub",
    "Verif.FastVal.C20_neg",
    "Verif.FastVal.C20_add_exact",
    "Verif.FastVal.C20_signed_zero_invalid"
   ],
   "note": "Exact result words for every signedness combination. Deviation recorded: a signed zero combined with an unsigned value yields the invalid value."
  },
  {
   "property": "C21",
   "status": "partial",
   "theorems": [
    "Verif.FastVal.C21_crash_iff_partial",
    "Verif.FastVal.C21_safe",
    "Verif.FastVal.C21_counterexample",
    "Verif.FastVal.C21_full_statement_false"
   ],
   "note": "The statement is false: a signed dividend with zero divisor panics. The crashing pairs are characterised exactly for all values."
  },
  {
   "property": "C22",
   "status": "partial",
   "theorems": [
    "Verif.Transform.C22_match_partial",
    "Verif.Transform.C22_negation",
    "Verif.Transform.run_top"
   ],
   "note": "False as stated (EXISTS on an empty array); proved for documents where no condition reads an empty array or an empty object with conditions below. The verdict on all other documents is given by C83_verdict, C83_loopFree (property C83)."
  },
  {
   "property": "C23",
   "status": "partial",
   "theorems": [
    "Verif.Transform.C23_loops_partial",
    "Verif.Transform.C23_positive_partial",
    "Verif.Transform.C23_negation"
   ],
   "note": "Proved with the three-valued meaning of bodies, and with plain truth for expressions without negation; false with negation. The verdict on all other documents is given by C83_verdict (property C83)."
  },
  {
   "property": "C24",
   "status": "partial",
   "theorems": [
    "Verif.Match.C24_layout",
    "Verif.Match.C24_negation",
    "Verif.Transform.C24_expressions_partial",
    "Verif.Transform.C24_several_partial",
    "Verif.Transform.C24_elements_partial",
    "Verif.Transform.C24_rooted_partial"
   ],
   "note": "False for comparisons of two containers (C24_negation). Proved for definitions and compiled expressions whose comparisons have a scalar constant on one side, and for expressions comparing several fields (C24_several_partial) or with loops whose bodies compare several fields of the element (C24_elements_partial) on documents on which no two arrays or objects are compared. Loops that refer to the document are in C24_rooted_partial. Missing: nested loops whose bodies compare several fields."
  },
  {
   "property": "C25",
   "status": "partial",
   "theorems": [
    "Verif.Transform.C25_unreferenced_partial",
    "Verif.Transform.C25_several_partial",
    "Verif.Transform.C25_elements_partial",
    "Verif.Transform.C25_fields_partial",
    "Verif.Transform.C25_rooted_negation"
   ],
   "note": "Documents that agree on the referenced paths (unreferenced members added, removed or changed at any depth) get the same verdict. Proved on all documents (duplicate keys, arrays and empty containers included) for expressions whose comparisons involve one field each, and for loops whose bodies compare any number of fields of the element (C25_elements_partial); on objects and arrays for comparisons of several fields, and on objects also for loops that refer to the document (C25_fields_partial). False for loops that refer to the document if the document is an array (C25_rooted_negation): the loop then runs over the document itself."
  },
  {
   "property": "C26",
   "status": "partial",
   "theorems": [
    "Verif.Transform.C26_order_partial",
    "Verif.Transform.C26_several_partial",
    "Verif.Transform.C26_elements_partial",
    "Verif.Transform.C26_negation",
    "Verif.Transform.C26_rooted_partial"
   ],
   "note": "Proved for documents with distinct keys: expressions whose comparisons involve one field and a scalar constant or pattern, loops included (C26_order_partial), and expressions comparing several fields of the document (C26_several_partial) or of the elements of a loop (C26_elements_partial) where no two arrays or objects are compared. False otherwise (object texts are compared), C26_negation. Loops that refer to the document are in C26_rooted_partial. Missing: nested loops whose bodies compare several fields."
  },
  {
   "property": "C27",
   "status": "proved",
   "theorems": [
    "Verif.Match.C27_reset_new",
    "Verif.Match.C27_status_sticky"
   ],
   "note": "any history of Match (returning) and Reset calls; the collation flag of MatchWithStatus is not reset (C27_status_sticky)"
  },
  {
   "property": "C28",
   "status": "partial",
   "theorems": [
    "Verif.Expr.C28_compact_partial",
    "Verif.Expr.C28_negation",
    "Verif.Expr.C28_negation_every"
   ],
   "note": "false as stated for loops with constant bodies over empty arrays (C28_negation); proved when these arrays are non-empty"
  },
  {
   "property": "C29",
   "status": "partial",
   "theorems": [
    "Verif.Expr.C29_exact_partial",
    "Verif.Expr.C29_panics_iff",
    "Verif.Expr.C29_negation"
   ],
   "note": "false as stated: the code panics exactly on expressions containing NotExists/True/False (C29_panics_iff); exact on all others"
  },
  {
   "property": "C30",
   "status": "partial",
   "theorems": [
    "Verif.Json.C30_accepted",
    "Verif.Json.C30_roundtrip",
    "Verif.Json.C30_text",
    "Verif.Json.C30_rejected",
    "Verif.Json.C30_no_crash_partial",
    "Verif.Json.C30_negation"
   ],
   "note": "Round trip and exact characterization of accepted arrays and texts proved for all expressions; rejection with an error proved for unknown tags and all shaped arrays; false in general (short arrays panic, surplus elements are ignored): proved negation"
  },
  {
   "property": "C31",
   "status": "partial",
   "theorems": [
    "Verif.Expr.C31_counts_partial",
    "Verif.Expr.C31_negation",
    "Verif.Expr.C31_nested_depth_one"
   ],
   "note": "false as stated: NOT, LIKE, regex, time and constants crash the scan; counts are exact on all other expressions"
  },
  {
   "property": "C32",
   "status": "partial",
   "theorems": [
    "Verif.Transform.C32_fragment_partial",
    "Verif.Transform.C32_several_partial",
    "Verif.Transform.C32_two_fields",
    "Verif.Transform.C32_negation",
    "Verif.Transform.C86_compiles"
   ],
   "note": "False as stated; proved for Boolean combinations of conditions on one field, loops with such bodies, and comparisons of several fields none of which contains all others. For a comparison of two fields exactly: compilation succeeds iff neither is strictly inside the other. The exact condition for every expression is C86."
  },
  {
   "property": "C33",
   "status": "partial",
   "theorems": [
    "Verif.Transform.C33_exists_partial",
    "Verif.Transform.C33_negation",
    "Verif.Transform.C33_function",
    "Verif.Transform.C33_slot",
    "Verif.Transform.C33_no_reference",
    "Verif.Transform.C33_function_negation"
   ],
   "note": "False for empty arrays; proved for every other value. The verdict on all other documents is given by C83_loopFree (property C83). An existence test on a function of several fields is true whatever the fields are (C33_function, C33_function_negation)."
  },
  {
   "property": "C34",
   "status": "partial",
   "theorems": [
    "Verif.Transform.C34_negation",
    "Verif.Transform.C34_elements_partial",
    "Verif.Transform.C34_values_partial"
   ],
   "note": "False in general: C34_negation gives a document where a value of an earlier element is used (C85 is the exact verdict on every document). Proved for loops over arrays of the document: if every element has all the fields that are compared, the verdict is that of a specification that looks at one element at a time (C34_elements_partial), and for a comparison of two fields it is the relation between the two values of each element (C34_values_partial). Missing: such loops nested in other loops."
  },
  {
   "property": "C35",
   "status": "partial",
   "theorems": [
    "Verif.Slow.C35_agree_partial",
    "Verif.Slow.C35_several_partial",
    "Verif.Slow.C35_elements_partial",
    "Verif.Slow.C35_reference",
    "Verif.Slow.C35_negation"
   ],
   "note": "Agreement proved for one expression (loops over values of one field each, comparisons of two fields of the document, or loops whose bodies compare two fields of the element) on documents that have the fields asked for and whose values both compare alike; false in general: several expressions, missing fields (C35_negation). Missing: nested loops with comparisons of two fields."
  },
  {
   "property": "C36",
   "status": "partial",
   "theorems": [
    "Verif.Composer.C36_exact",
    "Verif.Composer.C36_kept_partial",
    "Verif.Composer.C36_negation_array",
    "Verif.Composer.C36_negation_keys"
   ],
   "note": "C36_exact describes the outcome for every object text and every list of distinct keys: an error iff a retained array ends with a string written without escapes, otherwise exactly the other members. The unrestricted property is refuted by two witnesses."
  },
  {
   "property": "C37",
   "status": "proved",
   "theorems": [
    "Verif.Composer.C37_no_overrun",
    "Verif.Composer.C37_short_destination_panics"
   ],
   "note": "For nil destinations and destinations at least as long as the source. A shorter destination panics instead of returning ErrInsufficientMemory."
  },
  {
   "property": "C38",
   "status": "partial",
   "theorems": [
    "Verif.Match.C38_documents_partial",
    "Verif.Match.C38_negation",
    "Verif.Transform.C38_expressions_partial",
    "Verif.Transform.C38_several_partial",
    "Verif.Transform.C38_terminates_partial"
   ],
   "note": "False as stated: malformed bytes crash; proved: texts of JSON documents always get a verdict (for everything that compiles with safe calls: C95), and on arbitrary bytes Match comes to an end (for everything that compiles: C88)."
  },
  {
   "property": "C39",
   "status": "partial",
   "theorems": [
    "Verif.Conc.C39_one_converter_partial",
    "Verif.Conc.C39_negation",
    "Verif.Conc.jobOf_result",
    "Verif.Conc.jobOf_pure",
    "Verif.Conc.C39_converted",
    "Verif.Conc.C39_uses_buffer"
   ],
   "note": "Proved for every schedule if at most one goroutine converts numbers to strings; false with two (C39_negation gives a schedule). The matcher is any sequential program making comparisons."
  },
  {
   "property": "C40",
   "status": "proved",
   "theorems": [
    "Verif.Lit.C40_spelling_irrelevant",
    "Verif.Transform.C40_path",
    "Verif.Transform.C40_match",
    "Verif.Transform.C24_expressions_partial"
   ],
   "note": "C40_path: a path step finds exactly the members whose keys denote it, however spelled (with C22/C23, whose specification walks paths this way). C40_match: condition on a field of an object. C24_expressions_partial also allows respelling keys at any depth. Keys whose escapes are unpaired surrogates denote no string and are not covered."
  },
  {
   "property": "C41",
   "status": "proved",
   "theorems": [
    "Verif.FastVal.C41_div",
    "Verif.FastVal.C41_mod"
   ],
   "note": ""
  },
  {
   "property": "C42",
   "status": "proved",
   "theorems": [
    "Verif.Expr.C42_compact_clean",
    "Verif.Expr.C42_compact_idem"
   ],
   "note": ""
  },
  {
   "property": "C43",
   "status": "proved",
   "theorems": [
    "Verif.Composer.C43_idempotent"
   ],
   "note": "Full statement."
  },
  {
   "property": "C44",
   "status": "proved",
   "theorems": [
    "Verif.BinTree.C44_copy"
   ],
   "note": "Full statement for all reachable states."
  },
  {
   "property": "C45",
   "status": "proved",
   "theorems": [
    "Verif.FastVal.C45_constant",
    "Verif.FastVal.C45_constant_left",
    "Verif.FastVal.C45_constant_left_int",
    "Verif.FastVal.C45_document"
   ],
   "note": "Tables docCon, docDoc (FastVal/Kinds.lean). Floats, times and quoting are parameters. The table records anomalies of the code: an integer 0 or a negative integer is not accepted against an unsigned constant, and unsigned constants from 2^63 on wrap."
  },
  {
   "property": "C46",
   "status": "proved",
   "theorems": [
    "Verif.FastVal.C46_document",
    "Verif.FastVal.C46_constant"
   ],
   "note": "Regular expression engine and quoting are parameters."
  },
  {
   "property": "C47",
   "status": "proved",
   "theorems": [
    "Verif.FastVal.C47_uint",
    "Verif.FastVal.C47_uint_value",
    "Verif.FastVal.C47_int",
    "Verif.FastVal.C47_roundtrip_uint",
    "Verif.FastVal.C47_roundtrip_int"
   ],
   "note": "strconv.ParseInt/ParseUint/AppendInt/AppendUint are modelled in base 10."
  },
  {
   "property": "C48",
   "status": "proved",
   "theorems": [
    "Verif.Transform.C48_condition",
    "Verif.Transform.C48_condition_left",
    "Verif.Transform.C48_pattern",
    "Verif.Transform.C48_match"
   ],
   "note": "Fields that are empty arrays are excluded: the matcher skips conditions on them (C22_negation). A unsigned or signed constant on the left of a float field is given by C45_constant_left_int."
  },
  {
   "property": "C49",
   "status": "partial",
   "theorems": [
    "Verif.Transform.C49_each_partial",
    "Verif.Transform.C49_loopFree_partial",
    "Verif.Transform.C49_positive_partial",
    "Verif.Transform.C49_several_partial",
    "Verif.Transform.C49_fresh",
    "Verif.Transform.C49_constants_crash"
   ],
   "note": "Proved for the fragment (conditions on one field or several, loops, negation) on regular documents, in terms of the independent truth value; before a match nothing is reported. False for constant expressions: their bucket ids are -1 and -2, and ExpressionMatched indexes with them (C49_constants_crash)."
  },
  {
   "property": "C50",
   "status": "proved",
   "theorems": [
    "Verif.Filter.C50_output",
    "Verif.Filter.C50_invalid"
   ],
   "note": "For the structures that participle fills in for a filter of the grammar (Filt.build); participle itself is not modelled."
  },
  {
   "property": "C51",
   "status": "partial",
   "theorems": [
    "Verif.Filter.C51_match_partial",
    "Verif.Filter.C51_several_partial",
    "Verif.Filter.C51_constants_partial",
    "Verif.Filter.C51_negation",
    "Verif.Filter.C51_not_true",
    "Verif.Filter.C51_scalar",
    "Verif.Filter.C51_anywhere",
    "Verif.Filter.C51_exists",
    "Verif.Filter.C51_negated",
    "Verif.Filter.C51_or_loses"
   ],
   "note": "False as stated: the constant TRUE (C51_negation, C51_not_true), scalar documents (C51_scalar), values the matcher does not see (C51_or_loses). C51_anywhere gives the verdict on every document, scalars included, with TRUE read as false: the truth of the filter on what is seen of the document. Conditions about one field each and comparisons of several fields none of which contains all others; divisors are nonzero constants."
  },
  {
   "property": "C52",
   "status": "proved",
   "theorems": [
    "Verif.Filter.C52_operators",
    "Verif.Filter.C52_values"
   ],
   "note": "C52_values is about every side of a comparison, i.e. nested calls, arithmetic and signs."
  },
  {
   "property": "C53",
   "status": "proved",
   "theorems": [
    "Verif.Simple.C53_chain"
   ],
   "note": "Words separated by white space; operators written without spaces around them are not covered by the theorem."
  },
  {
   "property": "C54",
   "status": "partial",
   "theorems": [
    "Verif.Simple.C54_partial",
    "Verif.Simple.C54_negation"
   ],
   "note": "Pure chains proved; precedence in mixed chains is false (negation with witness)."
  },
  {
   "property": "C55",
   "status": "partial",
   "theorems": [
    "Verif.Simple.C55_partial",
    "Verif.Simple.C55_negation",
    "Verif.Simple.C55_twice",
    "Verif.Simple.C55_zero",
    "Verif.Simple.C55_around"
   ],
   "note": "Parts followed by indices proved; an index followed by a part is read twice (negation), index 0 is refused, text next to backticks is lost."
  },
  {
   "property": "C56",
   "status": "partial",
   "theorems": [
    "Verif.Simple.C56_partial",
    "Verif.Simple.C56_hangs",
    "Verif.Simple.C56_witness",
    "Verif.Simple.C56_negation",
    "Verif.Simple.C56_needs",
    "Verif.Simple.C56_outside",
    "Verif.Simple.quoteLoop_hangs_iff",
    "Verif.Simple.parseTokens_ends",
    "Verif.Simple.hangs_iff"
   ],
   "note": "Proved for every text that lacks '(' or ')' or quotation marks, and for the output of every tree. False in general: within parentheses a quoted value of several words, one of which ends in ')' without ending the value, loops for ever, e.g. ( a == \"b (c) d\" ). The loop over quoted words is characterised exactly; which of the remaining texts reach it is not."
  },
  {
   "property": "C57",
   "status": "partial",
   "theorems": [
    "Verif.Simple.C57_negation",
    "Verif.Simple.C57_second",
    "Verif.Simple.C57_group",
    "Verif.Simple.C57_constant",
    "Verif.Simple.C57_operand",
    "Verif.Simple.C57_lost",
    "Verif.Simple.C57_lost_and"
   ],
   "note": "Both halves are false; witnesses proved. C53 shows that well-formed chains neither panic nor lose anything."
  },
  {
   "property": "C58",
   "status": "partial",
   "theorems": [
    "Verif.Simple.C58_partial",
    "Verif.Simple.C58_negation"
   ],
   "note": "Proved when the text before the delimiter does not start or end with its characters; false otherwise."
  },
  {
   "property": "C59",
   "status": "partial",
   "theorems": [
    "Verif.Simple.C59_numbers",
    "Verif.Simple.C59_negation"
   ],
   "note": "Numbers proved in full; a quoted number is read as a number (negation)."
  },
  {
   "property": "C60",
   "status": "partial",
   "theorems": [
    "Verif.Simple.C60_partial",
    "Verif.Simple.C60_negation",
    "Verif.Simple.C60_date"
   ],
   "note": "Calls in the first argument proved; a call as second argument loses its argument, an invalid date inside a call is accepted (negations)."
  },
  {
   "property": "C61",
   "status": "partial",
   "theorems": [
    "Verif.Simple.C61_partial",
    "Verif.Simple.C61_meaning_partial",
    "Verif.Simple.C61_first_partial",
    "Verif.Simple.C61_negation",
    "Verif.Simple.C61_rejected",
    "Verif.Simple.C61_bare_group"
   ],
   "note": "Proved for groups at the start (nested to any depth), one group as the last link, and the whole text in parentheses. The full statement C61_groups is false: C61_negation (a group followed by a link that is not at the start is an error), further rejected forms in C61_rejected."
  },
  {
   "property": "C62",
   "status": "partial",
   "theorems": [
    "Verif.Transform.C62_match_partial",
    "Verif.Transform.C62_values_partial",
    "Verif.Transform.C62_missing_partial",
    "Verif.Transform.run_multi",
    "Verif.Transform.C62_negation",
    "Verif.Transform.C62_empty_arrays",
    "Verif.Transform.C62_repeated_keys"
   ],
   "note": "From text to verdict for Boolean combinations of one-field conditions, loops with one-field bodies (run_multi) and comparisons of any number of fields none of which contains all others. False as stated: scalar documents (C62_negation), empty arrays (C62_empty_arrays), fields containing each other (C32_two_fields: compilation panics). The verdict on all other documents is given by C84_verdict, C84_loopFree (property C84)."
  },
  {
   "property": "C63",
   "status": "proved",
   "theorems": [
    "Verif.Slow.C63_reset",
    "Verif.Slow.C63_independent",
    "Verif.Slow.C63_clean"
   ],
   "note": "No hypotheses on the expressions; json.Unmarshal is a parameter."
  },
  {
   "property": "C64",
   "status": "partial",
   "theorems": [
    "Verif.Slow.C64_partial",
    "Verif.Slow.C64_negation"
   ],
   "note": "Proved for expressions in which no loop binds the variable of a loop around it or 0. False otherwise: the inner loop deletes the outer value (negation with witness)."
  },
  {
   "property": "C65",
   "status": "proved",
   "theorems": [
    "Verif.Filter.C65_pcre",
    "Verif.Filter.C65_escaped"
   ],
   "note": "Escapes before the parenthesis are not looked at (C65_escaped)."
  },
  {
   "property": "C66",
   "status": "partial",
   "theorems": [
    "Verif.Transform.C66_partial",
    "Verif.Transform.C66_negation"
   ],
   "note": "Proved for expressions of the fragment (every condition on one field with constants, loops included) and damage between two tokens by a byte that occurs in no JSON text outside of strings, whatever follows it: an error, or the verdict and the results of the undamaged document. As stated false: texts that end early get a verdict of their own or crash, damage inside of a number or by bytes that may occur changes values. Missing: comparisons of several fields."
  },
  {
   "property": "C67",
   "status": "proved",
   "theorems": [
    "Verif.Simple.C67_balanced",
    "Verif.Simple.C67_quoted"
   ],
   "note": "Quotes are excluded because a parenthesis inside a quoted value is text (C67_quoted); texts with quotes or calls are not covered."
  },
  {
   "property": "C68",
   "status": "partial",
   "theorems": [
    "Verif.Date.C68_partial",
    "Verif.Date.C68_negation"
   ],
   "note": "The texts read are characterised exactly (C68_partial). As stated false: with '/', '.' or a blank between year, month and day the patterns match and time.Parse fails. time.Parse is a parameter with the assumptions RfcLaws."
  },
  {
   "property": "C69",
   "status": "partial",
   "theorems": [
    "Verif.Date.C69_partial",
    "Verif.Date.C69_negation",
    "Verif.Date.C69_crash"
   ],
   "note": "Everything read passes the check; what passes and is not read is characterised exactly. As stated false, and the compiler panics on such an expression (C69_crash)."
  },
  {
   "property": "C70",
   "status": "partial",
   "theorems": [
    "Verif.Date.C70_partial",
    "Verif.Date.C70_negation",
    "Verif.Date.C70_values",
    "Verif.Date.C70_function",
    "Verif.Date.C70_others"
   ],
   "note": "Characterised exactly: they agree unless the text is an existing day with a time after blanks, which only documents read."
  },
  {
   "property": "C71",
   "status": "partial",
   "theorems": [
    "Verif.Simple.C71_partial",
    "Verif.Simple.C71_negation",
    "Verif.Simple.C71_groups",
    "Verif.Simple.C71_word",
    "Verif.Simple.C71_call"
   ],
   "note": "Proved for all texts of the tokens described, under the condition that the words of both or neither text contain exactly one of the symbols && and ||; without that condition it is false (white space before || changes the grouping). Calls and quoted values with white space are not among the tokens; with a call, white space matters."
  },
  {
   "property": "C72",
   "status": "partial",
   "theorems": [
    "Verif.FastVal.C72_one",
    "Verif.FastVal.C72_angles",
    "Verif.FastVal.C72_two",
    "Verif.FastVal.C72_arith",
    "Verif.FastVal.C72_float",
    "Verif.FastVal.C72_not_numbers",
    "Verif.FastVal.C72_abs_kind",
    "Verif.FastVal.C72_abs_int",
    "Verif.FastVal.C72_abs_partial",
    "Verif.FastVal.C72_abs_large",
    "Verif.FastVal.C72_round_kind",
    "Verif.FastVal.C72_round_partial",
    "Verif.FastVal.C72_round_below_half",
    "Verif.FastVal.C72_round_mid",
    "Verif.FastVal.C72_round_high",
    "Verif.FastVal.C72_negation"
   ],
   "note": "Full for the float functions, arithmetic and values that are not numbers. As stated false for ABS (integers go through float64: ABS(-9007199254740993) = 9007199254740992) and ROUND (0.49999999999999994 gives 1, odd numbers between 2^52 and 2^53 the next even number); the exceptions are characterised exactly below 2^63. binary64 is assumed to follow the laws B64 (ext64 is a model of them)."
  },
  {
   "property": "C73",
   "status": "partial",
   "theorems": [
    "Verif.FastVal.C73_partial",
    "Verif.FastVal.C73_document_partial",
    "Verif.FastVal.C73_apart",
    "Verif.FastVal.C73_tolerance",
    "Verif.FastVal.C73_large",
    "Verif.FastVal.C73_not_transitive",
    "Verif.FastVal.C73_negation"
   ],
   "note": "With a float on one side and both numbers of at most 53 significant bits the order is that of the values up to the tolerance 1e-7 (C73_partial), and exactly that of the values from a difference of 1e-7 on (C73_apart). As stated false: numbers closer than 1e-7 are equal (not transitive), and integers above 2^53 are rounded before comparing."
  },
  {
   "property": "C74",
   "status": "partial",
   "theorems": [
    "Verif.Quote.C74_equal",
    "Verif.Quote.C74_equal_document",
    "Verif.Quote.C74_order",
    "Verif.Quote.C74_order_document",
    "Verif.Quote.C74_partial",
    "Verif.Quote.C74_negation",
    "Verif.Quote.C74_match",
    "Verif.Quote.C74_pattern"
   ],
   "note": "Equality holds for all byte strings. The order by code points is false (C74_negation: a line feed orders above A); C74_order gives the order there is, for all strings of scalar values. Patterns: C74_pattern gives the text they are matched with. Assumes that the quote function is the modelled strconv.AppendQuote, with any table of printable characters."
  },
  {
   "property": "C75",
   "status": "partial",
   "theorems": [
    "Verif.FastVal.C75_int",
    "Verif.FastVal.C75_uint_partial",
    "Verif.FastVal.C75_uint_complete",
    "Verif.FastVal.C75_fraction",
    "Verif.FastVal.C75_bool",
    "Verif.FastVal.C75_text",
    "Verif.FastVal.C75_text_partial",
    "Verif.FastVal.C75_bar",
    "Verif.FastVal.C75_roundtrip",
    "Verif.FastVal.C75_time"
   ],
   "note": "Integers: exact characterization. Unsigned integers: all values except texts with a fraction or exponent, where it is false (1.5 gives 1, negation with witness). Truth values: the accepted texts are characterized exactly; letters may be replaced by bars (negation with witness)."
  },
  {
   "property": "C76",
   "status": "partial",
   "theorems": [
    "Verif.Transform.C76_match_partial",
    "Verif.Transform.C76_members_partial",
    "Verif.Transform.C76_missing_array",
    "Verif.Transform.C76_empty_array",
    "Verif.Transform.C76_document_is_array",
    "Verif.Transform.C76_repeated_keys"
   ],
   "note": "From text to verdict for boolean combinations of conditions, comparisons of several fields and loops whose bodies compare one field of the variable with constants and fields of the document (loops in bodies included), on documents where the array is there and not empty. False for missing and empty arrays and for documents that are arrays (witnesses). The verdict on all other documents is given by C84_verdict and C84_loop_members (property C84)."
  },
  {
   "property": "C77",
   "status": "partial",
   "theorems": [
    "Verif.Simple.C77_negation",
    "Verif.Simple.C77_name_partial",
    "Verif.Simple.C77_unary_partial",
    "Verif.Simple.C77_fields",
    "Verif.Simple.C77_error",
    "Verif.Simple.C77_other",
    "Verif.Simple.C77_spaces",
    "Verif.Simple.C77_words",
    "Verif.Simple.C77_calls"
   ],
   "note": "False as stated: BRAND == 1 is refused, MAJORITY == 1 and `ORDER` == 1 are read as something else. Proved: a condition on a one-word name is read as such exactly if no part of the name contains an operator; and no text at all yields a field (outside of calls) whose one-word name contains one."
  },
  {
   "property": "C78",
   "status": "partial",
   "theorems": [
    "Verif.Filter.C78_short_partial",
    "Verif.Filter.C78_two",
    "Verif.Filter.C78_sum",
    "Verif.Filter.C78_ignored",
    "Verif.Filter.C78_negation"
   ],
   "note": "False as stated (C78_full): no structure the parser could return stands for the sum of three different fields, because at most two operands are left in the expression. True for at most one operator. Nothing is assumed about the parser library."
  },
  {
   "property": "C79",
   "status": "partial",
   "theorems": [
    "Verif.Transform.C79_members_partial",
    "Verif.Transform.C79_same",
    "Verif.Transform.C79_mixed",
    "Verif.Transform.C79_nested",
    "Verif.Transform.C79_negation"
   ],
   "note": "False as stated (C79_full). For fields directly below the document: conditions on one field are about the first member of that name, comparisons of several fields about the last. a = 1 AND a = b matches {\"a\":1,\"a\":2,\"b\":2}, which no choice of one member explains."
  },
  {
   "property": "C80",
   "status": "partial",
   "theorems": [
    "Verif.Simple.C80_chain_partial",
    "Verif.Simple.C80_order_partial",
    "Verif.Simple.C80_groups_partial",
    "Verif.Simple.C80_mixed",
    "Verif.Simple.C80_negation",
    "Verif.Simple.C80_anywhere",
    "Verif.Simple.C80_synonyms"
   ],
   "note": "Proved for chains of one connective, for groups followed by a chain without short circuiting (read from left to right) and for two groups joined by a connective; conditions about one field each. With AND before OR it is false: {\"a\":1} is not matched by a == 1 || b == 2 && c == 3. C80_anywhere: all texts with parentheses where they are understood, conditions about several fields, all documents; the answer is the conditions on what is seen, joined in the order of the parser. OR and || are read differently (C80_synonyms)."
  },
  {
   "property": "C81",
   "status": "proved",
   "theorems": [
    "Verif.Filter.C81_unique",
    "Verif.Filter.C81_parse",
    "Verif.Filter.C81_match_partial",
    "Verif.Filter.C81_not_paren",
    "Verif.Filter.C81_not_paren_error"
   ],
   "note": "Uniqueness is proved for every sequence of tokens that is the text of a filter with at most one arithmetic operator per term (other readings may have several). The parser library is a parameter; assumed of it is only that what it returns is a reading (Reads). C81_match_partial has the restrictions of C51_match_partial."
  },
  {
   "property": "C82",
   "status": "partial",
   "theorems": [
    "Verif.Transform.C82_ignored_partial",
    "Verif.Transform.C82_false_partial",
    "Verif.Transform.C82_true_partial",
    "Verif.Transform.C82_crash",
    "Verif.Transform.C82_documents_crash",
    "Verif.Transform.C82_negation",
    "Verif.Transform.C82_same_matcher",
    "Verif.Transform.C82_anywhere"
   ],
   "note": "False as stated (C82_full): constants are ignored, so TRUE among the expressions matches nothing by itself (exactly: C82_true_partial), and a matcher for constants only crashes on every document. For all expressions the matcher decides every text as the one without the constants (C82_same_matcher); verdict on every document: C82_anywhere."
  },
  {
   "property": "C83",
   "status": "proved",
   "theorems": [
    "Verif.Transform.C83_verdict",
    "Verif.Transform.C83_loopFree",
    "Verif.Transform.C83_exists",
    "Verif.Transform.C83_regular"
   ],
   "note": "Exact verdict on every document for the fragment of C22 and C23 (one field per condition). C83_loopFree states it without reference to the matcher's order of visits, C83_exists for EXISTS alone, C83_regular that regular documents hide nothing."
  },
  {
   "property": "C84",
   "status": "proved",
   "theorems": [
    "Verif.Transform.C84_verdict",
    "Verif.Transform.C84_loopFree",
    "Verif.Transform.C84_members",
    "Verif.Transform.C84_scalar",
    "Verif.Transform.C84_loop_members",
    "Verif.Transform.C84_fields_remain"
   ],
   "note": "Exact verdict on every document for the fragment of C62 and C76, loops that refer to the document included. C84_loopFree states it for filters without loops, C84_members for one comparison of two members, C84_loop_members for a loop over a member that compares the elements with another member."
  },
  {
   "property": "C85",
   "status": "proved",
   "theorems": [
    "Verif.Transform.C85_verdict",
    "Verif.Transform.C85_members",
    "Verif.Transform.C85_complete",
    "Verif.Transform.C85_stale",
    "Verif.Transform.C85_regular"
   ],
   "note": "Exact verdict on every document for the fragment of C34. C85_members states it for a loop that compares two members of the element; C85_complete: the elements do not influence each other if all have both members; C85_stale: two elements that each have one of the members are compared as if they were one; C85_regular: agrees with C34 where that applies."
  },
  {
   "property": "C86",
   "status": "proved",
   "theorems": [
    "Verif.Transform.C86_compiles",
    "Verif.Transform.C86_alone",
    "Verif.Transform.C86_constants",
    "Verif.Transform.C86_order_matters",
    "Verif.Transform.C86_compact",
    "Verif.Transform.C86_compact_strict"
   ],
   "note": "Exact: C86_compiles has no hypotheses. Consequences: merged expressions compile iff each alone does; invalid patterns and times crash; a.c + a = a.b.x compiles and a + a.c = a.b.x crashes; compaction never turns a compilable expression into one that crashes, and can remove what crashes."
  },
  {
   "property": "C87",
   "status": "proved",
   "theorems": [
    "Verif.Filter.C87_filter",
    "Verif.Filter.C87_crash",
    "Verif.Filter.C87_pattern",
    "Verif.Filter.C87_arithmetic"
   ],
   "note": "For the structures that participle fills in for a filter of the grammar; C87_arithmetic says what happens to arithmetic that is left incomplete. The filter a = a.b (C87_crash) and every REGEXP_CONTAINS with a pattern that regexp.Compile or PCRE rejects (C87_pattern) crash the process instead of returning an error."
  },
  {
   "property": "C88",
   "status": "proved",
   "theorems": [
    "Verif.Transform.C88_terminates",
    "Verif.Filter.C88_filter",
    "Verif.Simple.C88_simple",
    "Verif.Transform.C88_genuine_needed",
    "Verif.Match.run_halts"
   ],
   "note": "Every list of expressions that compiles in which loops directly or indirectly inside loops have conditions as bodies (Bodied); without that it is false for inconsistent states (C88_genuine_needed). All filters and all simple expressions meet it (C88_filter, C88_simple)."
  },
  {
   "property": "C89",
   "status": "proved",
   "theorems": [
    "Verif.Simple.C89_compiles",
    "Verif.Simple.C89_phrase",
    "Verif.Simple.C89_word",
    "Verif.Simple.C89_crash"
   ],
   "note": "Exact for all texts with a meaning (C61). a LIKE \"[x y\" is accepted by the parser and crashes the compiler (C89_phrase), a == ABS(a.b) too (C89_crash); patterns of one word do not crash (C89_word)."
  },
  {
   "property": "C90",
   "status": "proved",
   "theorems": [
    "Verif.Transform.C90_prints",
    "Verif.Transform.C90_tree",
    "Verif.Transform.C90_negation"
   ],
   "note": "Exact; C90_negation is the witness that the exceptions are real."
  },
  {
   "property": "C91",
   "status": "proved",
   "theorems": [
    "Verif.Transform.C91_deterministic"
   ],
   "note": "For every reordering of entries with different keys, at all nodes."
  },
  {
   "property": "C92",
   "status": "proved",
   "theorems": [
    "Verif.Match.C92_empty",
    "Verif.Match.C92_blank",
    "Verif.Match.C92_delimiter",
    "Verif.Match.C92_error",
    "Verif.Match.C92_cases"
   ],
   "note": "For every definition and every state of the matcher."
  },
  {
   "property": "C93",
   "status": "proved",
   "theorems": [
    "Verif.Transform.C93_trailing",
    "Verif.Transform.C93_same",
    "Verif.Match.C93_definition",
    "Verif.Transform.C93_follows_needed"
   ],
   "note": "For everything that compiles (C93_full is the statement, C93_trailing the proof); C93_same adds crashes and the results of the single expressions. The condition that a number is not continued is needed (C93_follows_needed)."
  },
  {
   "property": "C94",
   "status": "partial",
   "theorems": [
    "Verif.ExprText.C94_text_partial",
    "Verif.ExprText.C94_negation",
    "Verif.ExprText.C94_kinds",
    "Verif.ExprText.C94_single",
    "Verif.ExprText.C94_blank"
   ],
   "note": "True for conditions about fields, functions, values and patterns and all their combinations if names contain no dots, blanks, commas and parentheses, the texts of constants are words that tell them apart, and conjunctions and disjunctions have at least two parts (C94_text_partial). False otherwise: a field a.b reads like the path a, b (C94_negation); times read like values and PCRE patterns like patterns (C94_kinds); one-part conjunctions and disjunctions like the part (C94_single); a value with blanks may swallow the operator (C94_blank). Go's %v is a parameter."
  },
  {
   "property": "C95",
   "status": "proved",
   "theorems": [
    "Verif.Transform.C95_no_error",
    "Verif.Transform.C95_verdict",
    "Verif.Transform.C95_safe_needed",
    "Verif.Transform.C95_constants_crash"
   ],
   "note": "Calls that can crash are excluded by SafeE (unknown functions, missing parameters, division by zero: C95_safe_needed). A matcher for constants only crashes on every document (C95_constants_crash)."
  },
  {
   "property": "C96",
   "status": "proved",
   "theorems": [
    "Verif.Transform.C96_some"
   ],
   "note": "For everything that compiles, nested loops and several expressions included; that a verdict is returned at all is C95."
  },
  {
   "property": "C97",
   "status": "partial",
   "theorems": [
    "Verif.Transform.C97_alone_partial",
    "Verif.Transform.C97_answers",
    "Verif.Transform.C97_negation"
   ],
   "note": "False as stated (C97_full): a EXISTS alone matches {\"a\":{}}, together with a.b = 1 it does not. Proved on every document for expressions of the fragment (one-field conditions, comparisons of several fields, loops, loops that refer to the document) that the others do not disturb: none of them loops over an array on the way to its fields or asks for something below them unless it does so itself. What is answered otherwise is C97_answers."
  },
  {
   "property": "C98",
   "status": "proved",
   "theorems": [
    "Verif.Transform.C98_all",
    "Verif.Transform.C98_definition",
    "Verif.Transform.C98_operation"
   ],
   "note": "Members are compared as a map, operands by their texts. The condition on line feeds is needed: C98_negation gives two definitions printed alike with different verdicts. Formatting of floats, times and regular expressions is a parameter."
  },
  {
   "property": "C99",
   "status": "proved",
   "theorems": [
    "Verif.Transform.C99_prints",
    "Verif.Transform.C99_tells",
    "Verif.Transform.C99_verdict"
   ],
   "note": "Model of binTreeState.String in Transform.PrintState."
  }
 ]
}
