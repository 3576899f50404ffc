{"id": "C01", "title": "Order-independent Boolean verdict", "statement": "For a compiled Boolean combination (AND/OR/NOT/multi-expression merge) of conditions, deciding the conditions one at a time in any order, skipping those already settled, and then closing the document gives exactly the Boolean value of the combination with every condition that was never decided counted as false.", "quantifier": "every combination tree of any size, every truth assignment to its conditions, every order and every subset of conditions that get decided", "why_tests_cant": "The number of trees and of decision orders is unbounded; tests fix a handful of trees and orders.", "anchors": ["bintree.go: MarkNode, checkNode, resolveRecursive, Resolve", "fastMatcher.go: Match"]}
{"id": "C02", "title": "Early decisions are final and justified", "statement": "If the matcher considers a (sub)expression decided before all of its conditions were evaluated, then every way of deciding the remaining conditions gives that same value; and it never leaves undecided a (sub)expression whose value is already forced.", "quantifier": "every tree, every reachable partial evaluation, every completion of it", "why_tests_cant": "Soundness of short-circuiting quantifies over all completions of all partial evaluations.", "anchors": ["bintree.go: checkNode, MarkNode, IsResolved, IsTrue"]}
{"id": "C03", "title": "No double-resolution panic", "statement": "Evaluating conditions with the 'skip if already settled' guard never triggers the 'cannot resolve same state node twice' panic, the 'cannot check leaf' panic or an out-of-range access, whatever the order of evaluation.", "quantifier": "every tree produced by the compiler, every sequence of guarded evaluations", "why_tests_cant": "A panic would need a specific interleaving of upward propagation and short-circuits that a finite test set may never hit.", "anchors": ["bintree.go: MarkNode, checkNode, resolveRecursive"]}
{"id": "C04", "title": "Resetting a matcher's decision state restores the initial state", "statement": "After Reset the decision state is indistinguishable from the state of a newly created one, whatever had been evaluated before, including after evaluations abandoned inside a loop.", "quantifier": "every tree, every prior sequence of operations", "why_tests_cant": "Histories are unbounded.", "anchors": ["bintree.go: Reset, NewState", "fastMatcher.go: Reset, NewFastMatcher"]}
{"id": "C05", "title": "Loop evaluation is isolated", "statement": "While the body of an ANY/EVERY loop is evaluated on an element, no decision outside that body changes, and clearing the body between elements leaves everything outside it as it was and everything inside undecided.", "quantifier": "every tree, every loop position, every sequence of guarded evaluations inside the body", "why_tests_cant": "Requires a frame argument over all trees and all operations.", "anchors": ["bintree.go: SetStallIndex, ResetNode, MarkNode", "fastMatcher.go: matchLoop"]}
{"id": "C06", "title": "Each merged expression gets its own verdict", "statement": "When several expressions are compiled into one matcher, after Match the per-expression verdict (ExpressionMatched) of each expression is the value of that expression alone, and the overall verdict is true exactly when at least one of them matched.", "quantifier": "every non-empty list of expressions and every outcome of their conditions, in every order", "why_tests_cant": "Short-circuiting between merged expressions could hide a verdict for particular orders only.", "anchors": ["bintree.go: checkNode (neor)", "transform.go: transformMergePiece, Transform", "fastMatcher.go: ExpressionMatched"]}
{"id": "C07", "title": "Compilation yields a well-formed decision tree", "statement": "Compiling any list of expressions built from supported forms (with no empty AND/OR) produces a decision tree that passes Validate, has exactly as many nodes as buckets, and whose structure is the Boolean structure of the expressions; so the internal validation panics of Transform cannot occur.", "quantifier": "every list of expressions of any size and nesting", "why_tests_cant": "Expression nesting is unbounded; index bookkeeping errors appear only for particular shapes.", "anchors": ["transform.go: Transform, transformOne, transformOr, transformAnd, transformNot, transformLoop, newBucket", "bintree.go: Validate, validateItem"]}
{"id": "C08", "title": "Validate accepts only consistent trees", "statement": "A tree accepted by Validate is a proper preorder tree: all nodes reachable, parent links right, child links pointing at the actual children.", "quantifier": "every array of tree nodes", "why_tests_cant": "Every possible array would have to be tried; the property is false and a counterexample is proved (child links are only range-checked).", "anchors": ["bintree.go: Validate, validateItem"]}
{"id": "C09", "title": "Tokenizer progress and termination", "statement": "Each successful step either reports end of input or moves the position strictly forward within the input, so tokenizing any input stops after at most length-of-input steps; no read is ever outside the input.", "quantifier": "every byte sequence and every starting position", "why_tests_cant": "Inputs are unbounded.", "anchors": ["jsontokenizer.go: jsonTokenizer.Step"]}
{"id": "C10", "title": "Token text is exactly the bytes of the token", "statement": "The bytes reported for a token are the contiguous slice of the input that ends at the new position, and everything between the old position and the start of the token is JSON whitespace.", "quantifier": "every byte sequence and position", "why_tests_cant": "Inputs are unbounded.", "anchors": ["jsontokenizer.go: jsonTokenizer.Step"]}
{"id": "C11", "title": "Tokenizer errors do not consume input", "statement": "A step that fails leaves the position unchanged, so repeating it fails again in the same way.", "quantifier": "every byte sequence and position", "why_tests_cant": "Inputs are unbounded.", "anchors": ["jsontokenizer.go: jsonTokenizer.Step"]}
{"id": "C12", "title": "Literal tokens obey the JSON grammar", "statement": "A token classified as integer, number, string, escaped string, true, false or null has text derived by the corresponding RFC 8259 grammar rule (integers have no fraction or exponent, plain strings contain no backslash, every \\u has four hex digits, no control characters), and conversely every text of the grammar followed by a delimiter is accepted with that class.", "quantifier": "every byte sequence and position; every literal of the grammar", "why_tests_cant": "The grammar is an infinite language.", "anchors": ["jsontokenizer.go: jsonTokenizer.Step"]}
{"id": "C13", "title": "Tokenizing a rendered document returns its tokens", "statement": "For any JSON value written with arbitrary whitespace between tokens, stepping through the text yields exactly the token sequence of that value and then end of input.", "quantifier": "every JSON value of any depth and size, every placement of whitespace", "why_tests_cant": "Documents and layouts are unbounded.", "anchors": ["jsontokenizer.go: jsonTokenizer.Step, Reset"]}
{"id": "C14", "title": "Skipping consumes exactly one value", "statement": "Skipping a value positioned after its first token leaves the position exactly at the end of that value, for nested containers of any depth, whatever follows.", "quantifier": "every JSON value, any surrounding text, any whitespace", "why_tests_cant": "Nesting depth is unbounded.", "anchors": ["fastMatcher.go: skipValue, leaveValue"]}
{"id": "C15", "title": "Integer literals are read exactly", "statement": "An integer literal of the document that fits in a signed 64-bit integer is read as that integer.", "quantifier": "every decimal literal in the int64 range", "why_tests_cant": "2^64 literals; and outside the range the value silently wraps, which is proved as a counterexample to the unrestricted claim.", "anchors": ["fastlitparse.go: fastLitParser.ParseInt"]}
{"id": "C16", "title": "Escaped strings decode per RFC 8259", "statement": "Decoding a string literal with escapes gives the UTF-8 bytes of the denoted characters (surrogate pairs combined), and the result is never longer than the literal.", "quantifier": "every string literal made of plain bytes and escapes in any order and number", "why_tests_cant": "Unbounded strings; surrogate handling has many corner cases. Lone low surrogates and bad pairs are accepted by the code, proved as counterexamples to strictness.", "anchors": ["fastlitescape.go: unescapeJsonString, unescapeToUTF8, decodeUnicodeEscape"]}
{"id": "C17", "title": "Integer comparison is the mathematical order", "statement": "Comparing two integer values (signed or unsigned, document or user supplied) yields the sign of their mathematical difference and is reported as a valid comparison.", "quantifier": "every pair of 64-bit integers in every signedness combination", "why_tests_cant": "2^128 pairs; the claim fails for zero against an unsigned value, proved as a counterexample.", "anchors": ["fastval.go: Compare, compareNumerics, compareInt, compareUint, AsInt, AsUint"]}
{"id": "C18", "title": "Comparison is antisymmetric", "statement": "Swapping the operands of a comparison negates the result and keeps its validity.", "quantifier": "every pair of values of every type", "why_tests_cant": "All pairs of values of all types; type-dispatch asymmetries only show for particular pairs.", "anchors": ["fastval.go: Compare, compareUserDefined, reverseCompare, Collate"]}
{"id": "C19", "title": "Equality agrees with comparison", "statement": "Two values are reported equal exactly when their comparison is valid and yields zero, and every valid value equals itself.", "quantifier": "every pair of values", "why_tests_cant": "All pairs of values of all types.", "anchors": ["fastval.go: Equals, Compare"]}
{"id": "C20", "title": "Integer arithmetic is exact modulo 2^64", "statement": "Addition, subtraction, multiplication and negation of integer values give the mathematical result whenever it is representable in the result type, and the two's complement reduction otherwise.", "quantifier": "every pair of integer values in every signedness combination", "why_tests_cant": "2^128 pairs.", "anchors": ["fastval_math.go: FastValMathAdd, FastValMathSub, FastValMathMul, FastValMathNeg"]}
{"id": "C21", "title": "Division and modulo never crash", "statement": "Division or modulo by zero in a filter is reported as an invalid value and never crashes the process.", "quantifier": "every pair of numeric values", "why_tests_cant": "The crashing combination depends on the signedness of both operands; it is proved to crash for signed operands and proved safe otherwise.", "anchors": ["fastval_math.go: FastValMathDiv, FastValMathMod"]}
{"id": "C22", "title": "Match computes the expression's meaning on well-formed documents", "statement": "For expressions over document fields compared with constants, existence tests and AND/OR/NOT, Match on the text of a JSON document returns without error or panic exactly the value of the expression on that document.", "quantifier": "every such expression, every JSON document, every layout of its text", "why_tests_cant": "Expressions and documents are unbounded.", "anchors": ["transform.go: Transform", "fastMatcher.go: Match, matchExec, matchObjectOrArray, matchOp"]}
{"id": "C23", "title": "Loops compute ANY / EVERY / ANY AND EVERY", "statement": "A loop over an array field yields, respectively, whether some / every / at least one and every element satisfies the body.", "quantifier": "every array of any length, every body over the element and constants, loops nested to any depth", "why_tests_cant": "Array length and nesting are unbounded. The claim fails for missing arrays with negated bodies, proved as a counterexample.", "anchors": ["fastMatcher.go: matchLoop", "transform.go: transformLoop"]}
{"id": "C24", "title": "Verdict does not depend on document layout", "statement": "Two texts of the same document that differ only in whitespace between tokens give the same verdict.", "quantifier": "every expression of the supported fragment, every document, every pair of layouts", "why_tests_cant": "Unbounded.", "anchors": ["fastMatcher.go: Match", "jsontokenizer.go: Step"]}
{"id": "C25", "title": "Unreferenced fields do not matter", "statement": "Adding, removing or changing fields that the expression does not reference does not change the verdict.", "quantifier": "every expression of the fragment, every document, every unreferenced field and value", "why_tests_cant": "Unbounded.", "anchors": ["fastMatcher.go: matchObjectOrArray, skipValue"]}
{"id": "C26", "title": "Field order does not matter", "statement": "Reordering the members of objects (with distinct keys) does not change the verdict.", "quantifier": "every expression of the fragment, every document, every permutation of members", "why_tests_cant": "Unbounded; short-circuiting makes evaluation order follow document order.", "anchors": ["fastMatcher.go: matchObjectOrArray", "bintree.go: MarkNode"]}
{"id": "C27", "title": "A matcher is reusable after Reset", "statement": "After Reset, Match on a document gives the same verdict, error and per-expression results as a newly created matcher, whatever documents (valid or not) were matched before.", "quantifier": "every match definition, every history of calls, every next document", "why_tests_cant": "Histories are unbounded. The reported status flag is sticky across Reset, proved as a counterexample to the same claim for MatchWithStatus.", "anchors": ["fastMatcher.go: Reset, Match, MatchWithStatus, ExpressionMatched"]}
{"id": "C28", "title": "Compaction preserves meaning", "statement": "Simplifying an expression does not change its value on any document.", "quantifier": "every expression, every assignment of values to its conditions", "why_tests_cant": "Unbounded expressions; false for loops with constant bodies (proved counterexample), proved for the rest.", "anchors": ["expression_compact.go: CompactExpression"]}
{"id": "C29", "title": "Field-reference collection is exact", "statement": "The collected field references of an expression are exactly the document/outer-variable fields it mentions outside its own loop variables, each once.", "quantifier": "every expression", "why_tests_cant": "Unbounded expressions.", "anchors": ["expression_utils.go: fetchExprFieldRefs"]}
{"id": "C30", "title": "JSON expression format round-trips", "statement": "Parsing the JSON array form of an expression gives back that expression, and expressions with unknown tags or malformed parts are rejected with an error rather than silently accepted.", "quantifier": "every expression representable in the JSON format", "why_tests_cant": "Unbounded expressions.", "anchors": ["expression_json.go: ParseJsonExpression, parseJsonSubexpr"]}
{"id": "C31", "title": "Statistics count the expression correctly", "statement": "Scan reports the number of loops, ANDs, ORs, fields and values and the maximum loop depth of the expression.", "quantifier": "every expression", "why_tests_cant": "Unbounded expressions; the nested-loop count and support for all forms fail (proved counterexamples).", "anchors": ["expressionstats.go: Scan, scanOne"]}
{"id": "C32", "title": "Compilation never crashes on well-scoped expressions", "statement": "Compiling an expression in which every loop variable is used inside its loop does not panic.", "quantifier": "every well-scoped expression", "why_tests_cant": "Unbounded expressions; it is false for references to an outer loop variable from an inner loop, for comparisons of a field with its own sub-field and for NOT EXISTS inside a loop: proved counterexamples, with a partial positive result.", "anchors": ["transform.go: getContext, findFieldRefsBestRoot, pickBaseNode", "expression_utils.go: fetchExprFieldRefsRecurse"]}
{"id": "C33", "title": "Existence test sees every present value", "statement": "EXISTS(field) is true whenever the field is present in the document, whatever its value and whatever else the expression mentions.", "quantifier": "every document and expression", "why_tests_cant": "The failing inputs (empty arrays, empty objects with referenced sub-fields) are corner cases of an unbounded space; proved counterexamples and a partial positive result.", "anchors": ["fastMatcher.go: matchExec, matchObjectOrArray"]}
{"id": "C34", "title": "Two-field comparisons use the values of the same element", "statement": "Inside a loop, a comparison between two fields of the loop element uses the values of the current element only.", "quantifier": "every array of elements", "why_tests_cant": "Needs two consecutive elements with complementary missing fields; proved false (stale values of an earlier element are used).", "anchors": ["fastMatcher.go: matchAfter, literalFromSlot, matchLoop"]}
{"id": "C35", "title": "Slow and fast matcher agree", "statement": "On expressions supported by both and documents where the reference matcher reports no error, both matchers give the same verdict.", "quantifier": "every such expression and document", "why_tests_cant": "Unbounded; with several expressions they disagree (one requires all, the other any): proved counterexample.", "anchors": ["slowmatcher.go: Match, matchOne", "fastMatcher.go: Match"]}
{"id": "C36", "title": "Removing items keeps exactly the other items", "statement": "Removing keys from a JSON object text yields the text of the object without those members (whitespace dropped), the removed raw values, and their number.", "quantifier": "every JSON object, every list of distinct keys", "why_tests_cant": "Unbounded documents; fails for retained arrays ending in a plain string and for duplicate keys in the list: proved counterexamples.", "anchors": ["jsonComposer.go: MatchAndRemoveItemsFromJsonObject"]}
{"id": "C37", "title": "Removing items never overruns or crashes", "statement": "With a destination buffer at least as long as the source, removing items never writes outside it: it returns a result or an error for every input bytes.", "quantifier": "every source byte sequence and key list, every destination length at least that of the source (and a nil destination)", "why_tests_cant": "Inputs are unbounded; with a shorter buffer it crashes instead of reporting insufficient memory (proved counterexample).", "anchors": ["jsonComposer.go: MatchAndRemoveItemsFromJsonObject, jsonObjComposer.Write"]}
{"id": "C38", "title": "Malformed documents are reported, not crashed on", "statement": "Match on arbitrary bytes returns a verdict or an error; it does not panic.", "quantifier": "every byte sequence", "why_tests_cant": "Inputs are unbounded; proved false with concrete malformed inputs.", "anchors": ["fastMatcher.go: Match, matchObjectOrArray, skipValue, leaveValue"]}
{"id": "C39", "title": "Matchers on different goroutines do not interfere", "statement": "Two matchers used concurrently by different goroutines produce the same verdicts as when used one after the other.", "quantifier": "every interleaving of their comparison steps", "why_tests_cant": "Schedules are unbounded; a shared conversion buffer makes it false for number-to-string comparisons (proved counterexample schedule), and it is proved for comparisons that do not convert numbers to strings.", "anchors": ["fastval.go: toJsonStringInternal, toJsonStringBuffer, compareStrings"]}
{"id": "C40", "title": "Escaped keys address the same field", "statement": "A member whose key is written with escapes is matched by a field path naming the decoded key.", "quantifier": "every key and every spelling of it", "why_tests_cant": "Spellings are unbounded.", "anchors": ["fastMatcher.go: matchObjectOrArray", "fastlitparse.go: ParseEscStringWLen"]}
{"id": "C41", "title": "Integer division and modulo truncate toward zero", "statement": "For a non-zero divisor, dividing two integer values yields the quotient truncated toward zero and modulo yields the remainder with the sign of the dividend, in the kind determined by the operand kinds.", "quantifier": "every pair of integer values in every signedness combination, except a negative signed dividend with an unsigned divisor of at least 2^63 (which falls back to floating point)", "why_tests_cant": "2^128 pairs; the extreme value divided by minus one and mixed signedness are easy to miss.", "anchors": ["fastval_math.go: FastValMathDiv, FastValMathMod"]}
{"id": "C42", "title": "Compaction leaves no constants and is idempotent", "statement": "A compacted expression is a constant or contains no constant below its top-level ANDs and ORs (and no empty AND/OR there), and compacting it again changes nothing.", "quantifier": "every expression", "why_tests_cant": "Expressions are unbounded trees; tests cover a few shapes.", "anchors": ["expression_compact.go: CompactExpression, compactExpressionOr, compactExpressionAnd"]}
{"id": "C43", "title": "Removing items is idempotent and yields an object", "statement": "Whenever removing keys from a JSON object succeeds, the result is the text of a JSON object, and removing the same keys from the result returns it unchanged and removes nothing.", "quantifier": "every JSON object, every list of distinct keys", "why_tests_cant": "Unbounded documents and keys; needs the structural invariant that the composer never leaves dangling commas.", "anchors": ["jsonComposer.go: MatchAndRemoveItemsFromJsonObject, jsonObjComposer.Write"]}
{"id": "C44", "title": "Copying a state copies its decisions", "statement": "Copying one binary tree state into another of the same tree makes every node's decision that of the source and keeps the target's stall index; with equal stall indices the states become equal.", "quantifier": "every tree and every two reachable states of it", "why_tests_cant": "States are unbounded; a partial copy would show only on particular histories.", "anchors": ["bintree.go: CopyFrom"]}
{"id": "C45", "title": "Comparison of values of different kinds follows a fixed table", "statement": "The order and validity of comparing a document value with a constant (on either side), and of two document values, is the one given by a table over their kinds: null below everything, truth values as 0 and 1, numbers by value, strings as the number or time they spell where they do and by text otherwise, containers above everything else and among themselves by length and bytes.", "quantifier": "every pair of values of every kinds", "why_tests_cant": "Pairs of unbounded strings and 64-bit numbers over all combinations of kinds, most of which no test compares.", "anchors": ["fastval.go: Compare, compareUserDefined, compareInternal, checkCompatibility, Collate, ImplicitConvTable"]}
{"id": "C46", "title": "Patterns match the quoted text of strings and nothing else", "statement": "A pattern comparison matches exactly if the left value is a string, the right one a pattern, and the pattern matches the quoted text of the string; it is reported as meaningful only in that case.", "quantifier": "every value, every pattern, every behaviour of the regular expression engine", "why_tests_cant": "The engine is abstract and values are unbounded.", "anchors": ["fastval.go: Matches, matchStrings, AsRegex"]}
{"id": "C47", "title": "Decimal text is read exactly", "statement": "Text converts to a 64-bit number exactly if it is a non-empty sequence of digits, with an optional sign for signed numbers, whose value is in range, and then to that value; formatting a number and reading it back yields the number.", "quantifier": "every byte string, every 64-bit number", "why_tests_cant": "Unbounded texts and 2^64 numbers.", "anchors": ["fastval.go: AsInt, AsUint, toJsonStringInternal"]}
{"id": "C48", "title": "A comparison of a field with a constant depends only on the denoted value", "statement": "The matcher's verdict for comparing a field with a constant is the one the kinds table gives for the value that the first occurrence of the field denotes in the document; if the field is missing, only != holds.", "quantifier": "every path, constant, comparison and document in which the field is not an empty array", "why_tests_cant": "Unbounded documents, spellings and constants.", "anchors": ["fastMatcher.go: matchOp, matchElems", "fastlitparse.go: Parse", "transform.go: makeDataRefRecurse"]}
{"id": "C49", "title": "Per-expression verdicts of merged expressions", "statement": "When several expressions are merged into one match definition and a document is matched, asking afterwards whether expression i matched answers exactly the truth value of expression i on the document, independently of the other expressions, and the question never crashes.", "quantifier": "for all expression lists of the supported fragment, all documents and their texts, all matchers that are new or reset, all indices", "why_tests_cant": "needs every combination of merged expressions and every order in which a document decides their conditions; the early exit of the matcher must never happen before all expressions are decided", "anchors": ["fastMatcher.go:844-848", "transform.go:586-654", "bintree.go resolveRecursive (neor)"]}
{"id": "C50", "title": "Filters become their expressions without crashing", "statement": "Whatever the grammar accepts, OutputExpression does not panic; it returns an error exactly for filters with an unknown comparison operator, a DATE literal that is not a date, a computed pattern or a PCRE pattern without the PCRE library, and otherwise the expression with the same structure.", "quantifier": "all filters of the grammar, of any depth, and all environments", "why_tests_cant": "the grammar has infinitely many filters and dozens of optional pointers whose combinations decide which branch runs", "anchors": ["filterExprParser.go:14-50", "filterExprParser.go:60-1500", "filterExprParser.go:1513-1546"]}
{"id": "C51", "title": "A filter matches the documents on which it is true", "statement": "The matcher built for a filter text answers, on every document, the truth value that the filter has according to the language: AND binds stronger than OR, parentheses group, NOT negates, comparisons are applied to the value of the field, conditions on missing fields are false except for !=, IS MISSING and IS NOT NULL.", "quantifier": "all filters, documents and texts of them, all fresh or reset matchers", "why_tests_cant": "needs all combinations of filters and documents across parser output, compilation and streaming match", "anchors": ["filterExprParser.go:1530-1546", "transform.go:586-654", "fastMatcher.go:610-700"]}
{"id": "C52", "title": "Operators and function names stand for their functions", "statement": "The comparison written with one or two operator characters is the one of the language's table and nothing else is accepted, and every arithmetic operator and function name, after being written into the expression by the parser and looked up by the matcher, computes the function it names on its arguments in their order, with minus signs as negation.", "quantifier": "all operator characters, names, nested arguments and argument values", "why_tests_cant": "nested calls are unbounded and the names pass through three separate string tables", "anchors": ["filterExprParser.go:862-896", "constants.go:12-38", "fastMatcher.go:119-205"]}
{"id": "C53", "title": "Simple parser: chains of conditions", "statement": "ParseSimpleExpression parses every chain of conditions (names, calls, constants; all operators; numbers, quoted words, phrases, booleans, patterns) to exactly the conditions written, joined by the connectives written, in the nesting that the code's short-circuit rule prescribes.", "quantifier": "all environments, all chains of any length, all spacings", "why_tests_cant": "The number of chains, operands and nestings is unbounded; the parser's state machine pushes and merges sub-contexts whose effect depends on everything before.", "anchors": ["simpleParser.go:745-774", "simpleParser.go:998-1227", "simpleParser.go:1292-1686"]}
{"id": "C54", "title": "Simple parser: meaning of chains", "statement": "A chain joined only by AND is true exactly when all its conditions are, one joined only by OR when one is; in mixed chains AND binds tighter than OR.", "quantifier": "all chains and all truth assignments", "why_tests_cant": "Tests parse a few chains; they cannot cover all lengths and assignments.", "anchors": ["simpleParser.go:1103-1227", "README.md"]}
{"id": "C55", "title": "Simple parser: field names", "statement": "A field name made of plain and backticked parts and indices is read as the path it says.", "quantifier": "all names of any length", "why_tests_cant": "Unbounded names; the loop keeps a skip flag whose wrong states show only for certain orders of parts.", "anchors": ["simpleParser.go:837-981"]}
{"id": "C57", "title": "Simple parser: no panic, nothing ignored", "statement": "No text makes the parser panic, and no part of an accepted text is ignored.", "quantifier": "all texts", "why_tests_cant": "The offending texts are short but particular; tests contain only well-formed ones.", "anchors": ["simpleParser.go:1103-1146", "simpleParser.go:1389-1411"]}
{"id": "C58", "title": "StringSplitFirstInst", "statement": "A text is split at the first occurrence of the delimiter and the pieces together are the text.", "quantifier": "all texts and non-empty delimiters", "why_tests_cant": "Only texts whose ends share characters with the delimiter go wrong.", "anchors": ["utils.go:23-45"]}
{"id": "C59", "title": "Simple parser: numbers", "statement": "Exactly the signed decimals without leading zeros are numbers; whole ones get their value if it fits in 64 bits and are errors otherwise; quoted values are strings.", "quantifier": "all texts", "why_tests_cant": "Unbounded digits and the borders of the 64 bit range.", "anchors": ["simpleParser.go:44-58", "simpleParser.go:1327-1362"]}
{"id": "C60", "title": "Simple parser: calls", "statement": "A call with nested calls as arguments is read as the call written.", "quantifier": "all terms of any depth", "why_tests_cant": "Nesting is unbounded, and the arguments are kept in a table indexed by level that the recursion appends to.", "anchors": ["simpleParser.go:60-124", "simpleParser.go:1364-1414", "simpleParser.go:1688-1737"]}
{"id": "C62", "title": "Comparisons of several fields", "statement": "A comparison whose operands are different fields of the document (or functions of several fields) matches exactly the documents in which the fields have values and the values are in the relation; != is the negation of =; a comparison with a missing field does not hold. This holds inside any AND/OR/NOT and merged with other expressions, wherever in the document the fields are.", "quantifier": "every comparison operator, every two or more paths, every Boolean combination of them with other conditions, every JSON document and text of it", "why_tests_cant": "The matcher collects values in numbered slots shared by all comparisons while it reads the document in one pass, and compares when it leaves the common part; the slots, the order of members and the early exits interact in unboundedly many ways. It is false for scalar documents, for empty arrays as values and for a field that contains the other (proved), and with repeated keys the last value counts whereas in comparisons with constants the first counts.", "anchors": ["transform.go: pickBaseNode, makeDataRef, storeExecNode, findFieldRefsBestRoot", "fastMatcher.go: matchAfter, literalFromSlot, matchOp"]}
{"id": "C56", "title": "Simple parser: it ends", "statement": "The simple parser returns on every text: it reads finitely many tokens, and the tree it outputs has no cycles.", "quantifier": "all texts, of any bytes", "why_tests_cant": "A test that does not return shows nothing but a timeout, and the offending texts are particular; that all others end needs a measure that falls with every round.", "anchors": ["simpleParser.go:566-604", "simpleParser.go:745-812", "simpleParser.go:1103-1227", "simpleParser.go:1672-1686"]}
{"id": "C63", "title": "Reference matcher: documents are independent", "statement": "After any documents, errors and resets the reference matcher answers the next document as a new one does; Reset makes it a new one; a match without error leaves no variable set.", "quantifier": "all expressions, all sequences of documents and resets, all decoders", "why_tests_cant": "State left over shows only after particular sequences of documents, such as one that ends in an error inside a loop.", "anchors": ["slowmatcher.go:134-176", "slowmatcher.go:269-317"]}
{"id": "C64", "title": "Reference matcher: scopes and verdict", "statement": "The reference matcher's verdict is that every expression holds, each read with the document as variable 0 and every loop's variable set in the loop's body only.", "quantifier": "all expressions, documents and earlier documents", "why_tests_cant": "Scopes go wrong only for loops that bind the same variable again, in bodies that use it afterwards.", "anchors": ["slowmatcher.go:50-82", "slowmatcher.go:134-176", "slowmatcher.go:232-307"]}
{"id": "C65", "title": "PCRE detection", "statement": "A pattern counts as PCRE exactly if it contains, on one line, (?=, (?< or (?!, at least one character and ).", "quantifier": "all patterns", "why_tests_cant": "Four regular expressions searched anywhere in any text.", "anchors": ["constants.go:166-185"]}
{"id": "C66", "title": "Damage is noticed or does not matter", "statement": "If a document text is damaged, Match reports an error or gives the verdict of the undamaged document; it does not crash and does not give another verdict.", "quantifier": "every list of expressions, every document, every place and kind of damage", "why_tests_cant": "Errors of nested calls are dropped in several places of the matcher and have to surface later; which of them do depends on the place of the damage, the nesting and what is already decided.", "anchors": ["fastMatcher.go: matchObjectOrArray, matchLoop, matchExec", "jsontokenizer.go: Step"]}
{"id": "C61", "title": "Simple parser: groups in parentheses", "statement": "A text with a parenthesised chain wherever a condition may stand is parsed to the expression that the grouping says.", "quantifier": "all environments, all texts with groups, nested to any depth, all spacings", "why_tests_cant": "The nesting is unbounded and the parser keeps state across the parentheses (depth, saved sub-contexts, a flag that only the position advances) that goes wrong only for some positions of a group.", "anchors": ["simpleParser.go:518-604", "simpleParser.go:679-702", "simpleParser.go:1103-1227"]}
{"id": "C67", "title": "Simple parser: accepted texts have balanced parentheses", "statement": "If the simple parser accepts a text that has no quotes and no parenthesis opening inside a word, then every parenthesis in the text is opened and closed in order.", "quantifier": "all environments, all texts of any length and nesting", "why_tests_cant": "The parser splits tokens at parentheses while it reads, counts depth in one place and closes layers in another; an unbalanced text has to be refused for every position, grouping and spacing, which are unbounded.", "anchors": ["simpleParser.go:566-604", "simpleParser.go:679-702", "simpleParser.go:1167-1227"]}
{"id": "C68", "title": "DATE reads the date forms of its patterns", "statement": "DATE of a string of the document gives the instant that the text denotes, for every existing year, month, day or second from 1900 to 2099 written in one of the forms of the patterns in fastval_date.go, and nothing for other texts.", "quantifier": "all texts, all instants", "why_tests_cant": "The texts are unbounded and four patterns, a rewriting of the text and time.Parse have to fit together for every separator and every day.", "anchors": ["fastval_date.go:9-17", "fastval_date.go:35-81"]}
{"id": "C69", "title": "Times that pass the check can be compiled", "statement": "A text passes validTimeChecker if and only if GetNewTimeFastVal reads it, so that a time expression that the parsers accept does not fail later.", "quantifier": "all texts", "why_tests_cant": "The check and the conversion are separate functions with different patterns; the texts on which they differ have to be found among all texts.", "anchors": ["fastval_date.go:19-33", "fastval_date.go:83-90", "expression_json.go:285-292", "transform.go:332-335"]}
{"id": "C70", "title": "The same text is the same date in constants and documents", "statement": "DATE gives the same result for a constant and for a string of the document with the same text.", "quantifier": "all texts", "why_tests_cant": "Two branches with separate rewriting of the text; equality is needed for all texts.", "anchors": ["fastval_date.go:35-81"]}
{"id": "C71", "title": "Simple parser: white space around symbols and parentheses", "statement": "Two texts made of the same tokens (names, numbers, quoted values, comparison symbols, && and ||, parentheses, operators written with letters), which differ only in where white space is between tokens, are both rejected, both crash, or both parse to the same expression.", "quantifier": "for all lists of tokens, all ways of joining tokens that the lexical rules allow into words, and all white space between the words", "why_tests_cant": "There are infinitely many ways to place white space in texts of any length and nesting; tests only try a few, mostly with spaces everywhere.", "anchors": ["simpleParser.go:206-261", "simpleParser.go:566-604", "simpleParser.go:620-702", "simpleParser.go:745-774", "simpleParser.go:1149-1250"]}
{"id": "C72", "title": "Functions compute what their names say", "statement": "Every function of resolveFunc applied to values computes its function: ABS gives the absolute value of a number, ROUND the nearest whole number (halves away from zero), DEGREES, RADIANS and the library functions are applied to the number as a float, arithmetic with a float is float arithmetic, arithmetic of whole numbers follows C20 and C41; a value that is not a number gives no value.", "quantifier": "all values of all kinds, all floats of IEEE binary64 (rounding modelled exactly), all representations of floats satisfying the laws of binary64", "why_tests_cant": "The exceptions are single numbers among 2^64 (0.49999999999999994, odd numbers between 2^52 and 2^53, integers above 2^53).", "anchors": ["fastval_math.go:9-57", "fastval_math.go:158-239", "fastMatcher.go:119-205"]}
{"id": "C73", "title": "Numbers are ordered by value", "statement": "Comparing a number of the document with a constant number gives the sign of the difference of their values, also between integers and floats.", "quantifier": "all integers, unsigned integers and finite binary64 floats on either side", "why_tests_cant": "Deviations need values closer than 1e-7 or integers above 2^53; sampling does not tell that there are no others.", "anchors": ["fastval.go:530-565", "fastval.go:294-319", "fastval.go:679-741"]}
{"id": "C74", "title": "Strings compare by their characters", "statement": "A string of a document and a string constant (or two strings of documents) are equal exactly if they consist of the same bytes; otherwise their order is the lexicographic order of their code points, and a pattern is matched with the string itself.", "quantifier": "all byte strings (equality), all strings of Unicode scalar values (order, patterns), all tables of printable characters", "why_tests_cant": "Strings are compared as Go-quoted texts; that quoting is injective and where it changes the order can only be sampled by tests, and the interesting strings (control characters, quotation marks, broken UTF-8) are rare in test data.", "anchors": ["fastval.go:429-472", "fastval.go:582-588", "transform.go:298-301", "fastval.go:890-931"]}
{"id": "C75", "title": "Conversions keep the value", "statement": "A value that is converted successfully to an integer, an unsigned integer, a truth value or a text keeps its value, and exactly the texts of whole numbers and truth values are converted.", "quantifier": "all values of every type, all texts", "why_tests_cant": "The conversions treat fourteen types with fallthroughs, and truth values are recognised by a bit mask; which texts are accepted wrongly can only be sampled by tests.", "anchors": ["fastval.go:163-252", "fastval.go:254-292", "fastval.go:342-410", "fastval.go:412-472"]}
{"id": "C76", "title": "Loops that refer to the document", "statement": "A compiled loop over an array whose body also mentions fields of the document (ANY v IN a SATISFIES v = b END) matches exactly if its body holds for some, every, or at least one and every element of the array, with the document's fields at their values in the document, wherever in the document array and fields stand.", "quantifier": "all boolean combinations of conditions, comparisons of several fields and such loops (also with loops in their bodies), all documents as texts", "why_tests_cant": "Such loops are compiled to slots, an after-node and a deferred loop that is executed when the enclosing value has been read; the order of members, nesting and the number of slots vary without bound.", "anchors": ["transform.go:228-280", "transform.go:422-466", "fastMatcher.go:388-520", "fastMatcher.go:522-560", "fastMatcher.go:600-690"]}
{"id": "C77", "title": "A field name is read as that field", "statement": "A condition on a field of the simple language is read as a condition on exactly that field, whatever the (one-word) name. This is false: a token is searched for operator words before it is read as a name, also in backticks. A condition on a name is read as such exactly if no part of the name contains an operator word (AND, OR, LIKE, EXISTS, NOT_LIKE, IS_NULL, ... or a symbol). BRAND == 1 is an error, MAJORITY == 1 is MAJ || ITY == 1, and `ORDER` == 1 is a condition on a field named ' OR DER'. In the result of any text, no field outside of calls has a one-word name with an operator in it.", "quantifier": "all names of parts and indices, all operators, all right sides, all texts", "why_tests_cant": "Names that contain AND or OR in capitals occur in documents, not in tests; the result is often accepted and means something else.", "anchors": ["simpleParser.go:745-775 getCurrentToken", "simpleParser.go:223-261 Seek", "simpleParser.go:1229-1250 getAndSeparateToken", "simpleParser.go:858-981 checkAndParseField", "utils.go:23-45 StringSplitFirstInst"]}
{"id": "C78", "title": "Chains of arithmetic operators are evaluated as written", "statement": "A side of a comparison that the grammar accepts with several arithmetic operators in a row (a + b + c) is turned into an expression whose value is that of the chain.", "quantifier": "all fields, operators and operands, every structure the parser library could return, all values of the fields", "why_tests_cant": "The grammar accepts chains of any length and all values of the fields matter; a test of one chain does not show that no structure at all can represent it.", "anchors": ["filterExprParser.go:25-27", "filterExprParser.go:513-573"]}
{"id": "C79", "title": "Repeated keys are read as encoding/json reads them", "statement": "On a document in which a key is repeated the verdict is the one of the document in which only the last member of that name is left.", "quantifier": "all expressions, all documents with any keys repeated any number of times", "why_tests_cant": "Which of several members of a name is used depends on the kind of condition and on what else the expression mentions; tests of one expression show one of the readings.", "anchors": ["fastMatcher.go:610-700", "fastMatcher.go:300-420", "transform.go:586-654"]}
{"id": "C80", "title": "A simple expression text matches exactly the documents on which it is true", "statement": "Parsing the text of a simple expression, compiling the result and matching a document answers true exactly if the conditions of the text, joined as the text says with AND before OR, hold on the document.", "quantifier": "all texts of conditions joined by connectives and groups, all documents whose compared fields are not empty containers, all matchers in a fresh state", "why_tests_cant": "Tests run a few texts on a few documents; they cannot cover all texts, all names, all functions on the sides and all documents.", "anchors": ["simpleParser.go:1103-1227", "transform.go:586-654", "fastMatcher.go:811-833"]}
{"id": "C81", "title": "A filter text has at most one reading", "statement": "The tokens of a filter expression are the text of at most one filter under the grammar of the struct tags (with the ordered choices of the parser), so an accepted text is compiled as the filter that was written: AND binds tighter than OR, NOT applies to the smallest condition, parentheses group; and a text that begins with NOT followed by a parenthesis has no reading.", "quantifier": "for all scanners whose keywords are tokens with that text, all filters and all token sequences", "why_tests_cant": "The grammar is recursive in five places; ambiguity between alternatives shows only for particular token sequences (fields named like keywords, minus signs, two-character operators).", "anchors": ["filterExprParser.go:52-74", "filterExprParser.go:102-135", "filterExprParser.go:214-250", "filterExprParser.go:372-518", "filterExprParser.go:1037-1370"]}
{"id": "C82", "title": "Constants among merged expressions", "statement": "A matcher compiled from several expressions, some of which may be the constants TRUE and FALSE, accepts exactly the documents on which one of them is true.", "quantifier": "for all lists of expressions (constants and Boolean combinations of conditions on one field) and all documents", "why_tests_cant": "The tests compile constants only inside of other expressions; which constants are dropped and that nothing is left to execute shows only for lists of constants.", "anchors": ["transform.go:586-654", "fastMatcher.go:811-833"]}
{"id": "C83", "title": "The verdict on any document", "statement": "On every document the matcher's verdict is the truth of the expressions, where a field has the values at its path that the matcher visits, in document order: all of them except empty arrays that are not looped over, empty objects below which the filter has other conditions, and everything below an array that is looped over.", "quantifier": "for all lists of expressions whose conditions each mention one field of the variable in scope and cannot crash, and all documents", "why_tests_cant": "That a condition elsewhere in the filter changes what EXISTS finds shows only for the right combination of filter and empty value; the tests have no empty arrays or objects at the paths of conditions.", "anchors": ["fastMatcher.go:564-684", "transform.go:586-654"]}
{"id": "C84", "title": "The verdict on any document with comparisons of several fields and loops that refer to the document", "statement": "On every document, scalars, empty containers and repeated keys included, a comparison of several fields is decided at the first value at the fields' common path that is not an unlooped empty array: it compares the last values of the fields that the matcher visits below it, each field of a scalar document being the document itself, and is false if one is missing; != is the negation of =. A loop that refers to the document is tried at each value at the common path of its array and fields, in order, until there is an array to run over, with the fields read so far (so fields of earlier values remain, and a missing array stands for the document); its value is then the quantified truth of the body, and that of a body without fields if it never runs. The verdict is the truth of the expressions, Boolean operators, one-field conditions and loops being as in C83.", "quantifier": "for all lists of expressions of the supported fragment with comparisons of any number of fields none of which contains all others, and loops whose bodies compare one field of the variable with constants and fields of the document, that cannot crash, and all documents", "why_tests_cant": "Which of several values, and which other conditions of the filter hide a value, matters only for documents with repeated keys or empty containers, and scalars; there are infinitely many combinations.", "anchors": ["fastMatcher.go:94-116, 230-262, 564-700", "transform.go:300-420"]}
{"id": "C85", "title": "The verdict on any document with loops that compare several fields of the element", "statement": "On every document, a loop over the array at a path runs over the first array that the matcher visits there. For each element in order the body is evaluated on the fields that the matcher reads: a comparison of several fields is decided at the first value at their common path that is not an unlooped empty array, and compares the last values of the fields read in this or any earlier element, before the first of which none has been read; it is false if a field has been read in none, and != is the negation of =. One-field conditions see only the current element. What one loop reads is never seen by another loop or by the rest of the filter. The loop's value is the quantified truth over the elements, and that of a body without fields if there is no array.", "quantifier": "for all lists of expressions of one-field conditions, Boolean operators and loops over arrays of the document whose bodies compare any number of fields of the element, that cannot crash, and all documents", "why_tests_cant": "Whether a value of an earlier element is used depends on which of the earlier elements have the field, on repeated keys and empty containers in them, and on the loops of the filter sharing slots or not; there are infinitely many combinations.", "anchors": ["fastMatcher.go:388-520, 564-700", "transform.go:300-420"]}
{"id": "C86", "title": "Which expressions compile", "statement": "Compiling a list of expressions succeeds exactly if each of them compiles alone, and panics otherwise. An expression compiles exactly if: its patterns and times are strings that their readers accept; its operands are fields, constants and calls; every field belongs to the document or to the innermost loop; no AND or OR is empty; loops are over fields at the node of the loop or with other fields to wait for, and their bodies contain no constant and no NOT EXISTS; and the paths of the fields of a condition do not collide (one of them being the start of all others, reached before the others part).", "quantifier": "for all lists of expressions (of any shape, well-formed or not), all regular expression compilers, all previous uses of the transformer", "why_tests_cant": "Expressions are unbounded, and whether a comparison of several fields crashes the compiler depends on the order in which the fields are mentioned; a test shows single crashes, not that there are no others.", "anchors": ["transform.go:60-654 (Transform, transformOne, findFieldRefsBestRoot, getContext, pickBaseNode, makeDataRefRecurse)"]}
{"id": "C87", "title": "Which filters crash the construction of their matcher", "statement": "For a text that the filter grammar accepts, GetFilterExpressionMatcher returns an error exactly if the filter is not valid (C50), returns a matcher exactly if in every condition the fields do not collide and the pattern is one that its compiler accepts, and panics otherwise.", "quantifier": "for all filters of the grammar, all environments, all regular expression compilers", "why_tests_cant": "Unbounded filters; the crash depends on the relation of all fields of a condition.", "anchors": ["filterExprParser.go: GetFilterExpressionMatcher, OutputExpression", "transform.go: Transform"]}
{"id": "C88", "title": "Matching always comes to an end", "statement": "If a list of conditions compiles, then Match on the compiled definition ends (with a verdict, an error or a panic) for every sequence of bytes, well-formed or not, and from every state the matcher may be in, with or without Reset.", "quantifier": "for all lists of conditions that compile, all filters, all matcher states, all byte strings", "why_tests_cant": "Termination on all byte strings from all states cannot be observed by finitely many runs.", "anchors": ["fastMatcher.go: Match, matchExec, matchLoop, matchAfter, matchObjectOrArray", "transform.go: transformLoop, pickBaseNode", "bintree.go: MarkNode, resolveRecursive"]}
{"id": "C89", "title": "Which simple expressions crash the compiler", "statement": "A text of the simple language with a meaning is parsed, and the result compiles exactly if in every condition the fields do not collide and the pattern is one its compiler accepts; otherwise compiling panics. Patterns of one word are checked by the parser, patterns of several words are not.", "quantifier": "for all texts of chains with groups, all regular expression compilers", "why_tests_cant": "Unbounded texts; the crash depends on all fields of a condition.", "anchors": ["simpleParser.go: ParseSimpleExpression, getValueTokenHelper, getUnfinishedValueHelper", "transform.go: Transform"]}
{"id": "C90", "title": "Which compiled definitions can be printed", "statement": "If Transform returns a definition, MatchDef.String returns a text, except if an operand of a comparison or existence test contains a PCRE or all expressions are the constants TRUE and FALSE; in these cases it panics. The part showing the decision tree lists every node once, numbered in preorder.", "quantifier": "all lists of expressions, all texts the library gives for floats, times, patterns", "why_tests_cant": "FastVal.String has no case for PCRE values and a nil ParseNode is dereferenced; which definitions contain a PCRE depends on where the compiler put every operand of arbitrarily nested expressions.", "anchors": ["fastMatcherDef.go:173-247", "fastval.go:100-146", "bintree.go:82-97", "transform.go:586-654"]}
{"id": "C91", "title": "Printed definitions are deterministic", "statement": "The text of a definition does not depend on the order in which Go walks the maps of its nodes: definitions that differ only in the order of map entries print alike.", "quantifier": "all definitions, all orders of the entries at every node", "why_tests_cant": "Go randomises map iteration; a test sees a few of the orders.", "anchors": ["fastMatcherDef.go:192-247"]}
{"id": "C92", "title": "Texts that do not begin with a value", "statement": "Match's outcome is settled by the first byte behind the whitespace if it begins no value: the empty text gives the verdict false without an error and changes nothing; a text of whitespace only and one that begins with a closing bracket, a colon or a comma crash the matcher; one that begins with a byte that begins no token is an error and changes nothing.", "quantifier": "all definitions, all matchers in any state, all texts", "why_tests_cant": "Tests try a few broken texts on fresh matchers; the crash on blank texts happens for every definition.", "anchors": ["fastMatcher.go:811-833", "fastMatcher.go:564-700", "jsontokenizer.go:45-118"]}
{"id": "C93", "title": "Bytes behind the document do not matter", "statement": "Match reads the document at the beginning of a text and no further: whatever follows it (another document, garbage, a cut string) does not change the verdict, provided it does not continue a number.", "quantifier": "all compiled definitions, all documents, all byte sequences behind them, all fresh or reset matchers", "why_tests_cant": "Tests pass exact documents; the space of trailing bytes is unbounded.", "anchors": ["fastMatcher.go:811-833", "fastMatcher.go:564-700"]}
{"id": "C94", "title": "The printed text of an expression says which expression it is", "statement": "Two filter expressions that print as the same text are the same expression: nesting, negation, connectives, loops, operators, fields and constants can all be read off the text.", "quantifier": "for all pairs of expressions of any size", "why_tests_cant": "The text is built by indentation and concatenation without quoting; whether two different expressions can collide is a question about all pairs of trees of any depth, of which a test looks at a few.", "anchors": ["expression.go:12-257", "transform.go:37-48", "utils.go:9-11"]}
{"id": "C95", "title": "Documents never yield an error", "statement": "Whatever expressions have been compiled, a match on a text that begins with a JSON document never returns an error and comes to an end; if no call of a function can crash and not all expressions are constants, it returns a verdict.", "quantifier": "all lists of expressions that compile (nested loops, several expressions, functions), all documents, all texts beginning with them, all matcher states after creation or Reset", "why_tests_cant": "A loop that is left early in the wrong place leaves the tokenizer in the middle of an array, and the error shows only for particular combinations of decided and undecided conditions in nested loops and documents; neither expressions nor documents can be enumerated.", "anchors": ["fastMatcher.go: Match, matchExec, matchObjectOrArray, matchElems, matchLoop, matchAfter", "transform.go: Transform"]}
{"id": "C96", "title": "The verdict says whether one of the merged expressions matched", "statement": "Whatever expressions have been compiled into one matcher: when a match on a document returns a verdict, the question whether the i-th expression matched has an answer for each expression that is not a constant, and the verdict is true exactly if one of the answers is.", "quantifier": "all lists of expressions that compile (nested loops, loops over fields met later, several expressions, functions), all documents, all texts beginning with them, all matcher states after creation or Reset", "why_tests_cant": "The match stops as soon as the root of the merged tree is decided; a bucket left open or filed under the wrong index contradicts the verdict only for particular orders of the document, and neither lists of expressions nor documents can be enumerated.", "anchors": ["fastMatcher.go: Match, ExpressionMatched", "transform.go: Transform", "bintree.go: MarkNode"]}
{"id": "C97", "title": "Expressions compiled together answer as if compiled alone", "statement": "After a match of several merged expressions, the answer for each expression that is not a constant is the verdict that the expression compiled alone has on the same document.", "quantifier": "all lists of expressions, all indices, all documents and texts beginning with them, all matchers that are new or reset", "why_tests_cant": "Merging shares the nodes for common paths, so an expression can change what the matcher visits for another; whether it does depends on pairs of expressions and on empty or looped containers in documents, none of which can be enumerated.", "anchors": ["transform.go: Transform, transformMerge, getExecNode", "fastMatcher.go: Match, ExpressionMatched, matchExec"]}
{"id": "C98", "title": "What the printed matcher tells", "statement": "If two compiled definitions are printed alike by MatchDef.String, then their decision trees, their buckets and their numbers of slots are the same, whatever the compiled expressions and the constants in them are. If moreover operands and member names are printed within one line (and blanks in left operands occur only after commas), then the parse trees are the same as far as they are printed: the slots values are stored in, the members, the buckets and operators and texts of operands of all operations, the loops, and what is done after a value has been read.", "quantifier": "all pairs of lists of expressions that compile; all pairs of operations", "why_tests_cant": "Unambiguity of a text format with nested indentation is about all pairs of definitions; tests compare single outputs with expected texts.", "anchors": ["fastMatcherDef.go:80-115", "fastMatcherDef.go:173-247", "bintree.go:22-38", "bintree.go:78-97", "utils.go:9-11"]}
{"id": "C99", "title": "The printed state of a matcher tells the state of every node", "statement": "A state that has a value for each node of the tree of a compiled definition can be printed. Two states of compiled definitions that are printed alike belong to equal trees and have the same value (unknown, resolved without a value, true, false) in every node. After Match on a document returned a verdict, the first line of the printed state is that of the root and shows the verdict.", "quantifier": "all lists of expressions that compile and are not all constant, all states with as many values as the tree has nodes, all documents and outcomes of external calls", "why_tests_cant": "Different states must be printed differently for every tree, and indentation is the only thing that tells where a subtree ends; tests print a few trees.", "anchors": ["bintree.go:114-141 itemToString, String", "utils.go reindentString", "bintree.go Resolve"]}
{"id": "C100", "title": "Negation negates the verdict of everything that compiles", "statement": "An expression that is not a constant compiles exactly if its negation does. On every document (whatever follows it in the text, whichever ready matchers are used) the definition compiled from NOT e has the opposite verdict of the one compiled from e, and sets the collation flag alike; if one matcher crashes, so does the other. l != r and NOT EXISTS x are compiled as the negations of l = r and EXISTS x; negating twice changes nothing.", "quantifier": "all expressions including loops in loops, comparisons between fields, function calls; all documents, matchers and outcomes of external calls", "why_tests_cant": "The negation changes every bucket number, when parts of the tree count as decided, and thereby which operations are skipped and when matching stops early; that none of this shows has to hold for every expression and document.", "anchors": ["transform.go:371-380 transformNot", "transform.go:545-581 transformOne", "bintree.go markNode, Resolve", "fastMatcher.go matchExec"]}
{"id": "C101", "title": "Negations can be pushed inward; De Morgan's laws hold for everything that compiles", "statement": "The normal form of an expression pushes negations inward through negations, conjunctions and disjunctions and into =, !=, EXISTS and NOT EXISTS; loops and other comparisons keep a negation in front. An expression and its normal form compile together. On every document they have the same verdict, set the collation flag alike, and crash together, provided neither is a bare constant; the normal form of the negation has the opposite verdict. Hence expressions with the same normal form answer alike, in particular NOT (a AND b ...) and (NOT a) OR (NOT b) ..., and dually.", "quantifier": "all expressions with any nesting of connectives and loops; all documents, matchers and outcomes of external calls", "why_tests_cant": "Pushing negations inward changes the shape of the tree, every bucket number and the short-circuit decisions at every level; that the verdict does not change is a statement about pairs of programs for every expression and document.", "anchors": ["transform.go:345-420 transformOr, transformAnd, transformNot", "transform.go:545-581 transformOne", "bintree.go markNode, Resolve", "fastMatcher.go matchExec"]}
{"id": "C102", "title": "Grouping of conjunctions and disjunctions does not matter, also together with De Morgan's laws", "statement": "Regrouping replaces, anywhere outside the bodies of loops, a disjunction among the operands of a disjunction by its operands, a conjunction among the operands of a conjunction by its operands, or a connective with a single operand by that operand; or does the reverse. Expressions that differ by any number of regroupings and normal forms (C101), in any order and in both directions, compile together. On every document they have the same verdict and set the collation flag alike, and if one matcher crashes so does the other.", "quantifier": "all expressions with any nesting of connectives and loops; any number of regroupings in both directions; all documents, matchers and outcomes of external calls", "why_tests_cant": "A regrouping rotates the tree: buckets get other numbers, nodes other parents, and the short-circuit propagation takes other paths. That no document can tell the difference is a statement about pairs of programs for every expression and every document.", "anchors": ["transform.go:345-400 transformOr, transformAnd", "bintree.go markNode, Resolve", "fastMatcher.go matchExec"]}
