# Formal model of gojsonsm: design and trusted base

The model is written in Lean 4 (modules under `lean/Verif/`). `/repo` is read as text only; nothing of it is
built or executed. Every model definition carries a comment naming the file and lines it models.

## Conventions

* A Go function becomes a total Lean function. A run-time panic (explicit `panic`, index or slice out of
  range, nil dereference, integer division by zero) is the outcome `Res.panic`, never a default value.
* Loops and recursion that Go leaves unbounded become structural recursion or fuel. Where fuel is used,
  running out of it is the separate outcome `Res.stuck`; theorems about outcomes exclude it explicitly
  (`C09_tokenizing_terminates`, `C14_leave_never_stuck`, `C38_documents_partial`, ...).
* Bytes are `Nat` and texts are `List Nat`. No definition of the model depends on a byte being below 256, so the
  theorems cover all byte strings. `int64`/`uint64` are `BitVec 64`, so that overflow is visible. `int` used as an index
  or a comparison result is `Nat` or `Int` (no computed index comes near 2^63).
* `float64`, `time.Time`, regular expressions, `strconv.AppendQuote`, `strconv.ParseFloat` and float formatting are
  parameters (structure `FastVal.Ext`). The functions of package `math` and the date function are parameters
  (`FastVal.Fns`). Regular-expression compilation is a parameter (`Transform.Comp`). `json.Unmarshal` is a parameter of
  `Slow.slowMatch` and `Json.parseText`. Assumptions about any of these are hypotheses of the theorems that need
  them: `FloatLaws`, `TimeLaws` (proved in `Cases/Values` of `ext64`: the finite binary64 numbers and one non-number, and instants counted as natural numbers), `QuoteLaws` (proved of the model of `AppendQuote` in `Quote`), `Apart`, `B64` (arithmetic, order and conversions of IEEE binary64), `RfcLaws`.
* Specifications (Boolean evaluation, JSON grammar, JSON values, meaning of expressions, comparison tables, ...) are
  separate small definitions under a heading "Specification", and do not mention the model functions they judge.
* Each theorem with hypotheses has an `example` next to it that meets them.
* If a property is false of the code, the manifest lists a theorem refuting it with a concrete witness (suffix `_negation`,
  `_counterexample`, `_full_statement_false`), and a `_partial` theorem for what does hold. The status is then `partial`.

## Modules

| modules | models | specification |
|---|---|---|
| `Basic` | outcomes of Go code (`Res`), indexing | |
| `BinTree/*` | `bintree.go` except printing | trees `Sh`, two-valued and Kleene evaluation |
| `Token/*` | `jsontokenizer.go`; `leaveValue`, `skipValue` of `fastMatcher.go` | RFC 8259 token grammar, documents `D` with layout |
| `Lit/*` | `fastlitparse.go`, `fastlitescape.go` | positional decimal value, spellings of characters `Ch`, UTF-8 |
| `FastVal/Model`, `Theorems`, `Kinds` | `fastval.go`: conversions, comparison, collation, patterns | sign of the difference, comparison tables `docCon`, `docDoc` |
| `FastVal/Conv` | the same conversions | the whole number a value stands for, words for truth values |
| `Quote/Model`, `Spec`, `Lemmas`, `Decode`, `Claims` | `strconv.AppendQuote` as `ToJsonString` uses it (Go's library, modelled from its documentation) | places of characters, lexicographic order |
| `FastVal/Math`, `FastVal/Func` | `fastval_math.go`; `resolveFunc` of `fastMatcher.go` | words modulo 2^64 |
| `Expr/*` | `expression.go`, `expression_compact.go`, `expression_utils.go`, `expressionstats.go` | truth under a valuation, counts, field references |
| `Json/*` | `expression_json.go` | encoding of expressions as JSON |
| `Match/Model` | `fastMatcher.go`, byte level | |
| `Match/Value`, `Marks` | intermediate machines (no Go counterpart): the matcher on documents; the list of marks it makes | |
| `Match/Refine`, `Sound`, `Total`, `Reset`, `Layout`, `Order`, `Unref` | proofs: byte level = document level = marks; no panics; reset; layout, order and unreferenced members | |
| `Match/Bytes`, `Damage`, `Transform/Damage` | proofs about input that is no document | `Foreign`: bytes outside of the JSON alphabet |
| `Transform/Model` | `transform.go` | |
| `Transform/Tree`, `Compile`, `Items`, `Walk`, `Sem`, `Whole`, `Keys`, `Order`, `Unref`, `Values`, `Each` | proofs about compiled expressions | meaning of expressions: `sem`, `top`, `truth`; `Denotes` |
| `Transform/Slots`, `Multi`, `MultiSem`, `MultiWhole`, `MultiUnref` | proofs about comparisons of several fields: what slots hold, what is compiled, what is matched | `truth2`, `pairHolds`, `docEnv` |
| `Transform/Store`, `Rooted`, `Nodes`, `RootedSem`, `Still`, `AfterLoop`, `RootedWhole` | proofs about loops that refer to the document: what is compiled to slots, what nodes decide, loops executed after their node | `truth3`, `loopHolds`, `rsem` |
| `Transform/Element`, `Outer`, `ElementSem`, `ElementWhole` | proofs about loops that compare two fields of an element: what slots hold while elements are walked | `etop`, `lsem`, `fieldsHold` |
| `Transform/Compiles` | which expressions compile, exactly | `Compiles`, `occs`, `Visible`, `Collide` |
| `Filter/Compiles` | which filters crash `GetFilterExpressionMatcher` | `Cond.Builds` |
| `Transform/Merged`, `Transform/MergedAny` | proofs about the results of single expressions | `Undisturbed`, `Near` |
| `Transform/Constants`, `Transform/ConstantsAll` | proofs about constants among several expressions | `truthC` |
| `Transform/Reach`, `Transform/ReachSem`, `Transform/ReachSlots` | which values the matcher visits; the verdict on any document; what slots hold and `AfterNode`s decide on any document | `reach`, `semR`, `topR`, `visible`, `truthOn`, `reachA`, `belowP` |
| `Transform/ReachLoops`, `Transform/ReachStill`, `Transform/ReachRooted`, `Transform/ReachLoopMembers` | loops that refer to the document, on any document | `seeing`, `decideAt`, `rsemR`, `rootedLoopR`, `rootedTopR`, `loopedOver`, `elemHolds` |
| `Transform/ReachElemOps`, `Transform/ReachElemSem`, `Transform/Given`, `Transform/Carry`, `Transform/ElementAny`, `Transform/ElementMembers`, `Transform/ReachUnref` | loops whose bodies compare several fields of the element, on any document | `envElem`, `multiElem`, `lsemR`, `elemVals`, `loopVal`, `etopR`, `latest`, `pairVals`, `refs3`, `refs5` |
| `Transform/ReachMulti`, `Transform/ReachPairs` | comparisons of several fields on any document | `multiTopR`, `top2R`, `truth2On`, `member`, `valuesHold` |
| `Transform/Repeated` | proofs about repeated keys | `keepFirst`, `keepLast`, `truthMix` |
| `Slow/Model`, `Theorems` | `slowmatcher.go` | same `truth` |
| `Slow/Multi` | proofs for comparisons of two fields | `truth2` |
| `Slow/Elements` | proofs for loops whose bodies compare two fields of the element | `etop`, `truth2` |
| `Match/FirstToken`, `Transform/Trailing` | texts that begin with no value; bytes behind the document | `NoToken`, `Delimiter`, `Begins` |
| `Transform/Likeness` | layout and order of members for comparisons of several fields | `ScalarIn`, `OneScalar`, `D.Same`, `Reord` |
| `Slow/Scope` | proofs | `verdict`: expressions under an environment of variables |
| `Filter/Model` | `filterExprParser.go` after parsing: all structures and `OutputExpression`; `constants.go:166-185` | |
| `Filter/Pcre` | proofs | `IsLook` |
| `Filter/Chain` | proofs about several arithmetic operators in a row, for every structure a parser could return | `chainVal` |
| `Filter/Grammar` | proofs: the grammar of the struct tags has one reading per text | `Writes`: the tokens of a filter; `Reads`: assumed of the parser library |
| `Filter/Multi` | proofs for filters that compare fields with fields | `Filt.truth2` |
| `Filter/Anywhere` | filters on any document | `Filt.truthAt`, `seenField`, `lastSeen` |
| `Filter/Syntax`, `Output`, `Theorems` | proofs | the filter language without pointers: syntax, meaning, which filters are accepted |
| `Simple/Model` | `simpleParser.go`, `utils.go:23-45`, the parts of `bintree.go` and `constants.go` it uses | |
| `Simple/Fuel`, `Read`, `Steps`, `Chain` | proofs: enough rounds, growing trees, single steps, chains of conditions | |
| `Simple/Weight`, `Ends`, `Acyclic`, `Hang` | proofs: a weight that falls with each token, trees without cycles, the texts on which the parser does not end | `Ends`, `Hangs` |
| `Simple/Groups`, `GroupTheorems`, `Balance` | proofs about parentheses | `Grp`, `Txt` (texts with groups), `Balanced`, `Bare` |
| `Simple/Field`, `Num`, `Call`, `Values`, `Theorems`, `Meaning`, `Findings` | proofs | names `Name`, numbers `Num`, calls `Term`, sides of conditions `LeftMeans`, `RightMeans`, words of a text `Words`, nesting `build` |
| `Simple/Whole` | proofs: from the text to the verdict | `Cond.holds`, `inOrder`, `andFirst`, `Answers` |
| `Simple/Anywhere` | the same for all texts and documents | `Cond.holdsSeen`, `readTo`, `Txt.holds` |
| `Simple/Compiles` | proofs: which simple texts compile; their matchers end | `Cond.Builds`, `PatternOk` |
| `Simple/Names` | proofs about names that contain operators | `openFields`, `NoOps`, `Word` |
| `Cases/Values`, `Cases/Matching` | concrete instances of theorems that have none beside them | |
| `Date/Regex`, `Model`, `Theorems`, `Claims` | `fastval_date.go`, its patterns as regular expressions with their usual meaning | `DayText`, `StampText`, `When.Real`; `RfcLaws` is assumed of `time.Parse` |
| `Composer/*` | `jsonComposer.go` | members that remain |
| `Match/Halts`, `Transform/Halts`, `Filter/Halts` | proofs: the matcher comes to an end | `Genuine`: where a condition is expected there is one; `Bodied`: this for bodies of loops in loops |
| `Match/InSync`, `Transform/InSync` | proofs: on documents no error, for everything that compiles | `Exec.Lies`; `SafeE` as before |
| `Conc/*` | two or more goroutines comparing values through `toJsonStringBuffer` (fastval.go:90, 429-450) | the sequential results |

The chain for C22–C26, C33, C38, C40, C48, C49: expression → (`transform`, `C07_tree`, `transform_frag`) → compiled node and tree →
(`Match.Refine`) document-level run → (`Match.Sound`) list of marks → (`Transform.Walk`, `Sem`) Kleene value of the expression →
`verdict_top`, `run_top`.

## What is modelled, what is not

| file | modelled | not modelled |
|---|---|---|
| `bintree.go` | lines 11-401 (printing in `Transform.PrintModel` and `Transform.PrintState`) | `binParserTree` (used by `simpleParser.go`) |
| `jsontokenizer.go` | all of `Step`, `Seek`, `Reset` | `tokenToText` (messages) |
| `fastlitparse.go`, `fastlitescape.go` | all; the reused buffer of the parser is returned by value | the alias between successive results of `ParseEscString` (not observable: every call site in fastMatcher.go has its own parser) |
| `fastval.go` | all comparisons, conversions and `String()` (the library's texts of floats, times and patterns are parameters, `Show`) | |
| `fastval_math.go` | all; the `float64` operations and Go's `math` functions are parameters (C72, C73 assume the laws of binary64, `B64`) | |
| `fastval_date.go` | all (`Date`); elsewhere the parameters `parseTime`, `date`, `validTime` stand for its functions | `time.Parse` (assumptions `RfcLaws`) |
| `fastMatcher.go`, `fastMatcherDef.go` | all of the matcher; printing of definitions (`Transform.PrintModel`; names of functions are a parameter) | buffers with spare capacity (a slice expression beyond the document panics in the model) |
| `transform.go` | all, including reuse of a transformer (`slot0`) | printing of internal values |
| `expression*.go` | all; `String()` in `Transform.ExprText` (Go's `%v` is a parameter) | |
| `expression_json.go` | all from the decoded array on | `json.Unmarshal` |
| `slowmatcher.go` | all from the decoded document on | `json.Unmarshal` |
| `jsonComposer.go` | all; the map `removed` is an association list | alias between `dst` and `src` |
| `constants.go` | names of operators and functions; the PCRE test `tokenIsPcreValueType` (as a function on bytes for its regular expression) | error texts |
| `utils.go` | `StringSplitFirstInst` | `DeepCopyStringArray` (a copy is the value) |
| `alloctrack.go`, `randdata.go`, `matcher.go`, `pcre_wrapper*.go` | – | helpers, test support, interfaces, cgo bindings |
| `filterExprParser.go` | `OutputExpression` of every structure, `NewFilterExpressionParser`, `GetFilterExpressionMatcher` | participle (the parser generator) and its lexer: a parameter `parse`; the theorems are about `parse text = some f.build`, where `build` is read off the struct tags; C81 needs only that `parse` returns a reading that the grammar of the tags allows (`Reads`); error texts |
| `simpleParser.go` | all of `ParseSimpleExpression`: tokens, fields, calls, the tree, the output | `GetSimpleExpressionMatcher` and the like (they call the modelled functions); Unicode white space; error texts; the regular expressions are functions on bytes |

Deliberate simplifications inside modelled functions are stated in the comments of the definitions. The main ones: Go maps are
association lists with the key looked up (iteration order is never observable, except `SlowMatcher` over maps, where the
model takes any order of the decoded list); `uint64(f)`/`int64(f)` conversions of floats are parameters; errors are not
distinguished by their text.

## Findings about the code (each proved in Lean unless marked)

* A constant inside an expression is never decided by the fast matcher: the filter `TRUE` matches no document and `NOT TRUE` matches every
  document (the slow matcher evaluates `TRUE` as true): `Filter.C51_negation`, `Filter.C51_not_true`.
* `Validate` (bintree.go) accepts trees with wrong child links and can panic on others: `C08_*`.
* Merging can change what an expression answers: `a EXISTS` matches `{"a":{}}` alone, but not together with `a.b = 1`: `Transform.C97_negation`.
* Different matchers can be printed alike when string constants contain line feeds: `Transform.C98_negation`.
* The text of an expression does not say which expression it is: `a.b`, times, PCRE patterns, one-part conjunctions, values with blanks: `ExprText.C94_negation`, `C94_kinds`, `C94_single`, `C94_blank`.
* A truncated array or object makes the matcher panic; so do `{"a" 1}` and similar malformed texts: `C14_truncated_container_panics`, `C38_negation`.
* Integers outside 64 bits wrap silently: `C15_out_of_range_wraps`. Unpaired surrogates are dropped or swallow text: `C16_*`.
* A signed 0 (or negative number) compared with an unsigned value is invalid, and unsigned constants from 2^63 on are compared as
  negative numbers: `C17_*`, `C45_constant` (table). Comparison is not antisymmetric there: `C18_counterexample`.
* Adding/subtracting/multiplying an unsigned value and a signed 0 gives the invalid value: `C20_signed_zero_invalid`. Signed
  division and modulo by zero panic: `C21_counterexample`.
* `EXISTS(a)` is false on `{"a":[]}`; `a EXISTS OR a.b = 1` is false on `{"a":{}}`: `C22_negation`, `C33_negation`.
* Loops over missing arrays and negations inside loop bodies: `C23_negation`.
* Comparing two containers depends on whitespace and member order: `C24_negation`, `C26_negation`.
* The collation flag survives `Reset`: `C27_status_sticky`.
* `CompactExpression` is unsound for loops with constant bodies over empty arrays: `C28_negation`.
* `fetchExprFieldRefs` panics on `NotExists`, `True`, `False`: `C29_panics_iff`. `ExpressionStats` panics on `Not`, `Like`, ... and counts
  nested loops only at depth one: `C31_*`.
* JSON expressions: short arrays panic, surplus parts are ignored: `C30_negation`.
* The compiler panics on `a = a.b`, on a reference to an outer variable from an inner loop, and on `NOT EXISTS` inside a loop: `C32_negation`.
  The exact condition is C86. It depends on the order of the fields: `a.c + a = a.b.x` compiles, `a + a.c = a.b.x` panics (`C86_order_matters`).
  Filter texts such as `a = a.b`, or with a pattern that is not valid, panic in `GetFilterExpressionMatcher` (`C87_crash`, `C87_pattern`).
* Two fields of loop elements: slots keep values of earlier elements: `C34_negation`.  When every element has the compared fields, each
  element is judged by its own values: `C34_elements_partial`, `C34_values_partial` (`Transform/Element*.lean`, `Transform/Outer.lean`).
  The exact verdict on every document is C85: a member that an element lacks is that of the last element before it that has it
  (`C85_members`), so `ANY v IN a SATISFIES v.a = v.b` matches `{"a":[{"a":1},{"b":1}]}` (`C85_stale`).
* `a = b` matches the scalar document `5` (an empty slot is read as the whole document): `C62_negation`. It does not match
  `{"a":[],"b":[]}`: `C62_empty_arrays`. With repeated keys conditions see the first value, comparisons of two fields the last:
  `C62_repeated_keys`. Comparing a field with one inside it always panics: `C32_two_fields`.
* `EVERY v IN a SATISFIES v = b` does not match `{"a":[],"b":1}` (`EVERY v IN a SATISFIES v = 1` does): `C76_empty_array`. A loop that
  refers to the document runs over the document itself if the array's field is missing and the document is an array:
  `C76_document_is_array`. If the array is missing in an object, the verdict is true for `!=` and false for other comparisons, whatever
  the quantifier: `C76_missing_array`. `ANY v IN q.a SATISFIES v = q.b` matches `{"q":{"b":1},"q":{"a":[1]}}`, in which no `q` has both
  fields: fields read at an earlier value stay: `C84_fields_remain`.
* Reference matcher: a loop inside another that binds the same variable removes the outer value, and the rest of the outer body fails:
  `C64_negation`.
* A text that ends early gets a verdict of its own without an error (`{"a":0` for `NOT (b = 1)`) or crashes; `matchObjectOrArray` and the
  loops drop errors of nested calls, which surface later because `Step` does not move on error: `C66_partial`, `C66_negation`.
* Patterns with an escaped parenthesis before `?=` are taken for PCRE and refused without PCRE support: `C65_escaped`.
* Fast and reference matcher disagree on several expressions (OR against AND) and on missing fields: `C35_negation`.
* `MatchAndRemoveItemsFromJsonObject` fails on retained arrays ending in a plain string, and on repeated keys to remove:
  `C36_negation_*`; a short destination panics: `C37_short_destination_panics`.
* The shared conversion buffer makes concurrent comparisons wrong: `C39_negation`.
* `ExpressionMatched` panics for constant expressions (bucket -1/-2 used as an index): `C49_constants_crash`.
* Simple parser: `( a == "b (c) d" )` is never answered. Within parentheses `getUnfinishedValueHelper` splits a word that ends in `)` into
  the word and `)`, goes on to that `)`, splits it into an empty word and `)`, and so on; the list of tokens grows without bound: `C56_hangs`.
* Simple parser: `a && b` and `a == 1 && b` panic, `a == 1 && false` and `a == 1 &&` are read as `a == 1`,
  and `true && a == 1` compiles to something that never matches: `C57_*`. AND does not bind tighter
  than OR, and the nesting depends on whether `&&` or `||` (not `AND`, `OR`) occur anywhere among the tokens, also inside a quoted
  phrase: `C53_chain`, `C54_negation`. `a[1].b` reads the index twice, `a[0]` is refused: `C55_*`. `a == "5"` compares with a number:
  `C59_negation`. `POW(a,ABS(b))` loses the `b`; `ABS(DATE("x"))` is accepted: `C60_*`. `StringSplitFirstInst` loses characters: `C58_negation`.
* Simple parser: a group in parentheses that is not the first or the last link of a chain is refused or read differently:
  `C61_negation`, `C61_rejected`.
* Simple parser: white space before `||` changes the grouping (`a == 1 || b == 2 AND c == 3` against `a == 1|| b == 2 AND c == 3`), because
  the symbols are counted before words are split: `C71_negation`. `a==ABS(b)` is refused, `a == ABS(b)` is not: `C71_call`.
* Dates: the patterns let `/`, `.` and blanks through between year, month and day, and days like February 30; `time.Parse` then fails.
  `["time","2019/01/01"]` passes the parser and crashes the compiler: `C68_negation`, `C69_crash`. A day with a time after blanks is a
  date in documents but not as a constant: `C70_negation`.
* Strings are compared, and matched with patterns, as quoted texts: a line feed or a quotation mark orders above `A` (`C74_negation`),
  and a pattern sees a backslash and a letter instead of the character (`C74_pattern`). Equality is not affected (`C74_equal`).
* Names that contain an operator word cannot be written, not even in backticks: `BRAND == 1` is refused, `MAJORITY == 1` is `MAJ || ITY == 1`, and
  `` `ORDER` == 1 `` is a condition on the field ` OR DER` (`C77_negation`, `C77_error`, `C77_other`, `C77_spaces`; exactly: `C77_name_partial`).
* The filter grammar accepts `a + b + c`, but the structure has room for one operator: every structure leaves at most two operands
  (`C78_two`), so no parser could make it work (`C78_sum`, `C78_negation`).
* `a = 1 AND a = b` matches `{"a":1,"a":2,"b":2}`: conditions on one field use the first member of a name, comparisons of several fields the
  last (`C79_members_partial`, `C79_mixed`); `a.a = 1 AND a.b = 1` matches `{"a":{"a":1},"a":{"b":1}}` (`C79_nested`).
* Simple expressions, from the text to the verdict: `{"a":1}` is not matched by `a == 1 || b == 2 && c == 3` (`C80_mixed`, `C80_negation`);
  chains of one connective and groups match exactly the documents on which they are true (`C80_chain_partial`, `C80_order_partial`,
  `C80_groups_partial`).  On any document, the answer is what the conditions, on the visible values, joined in the order of the parser say
  (`C80_anywhere`).  `OR` and `||` differ: `b == 2 AND c == 3 OR a == 1` matches `{"a":1}`, `b == 2 AND c == 3 || a == 1` does not, because
  short circuiting is decided on the symbols only (`C80_synonyms`).
* In the filter language a disjunct added to a filter can make it false: `EXISTS(a)` matches `{"a":{}}`, `EXISTS(a) OR EXISTS(a.b)` does not
  (`Filter.C51_or_loses`).
* Filters: parentheses may not follow `NOT`; `NOT (a = 1)` is an error (`C81_not_paren`, `C81_not_paren_error`), because `"("` occurs only in
  `FESubExprOrTerm`.  The alternative `FieldOnly` of `FEFieldWithMath` (whose output is an error) is never needed: `FEFieldWithMathType1` reads a
  single field as well.
* Conversions: `AsUint` of the text 1.5 is 1 and counts as exact (`C75_fraction`); `t|ue` is TRUE, since a bit mask instead of letters is
  compared (`C75_bar`); a `StringValue` is converted to a time from an empty slice, so never (`C75_time`).
* Numbers: floats closer than 10^-7 count as equal, so `a = 0` matches 0.00000006 and equality is not transitive: `C73_tolerance`,
  `C73_not_transitive`. Integers above 2^53 are rounded before they are compared with floats: `C73_large`. `ABS(-9007199254740993)` is
  9007199254740992: `C72_abs_large`. `ROUND(0.49999999999999994)` is 1 and `ROUND(4503599627370497.0)` is 4503599627370498:
  `C72_round_below_half`, `C72_round_mid`.
* A matcher for constants only (`[TRUE]`) crashes on every document, and `TRUE` merged with other expressions is ignored: `C82_documents_crash`,
  `C82_true_partial`, `C82_negation`.
* `ANY v IN a SATISFIES (ANY u IN v.x SATISFIES v.d)` with a bare field as the body compiles. A matcher with inconsistent buckets can then loop
  without end on `{"a":[{"x":[1],"d":2}]}`: `C88_genuine_needed`. With conditions as bodies this cannot happen (`C88_terminates`).
* The simple parser compiles a pattern only if it is one word: `a LIKE "[x y"` is accepted and then crashes the compiler (`C89_phrase`).
  `a == ABS(a.b)` is accepted and crashes as well (`C89_crash`).
* `MatchDef.String` panics on every definition with a PCRE constant and on definitions of constants only (`C90_prints`, `C90_negation`).
* `EXISTS` of a function of several fields is true even if the fields are missing (`C33_function_negation`).
* `ANY v IN a SATISFIES v = 1 OR v = b` runs its body over the document itself when the document is an array: it matches `[1]` and not `[2]`,
  although neither has the fields `a`, `b`: `C25_rooted_negation`.
* Read in the code but not proved: errors from `matchAfter` are dropped at fastMatcher.go:602 and 684.

## Plan per property

* C01–C05, C44 `BinTree`. Representation invariant preserved by every operation; induction on trees.
* C06, C07 `BinTree` + `Transform`: the array built by the compiler is the preorder layout of the expression's
  Boolean tree; per-expression buckets.
* C08 negation by concrete array; partial positive result (Validate + right child links = layout).
* C09–C13 `Token`: induction on input / on documents against the grammar.
* C14 skip: induction on documents with arbitrary suffix.
* C15, C16 `Lit`. C17–C19, C45–C47 `FastVal`; C20, C21, C41 `FastVal.Math`.
* C22–C26, C33, C40, C48, C49 `Transform` + `Match` (chain above). C27 `Match.Reset`.
* C28, C29, C31, C42 `Expr`: structural induction. C30 `Json`: round trip and exact acceptance.
* C32, C34, C38 counterexamples and partial positive results.
* C66 `Match/Bytes` (what the matcher does on arbitrary bytes: ends, moves forward, after an error cannot read on), `Match/Damage` (two
  inputs with the same tokens up to a place from which on one cannot be read, run in step), `Transform/Damage`.
* C63, C64 `Slow/Scope`: variables are only removed, by induction on expressions; the verdict under an environment. C65 `Filter/Pcre`.
* C35 `Slow` against the same semantics as C22. C36, C37, C43 `Composer`.
* C39 `Conc`: interleavings of any number of threads.
* C62 `Transform.Slots`–`MultiWhole`: invariants of compiled nodes with slots (`Good`, `Grow`), what slots hold when an `AfterNode` is reached
  (`dExec_after`), then as for C22.
* C76 `Transform.Store`–`RootedWhole`: the invariants of C62 extended by loops of `AfterNode`s; the body is compiled into the loop's own node
  (`rbody`), which reads slots of the document (`rsem_correct`); a deferred loop decides once, when its node is left (`dExec_aloop`); then
  `truth3` by induction on the expression. The fragment `Frag2` includes these loops, so the theorems of C32, C38 and C49 for several fields do.
* C50–C52 `Filter`: output of every structure by induction on the syntax; meaning through C40; acceptance by a checker.
* C56 `Simple/Weight` … `Hang`: the sum of 2·length−1 over the tokens left falls with every token read or split; ranks on the nodes of the
  tree, kept through `insertNode` and `mergeAndRestoreSubContexts`; the endless loop by induction on the rounds.
* C68–C70 `Date`: the patterns against decimal forms, then which text each becomes before `time.Parse`.
* C61 `Simple/Groups`: one lemma for entering and leaving a group, induction on the nesting. C67 `Simple/Balance`: the number of
  parentheses open plus those ahead is kept by every step of the parser, induction on the rounds.
* C71 `Simple/Glue`–`GlueTheorems`: a word of several tokens is only split between tokens; two token lists with the same tokens stay so
  through every step (simulation, induction on the rounds).
* C75 `FastVal/Conv`: by cases on the value, with C47 for the texts.
* C34 `Transform.Element`–`ElementWhole`: while an element is walked, the slots hold values of that element; the loop node is reset per element,
  the slots are not, so all compared fields have to be there.
* C77 `Simple.Names`: `Seek` finds every operator, so a token read as a name contains none; an invariant on the paths kept in the tree.
* C78 `Filter.Chain`: by cases on the structure; the value of an expression depends on the fields it mentions only.
* C79 `Transform.Repeated`: C62 for the matcher; the first (last) value at a path of one key is the one in the reduced document.
* C80 `Simple.Whole`: C53 and C61 for the parser, C22 for the matcher; every side of a condition can be compiled.  `Simple.Anywhere`: the same
  with C84 for the matcher.
* C51 `Filter.Anywhere`, C82 `Transform.ConstantsAll`: on any document by C84.
* C81 `Filter.Grammar`: a deterministic reader (`pFilt`) that returns the filter for every text of it; so two filters with the same text are equal.
* C82 `Transform.Constants`: from C22, since only the expressions that are not constants are compiled.
* C83 `Transform.Reach`: induction on the node as for C22, with `reach` in place of `walk`; `Transform.ReachSem`: induction on the expression.
* C84 `Transform.ReachSlots`: induction on the node: a slot ends up with the last value reached, an `AfterNode` decides on the first; `Transform.ReachLoops`: induction on the node: a loop of an `AfterNode` is tried at each value in order, with the slots so far; `Transform.ReachRooted`: the loop's body on an element; `Transform.ReachMulti`: induction on the expression; `Transform.ReachPairs`, `Transform.ReachLoopMembers`: the form without loops, and for two members.
* C94 `Transform.ExprText`: an operand can be read off every text that begins with it (`operand_inj`, unique readability); lines at the margin separate the parts of a chain (`split_margin`), indentation is injective on lists of lines (`reindent_inj`), and the first word of a text tells the kind of expression (`kind_text`).
* C24, C26 for several fields `Transform.Likeness`: the verdict of C84 is invariant under every relation that keeps scalars and relates the values at all paths (`Likeness`); layout and order are two such relations; no function returns an array or object (`applyFn_scalar`).  For loops over elements the same is done with the verdict of C85 in `Transform.LikeElements`; a comparison of a body must have a side that is scalar on every element (values may stay from earlier elements).  Loops that refer to the document are in `Transform.LikeRooted`, with the verdict of C84: what is seen of the document's fields are values of the document, or the document is a scalar (`Seen`).
* C33 on functions of several fields `Transform.ExistsFunction`: the operation runs without a literal and is true whatever the fields are (`C33_function`, witness `C33_function_negation`).
* C86 `Transform.Compiles`: every function of the compiler either succeeds or panics, decided by a condition on its input; composed by `Exactly.bind`;
  duplicates among collected fields do not change the search for the common path (`pick_dup`). C87 `Filter.Compiles`: operands of filters always compile.
* C88 `Match.Halts`: the fuel of `run` suffices: every function of the matcher moves the tokenizer forward or returns an error, and a loop over elements goes on only
  while it reads tokens; needs that no loop has bucket 0 and no after-loops inside loop bodies (`Neat`). `Transform.Halts`: the compiler builds such nodes.
* C92 `Match.FirstToken`: the first step of the tokenizer decides; proved for every definition and every state.
* C93 `Transform.Trailing`: the simulation between bytes and documents (`Match.Refine`) needs only that the text *begins* with the document (`Begins`); the verdict theorems are stated so.  Counterexamples (`C22_negation`, `C51_negation`, `C79_full`, `C80_full`, `C82_full`) use exact texts (`IsText`).
* C93 in full, C95 `Match.InSync`: while a loop runs, the root of the tree is undecided, so no element is left halfway; every function of the matcher on documents keeps the decision state one of the subtree of its loop (`Went`, `Stays`), with slots, nested loops and after-loops.  `Transform.InSync`: the compiler builds nodes whose operations and loops decide positions of that subtree (`Lies`) and whose references make sense (`Safe`); one induction over the compiler with abstract rules (`Rules`, `Obeys`, `Lawful`), no condition on the expressions.
* C96 `Transform.Merged`: after a match that returned a verdict the state of the tree is the evaluation of the whole tree on the marks (`run_document`); the merged trees are joined by `or` nodes, and the buckets of the expressions are exactly their roots (`bucketIds_onto`).
* C97 `Transform.MergedAny`: the exact semantics of C84 per expression (`each2R_correct`); the values reached at a path depend only on the loops on the way and on whether there are conditions below (`Near`).
* C98 `Transform.PrintInj`: the text is cut into lines; lines at the margin separate the parts of a definition, and the first line of a subtree is the only one of it without further indentation. `Transform.PrintAll` does the same for the parse tree: blocks end at the next line at the margin, an entry of a block is a line at its margin with what is indented below it.
* C99 `Transform.PrintState`: the same cut into lines, now with the status behind the kind of each node; a kind contains no blank, a status begins with one. The first line is that of the root, whose value after `Resolve` is the verdict.
* C100 `Transform.Negate`, `Transform.NegateRun`: two simulations. The transformer on `NOT e` and on `e` in step: the same nodes with bucket numbers one higher. The matcher on both definitions in step: the decisions `p` say which positions of either tree are undecided (`inv_unknown`), so both skip, mark and leave at the same places; at the end the value of one tree is the negation of the other's.
* C101 `Transform.Rename`, `Transform.Push`, `Transform.PushRun`: the same two simulations for any injective renaming of buckets. `Rename`: compiling an expression at another place of the tree gives the same nodes with other numbers (`Moves`). `Push`: compiling an expression and its normal form in step; `FitsAt` says where each atom goes, `fits_exists` gives the renaming. `PushRun`: the decisions of one run, moved, are those of the other (`moved`), so that at every atom both trees agree on what is undecided (`inv_push`) although the connectives between differ; at the end the values agree (`evalM_push`).
* C102 `Transform.Regroup`: the same for rotations. `Turned σ s s' b` says that `s'` is `s` with one rotation and where each node goes; `Turns` compiles both in step (`turn_turns` is the rotation itself); `run_like` of `PushRun` runs them in step. `Law` joins regroupings and the normal forms of C101. Bodies of loops are not regrouped.
* C87 also `Filter.Pieces`: incomplete arithmetic, which the grammar never produces but the code handles.
* C90, C91 `Transform.Print`: every update of the compiler keeps all nodes (`Grew`) and adds exactly the constants of its operands (`Printed`); printing a node panics exactly if it contains a PCRE (`execText_iff`); insertions by different keys commute.
* C89 `Simple.Compiles`: C61 for the parser, C86 for the compiler; induction over the nesting of the text. That matching ends needs only that the output has no loops.
* C85 `Transform.ReachElemOps`, `Transform.ReachElemSem`: the body on an element, with arbitrary values left in the slots; `Transform.Given`: induction on the node, the outcomes of the loops being given; `Transform.Carry`: the matcher follows it, with the invariant that the slots of loops that are not decided are empty; for this the compiler gives different slots to different loops (`Apart`, `Transform.ElementWhole`); `Transform.ElementAny`: induction on the expression.
* C74 `Quote/*`: a string is a sequence of items (code points, stray bytes); each item is written as a text, and of two different items
  the texts differ at a position that decides the order however they continue (`item_below`). So equal texts mean equal strings, and
  the order is the lexicographic order of the items' places. This discharges `QuoteLaws` (`quoteLaws`).
* C72, C73 `FastVal/Round`, `Binary`, `Half`, `Functions`: rounding of whole numbers (units of 2^-1074) to 53 bits is monotone and to the
  nearest; `B64` states the laws of binary64 in these terms, `ext64` is a model of them; then comparison, ABS and ROUND by value.
* C53–C60 `Simple`: invariant of the parser's state between conditions (`Full`), one lemma per token kind, induction on the chain;
  calls by induction on terms; numbers, names and splitting against their grammars; negations by evaluation.

## Trusted base

* The Lean 4.33.0 kernel. No axioms of our own, no `sorry`, no `native_decide`, no `bv_decide`. The theorems of the manifest
  depend on at most `propext`, `Classical.choice`, `Quot.sound` (table below). No Mathlib module is imported.
* The hand translation from Go to Lean in the modules above, the specifications, and the hypotheses about parameters.
* `seeded/LOG.jsonl` records seeded errors: edits of model definitions in a scratch copy and which theorems fail.

## Axioms per theorem

* propext: `BinTree.C03_unguarded_double_mark_panics`, `BinTree.C05_stall_needed`, `BinTree.C08_validate_can_panic`, `Conc.jobOf_result`, `Date.C70_others`, `FastVal.C17_full_statement_false`, `FastVal.C17_mixed_counterexample`, `FastVal.C18_counterexample`, `FastVal.C18_full_statement_false`, `FastVal.C19_equals_iff`, `FastVal.C19_improper_never_equal`, `FastVal.C19_null_eq`, `FastVal.C19_refl`, `FastVal.C46_constant`, `FastVal.C46_document`, `FastVal.C72_abs_kind`, `FastVal.C72_angles`, `FastVal.C72_float`, `FastVal.C72_one`, `FastVal.C72_round_kind`, `FastVal.C72_two`, `FastVal.C75_time`, `Filter.C52_operators`, `Match.C92_empty`, `Token.C10_unreached`, `Token.C11_error_does_not_consume`, `Transform.C102_flat`, `Transform.C33_no_reference`
* propext, Quot.sound: `BinTree.C04_reset_restores`, `BinTree.C05_clear_body`, `BinTree.C08_validate_accepts_layouts`, `BinTree.C08_validate_sound_of_links`, `BinTree.C08_validate_sound_partial`, `BinTree.C44_copy`, `Conc.C39_converted`, `Conc.C39_one_converter_partial`, `Conc.C39_uses_buffer`, `Conc.jobOf_pure`, `Expr.C28_compact_partial`, `Expr.C29_exact_partial`, `Expr.C31_counts_partial`, `Expr.C42_compact_clean`, `Expr.C42_compact_idem`, `FastVal.C17_same_sign`, `FastVal.C17_valid_is_exact_partial`, `FastVal.C18_antisymmetric_partial`, `FastVal.C19_string_eq`, `FastVal.C19_symm`, `FastVal.C21_counterexample`, `FastVal.C21_crash_iff_partial`, `FastVal.C21_full_statement_false`, `FastVal.C21_safe`, `FastVal.C45_constant`, `FastVal.C45_constant_left`, `FastVal.C45_constant_left_int`, `FastVal.C45_document`, `FastVal.C75_bool`, `Match.C27_reset_new`, `Match.C27_status_sticky`, `Slow.C63_clean`, `Slow.C63_independent`, `Slow.C63_reset`, `Transform.C33_function`, `Transform.C33_slot`, `Transform.C79_same`, `Transform.C83_regular`, `Transform.C85_complete`
* propext, Classical.choice, Quot.sound: `BinTree.C01_order_irrelevant`, `BinTree.C01_verdict_of_marks`, `BinTree.C01_verdict_order_independent`, `BinTree.C02_decision_final`, `BinTree.C02_early_decision_sound`, `BinTree.C02_undecided_is_open`, `BinTree.C03_no_panic`, `BinTree.C05_loop_body_isolated`, `BinTree.C05_loop_round_trip`, `BinTree.C06_each_expression_own_verdict`, `BinTree.C08_validate_accepts_wrong_child_links`, `Composer.C36_exact`, `Composer.C36_kept_partial`, `Composer.C36_negation_array`, `Composer.C36_negation_keys`, `Composer.C37_no_overrun`, `Composer.C37_short_destination_panics`, `Composer.C43_idempotent`, `Conc.C39_negation`, `Date.C68_negation`, `Date.C68_partial`, `Date.C69_crash`, `Date.C69_negation`, `Date.C69_partial`, `Date.C70_function`, `Date.C70_negation`, `Date.C70_partial`, `Date.C70_values`, `Expr.C28_negation`, `Expr.C28_negation_every`, `Expr.C29_negation`, `Expr.C29_panics_iff`, `Expr.C31_negation`, `Expr.C31_nested_depth_one`, `ExprText.C94_blank`, `ExprText.C94_kinds`, `ExprText.C94_negation`, `ExprText.C94_single`, `ExprText.C94_text_partial`, `FastVal.C17_mixed_valid_iff`, `FastVal.C19_array_eq`, `FastVal.C20_add`, `FastVal.C20_add_exact`, `FastVal.C20_mul`, `FastVal.C20_neg`, `FastVal.C20_signed_zero_invalid`, `FastVal.C20_sub`, `FastVal.C41_div`, `FastVal.C41_mod`, `FastVal.C47_int`, `FastVal.C47_roundtrip_int`, `FastVal.C47_roundtrip_uint`, `FastVal.C47_uint`, `FastVal.C47_uint_value`, `FastVal.C72_abs_int`, `FastVal.C72_abs_large`, `FastVal.C72_abs_partial`, `FastVal.C72_arith`, `FastVal.C72_negation`, `FastVal.C72_not_numbers`, `FastVal.C72_round_below_half`, `FastVal.C72_round_high`, `FastVal.C72_round_mid`, `FastVal.C72_round_partial`, `FastVal.C73_apart`, `FastVal.C73_document_partial`, `FastVal.C73_large`, `FastVal.C73_negation`, `FastVal.C73_not_transitive`, `FastVal.C73_partial`, `FastVal.C73_tolerance`, `FastVal.C75_bar`, `FastVal.C75_fraction`, `FastVal.C75_int`, `FastVal.C75_roundtrip`, `FastVal.C75_text`, `FastVal.C75_text_partial`, `FastVal.C75_uint_complete`, `FastVal.C75_uint_partial`, `Filter.C50_invalid`, `Filter.C50_output`, `Filter.C51_anywhere`, `Filter.C51_constants_partial`, `Filter.C51_exists`, `Filter.C51_match_partial`, `Filter.C51_negated`, `Filter.C51_negation`, `Filter.C51_not_true`, `Filter.C51_or_loses`, `Filter.C51_scalar`, `Filter.C51_several_partial`, `Filter.C52_values`, `Filter.C65_escaped`, `Filter.C65_pcre`, `Filter.C78_ignored`, `Filter.C78_negation`, `Filter.C78_short_partial`, `Filter.C78_sum`, `Filter.C78_two`, `Filter.C81_match_partial`, `Filter.C81_not_paren`, `Filter.C81_not_paren_error`, `Filter.C81_parse`, `Filter.C81_unique`, `Filter.C87_arithmetic`, `Filter.C87_crash`, `Filter.C87_filter`, `Filter.C87_pattern`, `Filter.C88_filter`, `Json.C30_accepted`, `Json.C30_negation`, `Json.C30_no_crash_partial`, `Json.C30_rejected`, `Json.C30_roundtrip`, `Json.C30_text`, `Lit.C15_int_exact`, `Lit.C15_int_mod`, `Lit.C15_out_of_range_wraps`, `Lit.C16_decode`, `Lit.C16_literal_in_document`, `Lit.C16_lone_surrogate_reads_empty`, `Lit.C16_lone_surrogate_swallows_text`, `Lit.C16_low_low_pair`, `Lit.C16_never_longer`, `Lit.C40_spelling_irrelevant`, `Match.C24_layout`, `Match.C24_negation`, `Match.C38_documents_partial`, `Match.C38_negation`, `Match.C92_blank`, `Match.C92_cases`, `Match.C92_delimiter`, `Match.C92_error`, `Match.C93_definition`, `Match.run_halts`, `Quote.C74_equal`, `Quote.C74_equal_document`, `Quote.C74_match`, `Quote.C74_negation`, `Quote.C74_order`, `Quote.C74_order_document`, `Quote.C74_partial`, `Quote.C74_pattern`, `Simple.C53_chain`, `Simple.C54_negation`, `Simple.C54_partial`, `Simple.C55_around`, `Simple.C55_negation`, `Simple.C55_partial`, `Simple.C55_twice`, `Simple.C55_zero`, `Simple.C56_hangs`, `Simple.C56_needs`, `Simple.C56_negation`, `Simple.C56_outside`, `Simple.C56_partial`, `Simple.C56_witness`, `Simple.C57_constant`, `Simple.C57_group`, `Simple.C57_lost`, `Simple.C57_lost_and`, `Simple.C57_negation`, `Simple.C57_operand`, `Simple.C57_second`, `Simple.C58_negation`, `Simple.C58_partial`, `Simple.C59_negation`, `Simple.C59_numbers`, `Simple.C60_date`, `Simple.C60_negation`, `Simple.C60_partial`, `Simple.C61_bare_group`, `Simple.C61_first_partial`, `Simple.C61_meaning_partial`, `Simple.C61_negation`, `Simple.C61_partial`, `Simple.C61_rejected`, `Simple.C67_balanced`, `Simple.C67_quoted`, `Simple.C71_call`, `Simple.C71_groups`, `Simple.C71_negation`, `Simple.C71_partial`, `Simple.C71_word`, `Simple.C77_calls`, `Simple.C77_error`, `Simple.C77_fields`, `Simple.C77_name_partial`, `Simple.C77_negation`, `Simple.C77_other`, `Simple.C77_spaces`, `Simple.C77_unary_partial`, `Simple.C77_words`, `Simple.C80_anywhere`, `Simple.C80_chain_partial`, `Simple.C80_groups_partial`, `Simple.C80_mixed`, `Simple.C80_negation`, `Simple.C80_order_partial`, `Simple.C80_synonyms`, `Simple.C88_simple`, `Simple.C89_compiles`, `Simple.C89_crash`, `Simple.C89_phrase`, `Simple.C89_word`, `Simple.hangs_iff`, `Simple.parseTokens_ends`, `Simple.quoteLoop_hangs_iff`, `Slow.C35_agree_partial`, `Slow.C35_elements_partial`, `Slow.C35_negation`, `Slow.C35_reference`, `Slow.C35_several_partial`, `Slow.C64_negation`, `Slow.C64_partial`, `Token.C09_end_iff`, `Token.C09_step_progress`, `Token.C09_tokenizing_terminates`, `Token.C10_token_text_exact`, `Token.C12_class_unique`, `Token.C12_error_means_no_token`, `Token.C12_grammar_accepted`, `Token.C12_integer`, `Token.C12_plain_string`, `Token.C12_token_in_grammar`, `Token.C13_tokens_in_context`, `Token.C13_tokens_of_document`, `Token.C14_leave_never_stuck`, `Token.C14_skip_exact`, `Token.C14_truncated_container_panics`, `Transform.C07_buckets`, `Transform.C07_no_validation_panic`, `Transform.C07_tree`, `Transform.C100_compiles`, `Transform.C100_missing`, `Transform.C100_ne`, `Transform.C100_not`, `Transform.C100_twice`, `Transform.C101_and`, `Transform.C101_compiles`, `Transform.C101_or`, `Transform.C101_push`, `Transform.C101_same`, `Transform.C102_compiles`, `Transform.C102_laws`, `Transform.C22_match_partial`, `Transform.C22_negation`, `Transform.C23_loops_partial`, `Transform.C23_negation`, `Transform.C23_positive_partial`, `Transform.C24_elements_partial`, `Transform.C24_expressions_partial`, `Transform.C24_rooted_partial`, `Transform.C24_several_partial`, `Transform.C25_elements_partial`, `Transform.C25_fields_partial`, `Transform.C25_rooted_negation`, `Transform.C25_several_partial`, `Transform.C25_unreferenced_partial`, `Transform.C26_elements_partial`, `Transform.C26_negation`, `Transform.C26_order_partial`, `Transform.C26_rooted_partial`, `Transform.C26_several_partial`, `Transform.C32_fragment_partial`, `Transform.C32_negation`, `Transform.C32_several_partial`, `Transform.C32_two_fields`, `Transform.C33_exists_partial`, `Transform.C33_function_negation`, `Transform.C33_negation`, `Transform.C34_elements_partial`, `Transform.C34_negation`, `Transform.C34_values_partial`, `Transform.C38_expressions_partial`, `Transform.C38_several_partial`, `Transform.C38_terminates_partial`, `Transform.C40_match`, `Transform.C40_path`, `Transform.C48_condition`, `Transform.C48_condition_left`, `Transform.C48_match`, `Transform.C48_pattern`, `Transform.C49_constants_crash`, `Transform.C49_each_partial`, `Transform.C49_fresh`, `Transform.C49_loopFree_partial`, `Transform.C49_positive_partial`, `Transform.C49_several_partial`, `Transform.C62_empty_arrays`, `Transform.C62_match_partial`, `Transform.C62_missing_partial`, `Transform.C62_negation`, `Transform.C62_repeated_keys`, `Transform.C62_values_partial`, `Transform.C66_negation`, `Transform.C66_partial`, `Transform.C76_document_is_array`, `Transform.C76_empty_array`, `Transform.C76_match_partial`, `Transform.C76_members_partial`, `Transform.C76_missing_array`, `Transform.C76_repeated_keys`, `Transform.C79_members_partial`, `Transform.C79_mixed`, `Transform.C79_negation`, `Transform.C79_nested`, `Transform.C82_anywhere`, `Transform.C82_crash`, `Transform.C82_documents_crash`, `Transform.C82_false_partial`, `Transform.C82_ignored_partial`, `Transform.C82_negation`, `Transform.C82_same_matcher`, `Transform.C82_true_partial`, `Transform.C83_exists`, `Transform.C83_loopFree`, `Transform.C83_verdict`, `Transform.C84_fields_remain`, `Transform.C84_loopFree`, `Transform.C84_loop_members`, `Transform.C84_members`, `Transform.C84_scalar`, `Transform.C84_verdict`, `Transform.C85_members`, `Transform.C85_regular`, `Transform.C85_stale`, `Transform.C85_verdict`, `Transform.C86_alone`, `Transform.C86_compact`, `Transform.C86_compact_strict`, `Transform.C86_compiles`, `Transform.C86_constants`, `Transform.C86_order_matters`, `Transform.C88_genuine_needed`, `Transform.C88_terminates`, `Transform.C90_negation`, `Transform.C90_prints`, `Transform.C90_tree`, `Transform.C91_deterministic`, `Transform.C93_follows_needed`, `Transform.C93_same`, `Transform.C93_trailing`, `Transform.C95_constants_crash`, `Transform.C95_no_error`, `Transform.C95_safe_needed`, `Transform.C95_verdict`, `Transform.C96_some`, `Transform.C97_alone_partial`, `Transform.C97_answers`, `Transform.C97_negation`, `Transform.C98_all`, `Transform.C98_definition`, `Transform.C98_operation`, `Transform.C99_prints`, `Transform.C99_tells`, `Transform.C99_verdict`, `Transform.run_multi`, `Transform.run_top`
