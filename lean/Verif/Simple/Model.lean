import Verif.Filter.Model

/-!
# Model of simpleParser.go (with utils.go:23-45 and constants.go:102-163)

Strings are lists of bytes.  The state of the parser is a value; a Go function that changes it returns the new state.  Errors
are kept apart only where the code does (`Err`).

Simplifications.  `strings.Fields` splits at ASCII white space only (Go also splits at U+0085, U+00A0 and the other Unicode
spaces).  `parserDataNodes` and `parserTree.data` grow together by one node per `insertNode` and are one list here; the maps
`fieldTokenPaths` and `funcOutputContext` are only written at the index of the node just inserted and are parts of the node.
The text that `checkAndParseField` returns for messages is not kept: a field node has no text.  `skipAdvanceCurrentMode`,
`lastParserDataNode`, `lastBinTreeDataNode`, `lastSeeker`, `currentOuputNode` and `pcreWrapper` are not needed.  The loops over
Go maps (`tokenIsBuiltInFuncType`, `handleMultiTokens`) do not depend on the order: at most one function pattern matches a text,
and the word lists are distinguished word by word.
-/

namespace Verif.Simple
open Verif.FastVal Verif.Expr
open Verif.Filter (isPcre andThen)

abbrev Str := List Nat

/-- Library functions: `math.Pi`, `math.E`; whether `regexp.Compile` succeeds; `strconv.ParseFloat` (`none` is an error);
`validTimeChecker`, fastval_date.go:20-23. -/
structure Env (E : Ext) where
  pi : E.F
  e : E.F
  compiles : Str → Bool
  parseFloat : Str → Option E.F
  validTime : Str → Bool

/-! ### Strings -/

def isSpace (c : Nat) : Bool := c = 32 || (9 ≤ c && c ≤ 13)

/-- `strings.Fields`; `cur` is the word read so far. -/
def fieldsFrom : Str → Str → List Str
  | cur, [] => if cur = [] then [] else [cur]
  | cur, c :: s => if isSpace c then (if cur = [] then fieldsFrom [] s else cur :: fieldsFrom [] s) else fieldsFrom (cur ++ [c]) s

def hasPrefix (p s : Str) : Bool := p.isPrefixOf s
def hasSuffix (p s : Str) : Bool := p.isSuffixOf s
def trimPrefix (p s : Str) : Str := if hasPrefix p s then s.drop p.length else s
def trimSuffix (p s : Str) : Str := if hasSuffix p s then s.take (s.length - p.length) else s

/-- `strings.Trim` with a set of ASCII characters. -/
def trim (set s : Str) : Str := ((s.dropWhile set.contains).reverse.dropWhile set.contains).reverse

/-- The text before and after the first occurrence of `d`, which is not empty. -/
def cut (d : Str) : Str → Option (Str × Str)
  | [] => none
  | c :: s => if hasPrefix d (c :: s) then some ([], (c :: s).drop d.length) else (cut d s).map fun r => (c :: r.1, r.2)

/-- `StringSplitFirstInst`, utils.go:23-45, for a `delim` that is not empty. -/
def splitFirst (value delim : Str) : List Str :=
  if value = delim then [delim] else
  match cut delim value with
  | none => [value]
  | some (a, b) =>
    if a ++ delim = delim then [delim, b]
    else if b = [] && hasSuffix delim (a ++ delim) then [trimSuffix delim (a ++ delim), delim]
    else [trim delim (a ++ delim), delim, b]

def joinSp : List Str → Str
  | [] => []
  | [s] => s
  | s :: r => s ++ 32 :: joinSp r

/-! ### Tokens, lines 44-58, 338-516 -/

def kEq : Str := ascii "=="
def kNe : Str := ascii "!="
def kOr : Str := ascii "||"
def kAnd : Str := ascii "&&"
def kLt : Str := ascii "<"
def kLe : Str := ascii "<="
def kGt : Str := ascii ">"
def kGe : Str := ascii ">="
def kLike : Str := ascii "=~"
def kExists : Str := ascii "EXISTS"
def kNotLike : Str := ascii "NOT_LIKE"
def kIsNull : Str := ascii "IS_NULL"
def kIsNotNull : Str := ascii "IS_NOT_NULL"
def kIsMissing : Str := ascii "IS_MISSING"

/-- `replaceOpTokenIfNecessary`, lines 428-440. -/
def canon (t : Str) : Str :=
  if t = ascii "=" then kEq else if t = ascii "OR" then kOr else if t = ascii "AND" then kAnd else if t = ascii "LIKE" then kLike else t

/-- Lines 442-477. -/
def isChainTok (t : Str) : Bool := t = kAnd || t = ascii "AND" || t = kOr || t = ascii "OR"
def isCompareTok (t : Str) : Bool := t = kGe || t = kLt || t = kLe || t = kGt
def isEqTok (t : Str) : Bool := t = kEq || t = ascii "=" || t = kNe
def isLikeTok (t : Str) : Bool := t = kLike || t = ascii "LIKE" || t = kNotLike
def isOnlyTok (t : Str) : Bool := t = kExists || t = kIsMissing || t = kIsNull || t = kIsNotNull
def isOpTok (t : Str) : Bool := isChainTok t || isEqTok t || isCompareTok t || isLikeTok t || isOnlyTok t

def digit (c : Nat) : Bool := 48 ≤ c && c ≤ 57

/-- `valueRegex`, `valueRegex2`: the delimiter of a quoted token (tokens contain no line breaks). -/
def quoteOf (t : Str) : Option Nat :=
  if t.length ≥ 2 && t.head? = some 34 && t.getLast? = some 34 then some 34
  else if t.length ≥ 2 && t.head? = some 39 && t.getLast? = some 39 then some 39
  else none

def unsigned (t : Str) : Str := if t.head? = some 45 then t.drop 1 else t

/-- `valueNumRegex`, line 49. -/
def isNum (t : Str) : Bool :=
  let s := unsigned t
  let i := s.takeWhile digit
  let r := s.dropWhile digit
  (i = [48] || (i ≠ [] && i.head? ≠ some 48)) && (r = [] || (r.head? = some 46 && r.length ≥ 2 && (r.drop 1).all digit))

/-- `intNumRegex`, line 51. -/
def isInt (t : Str) : Bool := unsigned t ≠ [] && (unsigned t).all digit

/-- `tokenIsUnfinishedValueType`, lines 776-783. -/
def unfinished (t : Str) : Option Nat :=
  if hasPrefix [34] t && !hasSuffix [34] t then some 34 else if hasPrefix [39] t && !hasSuffix [39] t then some 39 else none

/-- `seekInternal`, lines 238-261: `s` is the token from `idx` on, `k` the length looked at, the first argument what remains. -/
def seekLoop (s : Str) : Nat → Nat → Bool → Option Str
  | 0, k, found => if isOpTok (s.take k) then some (s.take k) else if found then some (s.take (k - 1)) else none
  | n + 1, k, found =>
    if isOpTok (s.take k) then seekLoop s n (k + 1) true
    else if found then some (s.take (k - 1))
    else seekLoop s n (k + 1) found

/-- `Seek`, lines 223-232. -/
def seek : Str → Option Str
  | [] => none
  | c :: s => match seekLoop (c :: s) (s.length + 1) 0 false with
    | some o => some o
    | none => seek s

/-! ### Functions, lines 60-124, 479-486 -/

/-- `funcTranslateTable`, lines 61-79. -/
def table1 : List (String × String) :=
  [("ABS", "mathAbs"), ("ACOS", "mathAcos"), ("ASIN", "mathAsin"), ("ATAN", "mathAtan"), ("CEIL", "mathCeil"), ("COS", "mathCos"),
   ("DATE", "date"), ("DEGREES", "mathDegrees"), ("EXP", "mathExp"), ("FLOOR", "mathFloor"), ("LOG", "mathLog"), ("LN", "mathLn"),
   ("SIN", "mathSin"), ("TAN", "mathTan"), ("RADIANS", "mathRadians"), ("ROUND", "mathRound"), ("SQRT", "mathSqrt")]

/-- `func0VarTranslateTable`, lines 81-84. -/
def table0 : List (String × String) := [("PI", "mathPi"), ("E", "mathE")]

/-- `func2VarsTranslateTable`, lines 87-90. -/
def table2 : List (String × String) := [("ATAN2", "mathAtan2"), ("POW", "mathPow")]

/-- What is between `name(` and `)`. -/
def inner (name t : Str) : Option Str :=
  if hasPrefix (name ++ [40]) t && hasSuffix [41] t && t.length ≥ name.length + 2 then
    some ((t.drop (name.length + 1)).take (t.length - name.length - 2))
  else none

/-- Split at the last comma after which there is something. -/
def lastComma : Str → Option (Str × Str)
  | [] => none
  | c :: s => match lastComma s with
    | some (a, b) => some (c :: a, b)
    | none => if c = 44 && s ≠ [] then some ([], s) else none

/-- `FindStringSubmatch` of the pattern of a function, lines 114-124 (tokens contain no spaces). -/
def subMatches (key t : Str) : Option (List Str) :=
  match inner key t with
  | none => none
  | some m =>
    if table0.any (fun p => ascii p.1 = key) then (if m = [] then some [t] else none)
    else if table1.any (fun p => ascii p.1 = key) then (if m = [] then none else some [t, m])
    else if table2.any (fun p => ascii p.1 = key) then
      (match m with
        | [] => none
        | c :: s => (lastComma s).map fun r => [t, c :: r.1, r.2])
    else none

/-- `tokenIsBuiltInFuncType`, lines 479-486. -/
def funcKey (t : Str) : Option Str :=
  ((table1 ++ table0 ++ table2).find? fun p => (subMatches (ascii p.1) t).isSome).map fun p => ascii p.1

/-- `getOutputFuncName`, lines 102-112. -/
def outName (name : Str) : Str :=
  match (table1 ++ table0 ++ table2).find? fun p => ascii p.1 = name with
  | some p => ascii p.2
  | none => []

/-! ### Fields, lines 837-981 -/

inductive FMode where
  | none | tick | nest
  deriving DecidableEq

/-- State of the loop: `cur` is `token[beginPos:pos]`, `out` the parts so far, `unf` the unfinished parts of a quoted name. -/
structure FS where
  mode : FMode
  skip : Bool
  cur : Str
  out : List Str
  unf : List Str
  deriving DecidableEq

/-- `if !skipAppend { append } else { skipAppend = false }` -/
def FS.push (s : FS) (t : Str) : FS := if s.skip then { s with skip := false } else { s with out := s.out ++ [t] }

/-- One character, lines 877-948; `next` is the following one.  `none` is an error. -/
def fieldChar (c : Nat) (next : Option Nat) (s : FS) : Option FS :=
  match s.mode with
  | .none =>
    if c = 46 then some { s.push s.cur with cur := [] }
    else if c = 96 then some { s with mode := .tick, cur := [] }
    else if c = 91 then some { s.push s.cur with cur := [91], mode := .nest }
    else some { s with cur := s.cur ++ [c] }
  | .tick =>
    if c = 96 then
      if s.cur = [] then none else
      let t := if s.unf = [] then s.cur else joinSp (s.unf ++ [s.cur])
      some { s with out := s.out ++ [t], unf := [], mode := .none, skip := s.skip || next = none || next = some 46 || next = some 91,
                    cur := s.cur ++ [c] }
    else some { s with cur := s.cur ++ [c] }
  | .nest =>
    if s.cur.length = 1 && c = 48 then none
    else if !digit c && c ≠ 93 then none
    else if c = 93 then
      if s.cur.length = 1 then none else
      let s' := s.push (s.cur ++ [c])
      some { s' with mode := .none, cur := s.cur ++ [c], skip := s'.skip || next = none || next = some 91 }
    else some { s with cur := s.cur ++ [c] }

def fieldChars : Str → FS → Option FS
  | [], s => some s
  | c :: r, s => match fieldChar c r.head? s with
    | some s' => fieldChars r s'
    | none => none

/-- Lines 873-978: the number of further tokens used and the parts. -/
def fieldToks : List Str → FS → Option (Nat × List Str)
  | [], _ => none
  | t :: rest, s => match fieldChars t { s with cur := [] } with
    | none => none
    | some s' => match s'.mode with
      | .none => some (0, if s'.skip then s'.out else s'.out ++ [s'.cur])
      | .nest => none
      | .tick => (fieldToks rest { s' with unf := s'.unf ++ [s'.cur] }).map fun r => (r.1 + 1, r.2)

/-- `checkAndParseField`: the new index and the parts, or an error; lines 858-981. -/
def checkField (ts : List Str) (i : Nat) : Option (Nat × List Str) :=
  match ts[i]? with
  | none => none
  | some [] => none
  | some _ => (fieldToks (ts.drop i) ⟨.none, false, [], [], []⟩).map fun r => (i + r.1, r.2)

/-! ### Calls, lines 193-203, 1688-1737 -/

/-- Elements of `args`: a string, `funcRecursiveIdx`, or the parts of a field. -/
inductive Arg where
  | str (s : Str)
  | lvl (n : Nat)
  | fld (ts : List Str)
  deriving DecidableEq

structure Helper where
  args : List (List Arg)
  lvl : Nat
  deriving DecidableEq

/-- `helper.args[i] = append(helper.args[i], a)` -/
def Helper.push (h : Helper) (i : Nat) (a : Arg) : Res Helper :=
  match h.args[i]? with
  | some l => .ok { h with args := h.args.set i (l ++ [a]) }
  | none => .panic

/-- The loop over the arguments, lines 1706-1728; the first argument bounds the rounds, `rec` is the recursive call, whose error is
not looked at.  `false` is an error. -/
def argLoop {E : Ext} (N : Env E) (rec : Helper → Str → Str → Res (Helper × Bool)) (key : Str) (fx : Nat) (ms : List Str) :
    Nat → Nat → Helper → Res (Helper × Bool)
  | 0, _, _ => .stuck
  | n + 1, i, h =>
    match ms[i]? with
    | none => .ok (h, true)
    | some m =>
      match funcKey m with
      | some key' =>
        Res.idx ms 1 >>= fun m1 =>
        rec { args := h.args ++ [[]], lvl := h.args.length } m1 key' >>= fun r =>
        r.1.push fx (.lvl h.args.length) >>= fun h' => argLoop N rec key fx ms n (i + 1) h'
      | none =>
        match quoteOf m with
        | some q =>
          let v := trimSuffix [q] (trimPrefix [q] m)
          h.push fx (.str v) >>= fun h' =>
          if key = ascii "DATE" && !N.validTime v then .ok (h', false) else argLoop N rec key fx ms n (i + 1) h'
        | none =>
          if isNum m then h.push fx (.str m) >>= fun h' => argLoop N rec key fx ms n (i + 1) h'
          else match checkField ms i with
            | none => .ok (h, false)
            | some (j, ts) => h.push fx (.fld ts) >>= fun h' => argLoop N rec key fx ms n (j + 1) h'

/-- `resolveRecursiveFuncs`, lines 1692-1731; the first argument bounds the depth. -/
def resolve {E : Ext} (N : Env E) : Nat → Helper → Str → Str → Res (Helper × Bool)
  | 0, _, _, _ => .stuck
  | n + 1, h, t, key =>
    h.push h.lvl (.str key) >>= fun h' =>
    match subMatches key t with
    | none => .ok (h', true)
    | some ms => argLoop N (resolve N n) key h.lvl ms ms.length 1 h'

/-! ### State, lines 126-169, 263-301 -/

/-- constants.go:108-115 without `invalidMode`. -/
inductive Mode where
  | field | op | value | chain
  deriving DecidableEq

/-- constants.go:142-150. -/
inductive OpCtx where
  | no | chain | compare | like | noField
  deriving DecidableEq

/-- `ParseTokenType`, lines 338-350, without `TokenTypeInvalid`. -/
inductive TT where
  | field | func | op | value | regex | pcre | paren | endParen | tru | fals
  deriving DecidableEq

/-- The errors that are compared with, and any other. -/
inductive Err where
  | noMore | oneNew | new | layerDone | other
  deriving DecidableEq

/-- A node of `parserDataNodes` and `parserTree.data`. -/
structure Node where
  ty : TT
  tok : Str
  parent : Int
  left : Int
  right : Int
  path : Option (List Str)
  fn : Option Helper

structure Sub where
  mode : Mode
  lastSub : Int
  opCtx : OpCtx
  isBool : Bool
  lastField : Int
  lastOp : Int
  lastValue : Int
  helper : Option Helper
  oneLayer : Bool

/-- `NewParserSubContext`, `NewParserSubContextOneLayer`, lines 176-191. -/
def newSub (oneLayer : Bool) : Sub := ⟨.field, -1, .no, false, -1, -1, -1, none, oneLayer⟩

/-- `isUnused`, lines 171-174. -/
def Sub.unused (s : Sub) : Bool := s.lastField = -1 && s.lastOp = -1 && s.lastValue = -1 && s.lastSub = -1 && s.mode = .field

structure Ctx where
  tokens : List Str
  idx : Nat
  posOnly : Bool
  fieldTokens : List Str
  depth : Nat
  sub : Sub
  short : Bool
  tree : List Node
  head : Int

/-! ### Reading tokens, lines 518-835 -/

/-- `advanceToken`, lines 518-564. -/
def advance (c : Ctx) : Ctx × Option Err :=
  if c.posOnly then ({ c with idx := c.idx + 1, posOnly := false }, none) else
  let s := { c.sub with helper := none }
  match s.mode with
  | .field => ({ c with idx := c.idx + 1, sub := { s with mode := .op } }, none)
  | .op => match s.opCtx with
    | .noField => ({ c with idx := c.idx + 1, sub := { s with mode := .chain } }, none)
    | .chain => ({ c with idx := c.idx + 1, sub := { s with mode := .field, isBool := false } }, none)
    | _ => ({ c with idx := c.idx + 1, sub := { s with mode := .value } }, none)
  | .value =>
    if s.oneLayer then ({ c with sub := s }, some .layerDone)
    else ({ c with idx := c.idx + 1, sub := { s with mode := .chain, opCtx := .no } }, none)
  | .chain => ({ c with idx := c.idx + 1, sub := { s with mode := .field, isBool := false } }, none)

/-- The current token replaced by several, as the code does with `append` and `copy`. -/
def Ctx.replace (c : Ctx) (ts : List Str) : Ctx := { c with tokens := c.tokens.take c.idx ++ ts ++ c.tokens.drop (c.idx + 1) }

/-- `handleParenPrefix`, lines 566-573, for the token `t`. -/
def parenPrefix (c : Ctx) (t : Str) (p : Nat) : Ctx := c.replace [[p], trimPrefix [p] t]

/-- `handleParenSuffix`, lines 575-584: all parentheses at the end of `t` become tokens. -/
def parenSuffix (c : Ctx) (t : Str) (p : Nat) : Ctx :=
  c.replace ((t.reverse.dropWhile (· = p)).reverse :: (t.reverse.takeWhile (· = p)).map fun x => [x])

/-- `handleCloseParenBookKeeping`, lines 586-597. -/
def closeParen (c : Ctx) : Ctx × Option Err :=
  if c.depth = 0 then (c, some .other) else
  let c := { c with depth := c.depth - 1 }
  if c.sub.lastOp = -1 && !c.sub.isBool && c.sub.mode ≠ .field then (c, some .other) else (c, none)

/-- `handleOpenParenBookKeeping`, lines 599-604. -/
def openParen (c : Ctx) : Ctx := (advance { c with depth := c.depth + 1, posOnly := true }).1

/-- `checkAndMarkDetailedOpToken`, lines 607-618. -/
def mark (c : Ctx) (t : Str) : Ctx :=
  if isChainTok t && c.sub.lastSub ≠ -1 then { c with sub := { c.sub with opCtx := .chain } }
  else if isCompareTok t then { c with sub := { c.sub with opCtx := .compare } }
  else if isLikeTok t then { c with sub := { c.sub with opCtx := .like } }
  else if isOnlyTok t then { c with sub := { c.sub with opCtx := .noField } }
  else c

/-- The operators of several words, lines 419-422. -/
def multiWords : List (List Str × Str) :=
  [([ascii "NOT", ascii "LIKE"], kNotLike), ([ascii "IS", ascii "NULL"], kIsNull), ([ascii "IS", ascii "NOT", ascii "NULL"], kIsNotNull),
   ([ascii "IS", ascii "MISSING"], kIsMissing)]

/-- `handleMultiTokens`, lines 645-677: the word list that the tokens start with. -/
def multi (c : Ctx) : Ctx × Except Err (Str × TT) :=
  match multiWords.find? fun p => p.1.isPrefixOf (c.tokens.drop c.idx) with
  | some p => (mark { c with idx := c.idx + (p.1.length - 1) } p.2, .ok (p.2, .op))
  | none => (c, .error .other)

/-- `getTokenValueSubtype`, lines 704-710. -/
def valueTT (c : Ctx) : TT := if c.sub.opCtx = .like then .regex else .value

/-- `getValueTokenHelper`, lines 712-730, for the token `t`. -/
def valueTok {E : Ext} (N : Env E) (c : Ctx) (t : Str) (q : Nat) : Except Err (Str × TT) :=
  let t := trimSuffix [q] (trimPrefix [q] t)
  if valueTT c ≠ .value && !N.compiles t then (if isPcre t then .ok (t, .pcre) else .error .other) else .ok (t, valueTT c)

/-- Lines 791-795: within parentheses, the closing ones at the end of the token `t` are split off. -/
def stripParen (c : Ctx) (t : Str) : Ctx × Str :=
  if c.depth > 0 && hasSuffix [41] t then (parenSuffix c t 41, (t.reverse.dropWhile (· = 41)).reverse) else (c, t)

/-- The loop of `getUnfinishedValueHelper`, lines 788-805: `acc` is the text so far; `none` when there are no more tokens.  The first
argument bounds the rounds. -/
def quoteLoop (q : Nat) : Nat → Ctx → Str → Res (Ctx × Option Str)
  | 0, _, _ => .stuck
  | n + 1, c, acc =>
    match c.tokens[c.idx]? with
    | none => .ok (c, none)
    | some t =>
      if hasSuffix [q] (stripParen c t).2 then .ok ((stripParen c t).1, some (acc ++ 32 :: trimSuffix [q] (stripParen c t).2))
      else quoteLoop q n { (stripParen c t).1 with idx := c.idx + 1 } (acc ++ 32 :: (stripParen c t).2)

/-- `getUnfinishedValueHelper`, lines 785-812, for the token `t`. -/
def unfinishedTok (n : Nat) (c : Ctx) (t : Str) (q : Nat) : Res (Ctx × Except Err (Str × TT)) :=
  quoteLoop q n { c with idx := c.idx + 1 } (trimPrefix [q] t) >>= fun r =>
  match r.2 with
  | some s => .ok (r.1, .ok (s, valueTT r.1))
  | none => .ok (r.1, .error .other)

/-- `getFuncFieldTokenHelper`, lines 825-834. -/
def funcTok {E : Ext} (N : Env E) (c : Ctx) (t key : Str) : Res (Ctx × Except Err (Str × TT)) :=
  if c.sub.mode = .field || c.sub.mode = .value then
    resolve N (t.length + 1) ⟨[[]], 0⟩ t key >>= fun r =>
    let c := { c with sub := { c.sub with helper := some { r.1 with lvl := 0 } } }
    if r.2 then .ok (c, .ok (t, .func)) else .ok (c, .error .other)
  else .ok (c, .error .other)

/-- `getTokenFieldTokenHelper`, lines 837-856. -/
def fieldTok (c : Ctx) (t : Str) : Ctx × Except Err (Str × TT) :=
  if hasPrefix [46] t || hasSuffix [46] t then (c, .error .other) else
  match checkField c.tokens c.idx with
  | none => (c, .error .other)
  | some (i, ts) => ({ c with idx := i, fieldTokens := ts }, .ok ([], .field))

/-- What `getCurrentToken` does with a token: return, look again after the token was split, or read on to the end of a quoted value. -/
inductive Next where
  | done (r : Res (Ctx × Except Err (Str × TT)))
  | again (c : Ctx)
  | words (q : Nat)

/-- Lines 692-698. -/
def endParen (r : Ctx × Option Err) : Next := .done (.ok (r.1, match r.2 with | some e => .error e | none => .ok ([41], .endParen)))

/-- `getCurrentTokenParenHelper`, lines 679-702. -/
def lookParen (c : Ctx) (t : Str) : Next :=
  if t ≠ [40] && hasPrefix [40] t then .again (parenPrefix c t 40)
  else if t ≠ [40] && hasSuffix [40] t then .again (parenSuffix c t 40)
  else if t ≠ [41] && hasSuffix [41] t then .again (parenSuffix c t 41)
  else if t ≠ [41] && hasPrefix [41] t then endParen (closeParen (parenPrefix c t 41))
  else if t = [41] then endParen (closeParen c)
  else if t = [40] then .done (.ok (openParen c, .ok ([40], .paren)))
  else match seek t with
    | some d => .again (c.replace (splitFirst t d))
    | none => .done (.ok (c, .error .other))

/-- `getCurrentToken` on the current token `t`, lines 750-773. -/
def look {E : Ext} (N : Env E) (c : Ctx) (t : Str) : Next :=
  if t = ascii "NOT" || t = ascii "IS" then .done (.ok (multi c))
  else if isOpTok t then .done (.ok (mark c (canon t), .ok (canon t, .op)))
  else match (if c.sub.mode = .value then quoteOf t else none) with
  | some q => .done (.ok (c, valueTok N c t q))
  | none =>
  if isNum t then .done (.ok (c, .ok (t, valueTT c)))
  else if t = ascii "true" then .done (.ok ({ c with sub := { c.sub with isBool := true } }, .ok (t, .tru)))
  else if t = ascii "false" then .done (.ok ({ c with sub := { c.sub with isBool := true } }, .ok (t, .fals)))
  else match funcKey t with
  | some key => .done (funcTok N c t key)
  | none =>
  if t.contains 40 || t.contains 41 then lookParen c t
  else match (if c.sub.mode = .value then unfinished t else none) with
  | some q => .words q
  | none =>
  match seek t with
  | some d => .again (c.replace (splitFirst t d))
  | none => .done (.ok (fieldTok c t))

/-- `getCurrentToken`, lines 745-774, with `getAndSeparateToken`, lines 1234-1250.  The first argument bounds how often the token is
split and the rounds of `getUnfinishedValueHelper`. -/
def getTok {E : Ext} (N : Env E) : Nat → Ctx → Res (Ctx × Except Err (Str × TT))
  | 0, _ => .stuck
  | n + 1, c =>
    match c.tokens[c.idx]? with
    | none => .ok (c, .error .noMore)
    | some t => match look N c t with
      | .done r => r
      | .again c' => getTok N n c'
      | .words q => unfinishedTok n c t q

/-! ### Building the tree, lines 983-1227 -/

def TT.isBool (t : TT) : Bool := t = .tru || t = .fals
def TT.isField (t : TT) : Bool := t = .field || t = .func
def TT.isValue (t : TT) : Bool := t = .value || t = .regex || t = .func || t = .pcre

/-- The part of `checkTokenTypeWithinContext` for `valueMode`, lines 1023-1032. -/
def checkValue (c : Ctx) (ty : TT) : Option Err :=
  if ty.isField && c.sub.opCtx = .chain then some (if c.short then .new else .oneNew)
  else if ty.isBool then (if c.sub.opCtx = .compare || c.sub.opCtx = .like then some .other else none)
  else if !ty.isValue && !ty.isField then some .other
  else none

/-- `checkTokenTypeWithinContext`, lines 998-1037. -/
def check (c : Ctx) (ty : TT) : Ctx × Option Err :=
  match c.sub.mode with
  | .op | .chain =>
    if ty = .endParen then ({ c with posOnly := true }, some .layerDone)
    else if ty ≠ .op then (c, some .other)
    else if c.sub.mode ≠ .op && c.sub.opCtx ≠ .chain then (c, some .other)
    else (c, none)
  | .field =>
    if ty = .paren then (c, some .new)
    else if !ty.isField && !ty.isBool then (c, some .other)
    else (c, checkValue c ty)
  | .value => (c, checkValue c ty)

/-- `&data[i]` for a Go index. -/
def modifyAt (l : List Node) (i : Int) (f : Node → Node) : Res (List Node) :=
  match i with
  | .ofNat n => match l[n]? with
    | some a => .ok (l.set n (f a))
    | none => .panic
  | .negSucc _ => .panic

/-- `insertNode`, lines 1039-1100. -/
def insert (c : Ctx) (tok : Str) (ty : TT) : Res Ctx :=
  let i : Int := c.tree.length
  let node : Node := ⟨ty, tok, -1, -1, -1, none, none⟩
  match c.sub.mode with
  | .field =>
    .ok { c with tree := c.tree ++ [{ node with path := some c.fieldTokens, fn := c.sub.helper }], sub := { c.sub with lastField := i, lastSub := i } }
  | .chain | .op =>
    modifyAt (c.tree ++ [{ node with left := c.sub.lastSub }]) c.sub.lastSub (fun n => { n with parent := i }) >>= fun tree =>
    .ok { c with tree := tree, head := if c.head = -1 then i else c.head, sub := { c.sub with lastOp := i, lastSub := i } }
  | .value =>
    modifyAt (c.tree ++ [{ node with parent := c.sub.lastOp, fn := c.sub.helper }]) c.sub.lastOp (fun n => { n with right := i }) >>= fun tree =>
    .ok { c with tree := tree, sub := { c.sub with lastValue := i, lastSub := c.sub.lastOp } }

/-- `data[i]` for a Go index. -/
def nodeAt (l : List Node) (i : Int) : Res Node :=
  match i with
  | .ofNat n => Res.idx l n
  | .negSucc _ => .panic

/-- `mergeAndRestoreSubContexts`, lines 1103-1146. -/
def merge (c : Ctx) (old : Sub) : Res (Ctx × Option Err) :=
  if old.unused then .ok (c, none)
  else if !c.sub.oneLayer && old.isBool then .ok (c, none)
  else if old.lastOp ≥ c.tree.length then .ok (c, some .other)
  else if c.sub.lastOp ≥ c.tree.length then .ok (c, some .other)
  else
    nodeAt c.tree old.lastOp >>= fun o =>
    nodeAt c.tree c.sub.lastOp >>= fun _ =>
    if o.right ≠ -1 then .ok (c, some .other) else
    modifyAt c.tree old.lastOp (fun n => { n with right := c.sub.lastOp }) >>= fun tree =>
    nodeAt tree c.sub.lastOp >>= fun w =>
    if w.parent ≠ -1 then .ok ({ c with tree := tree }, some .other) else
    modifyAt tree c.sub.lastOp (fun n => { n with parent := old.lastOp }) >>= fun tree =>
    nodeAt tree old.lastOp >>= fun o =>
    .ok ({ c with tree := tree, head := if o.parent = -1 then old.lastOp else c.head, sub := old }, none)

/-- The end of `parse`, lines 1219-1226. -/
def finish (c : Ctx) (e : Err) : Ctx × Option Err :=
  if e = .noMore then (if c.depth > 0 then (c, some .other) else (c, none)) else (c, some e)

/-- The loop of `parse` after `advanceToken`, lines 1172-1175. -/
def resume (rec : Ctx → Res (Ctx × Option Err)) (x : Ctx × Option Err) : Res (Ctx × Option Err) :=
  match x.2 with
  | none => rec x.1
  | some e => .ok (finish x.1 e)

/-- Lines 1209-1212. -/
def back (rec : Ctx → Res (Ctx × Option Err)) (c : Ctx) (old : Sub) : Res (Ctx × Option Err) :=
  merge c old >>= fun m => match m.2 with
    | some e => .ok (finish m.1 e)
    | none => resume rec (advance m.1)

/-- `parse`, lines 1167-1227; the first argument bounds the rounds, the depth and the loops of `getCurrentToken`. -/
def parse {E : Ext} (N : Env E) : Nat → Ctx → Res (Ctx × Option Err)
  | 0, _ => .stuck
  | n + 1, c =>
    getTok N n c >>= fun r =>
    match r.2 with
    | .error e => .ok (finish r.1 e)
    | .ok (tok, ty) =>
      match (check r.1 ty).2 with
      | none => insert (check r.1 ty).1 tok ty >>= fun c => resume (parse N n) (advance c)
      | some e =>
        if e = .new || e = .oneNew then
          parse N n { (check r.1 ty).1 with sub := newSub (e = .oneNew) } >>= fun r' =>
          match r'.2 with
          | some e' => if e' = .layerDone then back (parse N n) r'.1 (check r.1 ty).1.sub else .ok (finish r'.1 e')
          | none => back (parse N n) r'.1 (check r.1 ty).1.sub
        else .ok (finish (check r.1 ty).1 e)

/-- `enableShortCircuitEvalIfPossible`, lines 1149-1164: the symbols `||` and `&&` among the tokens are all the same, and there is
one. -/
def shortOk (ts : List Str) : Bool :=
  match ts.filter fun t => t = kOr || t = kAnd with
  | [] => false
  | t :: r => r.all (· = t)

/-! ### Output, lines 1252-1686 -/

variable {E : Ext}

/-- The value of an integer, if it fits (`strconv.ParseInt`). -/
def intOf (t : Str) : Option (BitVec 64) :=
  let v : Nat := (unsigned t).foldl (fun a c => 10 * a + (c - 48)) 0
  if t.head? = some 45 then (if v ≤ 2 ^ 63 then some (-(BitVec.ofNat 64 v)) else none)
  else if v < 2 ^ 63 then some (BitVec.ofNat 64 v) else none

/-- `outputValueInternal` of a string, lines 1327-1339. -/
def outValue (N : Env E) (t : Str) : Option (Expr E) :=
  if isNum t then
    if isInt t then (intOf t).map fun v => .value (.int v) else (N.parseFloat t).map fun x => .value (.json (.num x))
  else some (.value (.json (.str t)))

/-- `funcIsConstantType`, lines 92-100. -/
def constFn (N : Env E) (name : Str) : Option E.F :=
  if name = ascii "mathPi" then some N.pi else if name = ascii "mathE" then some N.e else none

/-- The parameters of a call, lines 1389-1411; `rec` is `outputFunc`. -/
def outArgs (N : Env E) (rec : Nat → Res (Option (Expr E))) : List Arg → Res (Option (Exprs E))
  | [] => .ok (some .nil)
  | .lvl i :: r => andThen (rec i) fun e => match e with
    | .func n ps => andThen (outArgs N rec r) fun es => .ok (some (.cons (.func n ps) es))
    | _ => .panic
  | .fld ts :: r => andThen (outArgs N rec r) fun es => .ok (some (.cons (.field ⟨0, ts⟩) es))
  | .str s :: r => match outValue N s with
    | none => .ok none
    | some e => andThen (outArgs N rec r) fun es => .ok (some (.cons e es))

/-- `outputFunc`, lines 1364-1414, with the level as an argument; the first argument bounds the depth. -/
def outFunc (N : Env E) (h : Helper) : Nat → Nat → Res (Option (Expr E))
  | 0, _ => .stuck
  | n + 1, l =>
    match h.args[l]? with
    | some (.str name :: as) =>
      match (if as = [] then constFn N (outName name) else none) with
      | some x => .ok (some (.value (.json (.num x))))
      | none => andThen (outArgs N (outFunc N h n) as) fun ps => .ok (some (.func (outName name) ps))
    | _ => .ok none

/-- `getLeftOutputNode`, lines 1260-1271: `none` is the empty node. -/
def leftOf (tree : List Node) (pos : Nat) : Res (Option Nat) :=
  match tree[pos]? with
  | none => .ok none
  | some n => match n.left with
    | .ofNat l => if l < tree.length then .ok (some l) else .ok none
    | .negSucc _ => .panic

/-- `getRightOutputNode`, lines 1273-1289. -/
def rightOf (tree : List Node) (pos : Nat) : Option Nat :=
  match tree[pos]? with
  | none => none
  | some n => match n.left, n.right with
    | .ofNat l, .ofNat r => if l < tree.length && r < tree.length then some r else none
    | _, _ => none

/-- The operator of a node, lines 1422-1453. -/
inductive OpK where
  | cmp (c : Cmp) | notLike | and | or | exists | missing | null | notNull
  deriving DecidableEq

def opOf (t : Str) : Option OpK :=
  if t = kEq then some (.cmp .eq) else if t = kNe then some (.cmp .ne) else if t = kOr then some .or else if t = kAnd then some .and
  else if t = kLt then some (.cmp .lt) else if t = kLe then some (.cmp .le) else if t = kGt then some (.cmp .gt)
  else if t = kGe then some (.cmp .ge) else if t = kLike then some (.cmp .like) else if t = kNotLike then some .notLike
  else if t = kExists then some .exists else if t = kIsMissing then some .missing else if t = kIsNull then some .null
  else if t = kIsNotNull then some .notNull else none

/-- `outputOp` and the functions it calls, lines 1416-1669; `rec` is `outputNode` of a position. -/
def outOp (tree : List Node) (rec : Nat → Res (Option (Expr E))) (k : OpK) (pos : Nat) : Res (Option (Expr E)) :=
  let two (f : Expr E → Expr E → Expr E) : Res (Option (Expr E)) :=
    leftOf tree pos >>= fun l =>
    match l, rightOf tree pos with
    | some l, some r => andThen (rec l) fun a => andThen (rec r) fun b => .ok (some (f a b))
    | _, _ => .ok none
  let one (f : Expr E → Expr E) : Res (Option (Expr E)) :=
    leftOf tree pos >>= fun l => match l with
    | some l => andThen (rec l) fun a => .ok (some (f a))
    | none => .ok none
  /- `outputAnd`, `outputOr` output the left node before they look whether there is a right one. -/
  let chain (f : Expr E → Expr E → Expr E) : Res (Option (Expr E)) :=
    leftOf tree pos >>= fun l => match l with
    | some l => andThen (rec l) fun a => match rightOf tree pos with
      | some r => andThen (rec r) fun b => .ok (some (f a b))
      | none => .ok none
    | none => .ok none
  match k with
  | .cmp c => two fun a b => .cmp c a b
  | .notLike => two fun a b => .not (.cmp .like a b)
  | .and => chain fun a b => .and (.cons a (.cons b .nil))
  | .or => chain fun a b => .or (.cons a (.cons b .nil))
  | .exists => one .exist
  | .missing => one .notExist
  | .null => one fun a => .cmp .eq a (.value (.json .null))
  | .notNull => one fun a => .cmp .ne a (.value (.json .null))

/-- `outputNode`, lines 1292-1317; the first argument bounds the depth. -/
def outNode (N : Env E) (tree : List Node) : Nat → Nat → Res (Option (Expr E))
  | 0, _ => .stuck
  | n + 1, pos =>
    match tree[pos]? with
    | none => .ok none
    | some node => match node.ty with
      | .op => match opOf node.tok with
        | some k => outOp tree (outNode N tree n) k pos
        | none => .ok none
      | .field => match node.path with
        | some p => .ok (some (.field ⟨0, p⟩))
        | none => .ok none
      | .tru => .ok (some (.value (.json (.bool true))))
      | .fals => .ok (some (.value (.json (.bool false))))
      | .value => .ok (outValue N node.tok)
      | .regex => .ok (some (.regex (.json (.str node.tok))))
      | .pcre => .ok (some (.pcre (.json (.str node.tok))))
      | .func => match node.fn with
        | some h => outFunc N h (h.args.length + 1) 0
        | none => .ok none
      | .paren | .endParen => .ok none

/-- `outputExpression`, lines 1672-1686. -/
def outExpr (N : Env E) (c : Ctx) : Res (Option (Expr E)) :=
  match c.head with
  | .negSucc _ => .ok none
  | .ofNat h => match c.tree[h]? with
    | none => .ok none
    | some node => if node.ty = .op then outNode N c.tree (c.tree.length + 1) h else .ok none

/-- `NewExpressionParserCtx` and `enableShortCircuitEvalIfPossible`, lines 311-336, 1149-1164. -/
def newCtx (ts : List Str) : Ctx := ⟨ts, 0, false, [], 0, newSub false, shortOk ts, [], -1⟩

/-- `ParseSimpleExpression` from the tokens on, lines 1740-1750.  The loops of the parser are bounded by `n`, see `ParsesTo`. -/
def parseTokens (N : Env E) (n : Nat) (ts : List Str) : Res (Option (Expr E)) :=
  parse N n (newCtx ts) >>= fun r =>
  match r.2 with
  | some _ => .ok none
  | none => outExpr N r.1

/-- `ParseSimpleExpression`, lines 1740-1750. -/
def parseSimple (N : Env E) (n : Nat) (text : Str) : Res (Option (Expr E)) := parseTokens N n (fieldsFrom [] text)

/-- `ParseSimpleExpression` on `text` ends, with the expression (or the error `none`) or the panic `r`. -/
def ParsesTo (N : Env E) (text : Str) (r : Res (Option (Expr E))) : Prop := r ≠ .stuck ∧ ∃ n, parseSimple N n text = r

/-- `ParseSimpleExpression` on `text` does not end. -/
def Hangs (N : Env E) (text : Str) : Prop := ∀ n, parseSimple N n text = .stuck

end Verif.Simple
