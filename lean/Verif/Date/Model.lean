import Verif.Date.Regex
import Verif.Expr.Model

/-!
# Model of `fastval_date.go`

`rfc` is `time.Parse(time.RFC3339, _)`, with `none` for an error.
-/

namespace Verif.Date
open Verif.Expr (ascii)

def digit (c : Nat) : Bool := 48 ≤ c && c ≤ 57
def chr (c : Nat) : RE := .one fun x => x = c
/-- `[a-b]` -/
def rng (a b : Nat) : RE := .one fun x => a ≤ x && x ≤ b
/-- `\d`, `[0-9]` -/
def dig : RE := rng 48 57
/-- `[- /.]` -/
def sep : RE := .one fun x => x = 45 || x = 32 || x = 47 || x = 46

/-- `(19|20)\d\d` -/
def pYear : RE := .cat (.alt (.cat (chr 49) (chr 57)) (.cat (chr 50) (chr 48))) (.cat dig dig)
/-- `(0[1-9]|1[012])` -/
def pMonth : RE := .alt (.cat (chr 48) (rng 49 57)) (.cat (chr 49) (rng 48 50))
/-- `(0[1-9]|[12][0-9]|3[01])` -/
def pDay : RE := .alt (.cat (chr 48) (rng 49 57)) (.alt (.cat (rng 49 50) dig) (.cat (chr 51) (rng 48 49)))
/-- `([0-1][0-9]|[2][0-3])` -/
def pHour : RE := .alt (.cat (rng 48 49) dig) (.cat (chr 50) (rng 48 51))
/-- `[0-5][0-9]` -/
def pSixty : RE := .cat (rng 48 53) dig
def pTime : RE := .cat pHour (.cat (chr 58) (.cat pSixty (.cat (chr 58) pSixty)))

/-- `iso8601Year`, line 9. -/
def isoYear : RE := pYear
/-- `iso8601YearAndMonth`, line 10. -/
def isoMonth : RE := .cat pYear (.cat sep pMonth)
/-- `iso8601CompleteDate`, line 11. -/
def isoDay : RE := .cat pYear (.cat sep (.cat pMonth (.cat sep pDay)))
/-- `cbSampleDateFormat`, line 17. -/
def sample : RE := .cat isoDay (.cat (.cat (chr 32) (.star (chr 32))) pTime)

variable {T : Type}

/-- `validTimeChecker`, lines 19-22. -/
def validTime (rfc : Str → Option T) (s : Str) : Bool := (rfc s).isSome || isoYear.test s || isoMonth.test s || isoDay.test s

/-- `isoToRfc`, lines 24-33. -/
def isoToRfc (s : Str) : Str :=
  if isoYear.test s then s ++ ascii "-01-01T00:00:00Z"
  else if isoMonth.test s then s ++ ascii "-01T00:00:00Z"
  else if isoDay.test s then s ++ ascii "T00:00:00Z"
  else s

/-- `FastValDateFunc` of the bytes of a string, lines 40-71.  The groups 1 and 5 of `cbSampleDateFormat` have the fixed lengths 10 and 8
and stand at the start and at the end; there are always 7 groups. -/
def dateBin (rfc : Str → Option T) (s : Str) : Option T :=
  rfc (if isoYear.test s then s ++ ascii "-01-01T00:00:00Z"
    else if isoMonth.test s then s ++ ascii "-01T00:00:00Z"
    else if isoDay.test s then s ++ ascii "T00:00:00Z"
    else if sample.test s then s.take 10 ++ 84 :: s.drop (s.length - 8) ++ [90]
    else s)

/-- `GetNewTimeFastVal`, lines 83-90, and `FastValDateFunc` of a Go string, lines 72-78. -/
def getNewTime (rfc : Str → Option T) (s : Str) : Option T := rfc (isoToRfc s)

end Verif.Date
