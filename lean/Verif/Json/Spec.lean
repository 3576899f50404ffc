import Verif.Json.Model

/-!
# The JSON format of expressions, as a relation

`Enc S L vt e d` says that the array `d` denotes the expression `e`.  `S` says which surplus elements may follow the parts
an expression needs, and `L` whether the name of a function may be left out; `vt` is the check of time strings.  The format
proper is `Strict`: no surplus, no missing names.
-/

namespace Verif.Json
open Verif.FastVal Verif.Match Verif.Expr

variable {E : Ext}

/-- A tag as a JSON string. -/
def tg (s : String) : J E := .str (ascii s)

def strs : List (List Nat) → Js E
  | [] => .nil
  | s :: ss => .cons (.str s) (strs ss)

def modeTag : Mode → String
  | .any => "anyin"
  | .every => "everyin"
  | .anyEvery => "anyeveryin"

def cmpTag : Cmp → String
  | .eq => "equals"
  | .ne => "notequals"
  | .lt => "lessthan"
  | .le => "lessequals"
  | .gt => "greaterthan"
  | .ge => "greaterequals"
  | .like => "like"

mutual
  inductive Enc (S : Js E → Prop) (L : Prop) (vt : List Nat → Bool) : Expr E → Js E → Prop
    | value (v : J E) (r : Js E) : S r → Enc S L vt (.value (.json v)) (.cons (tg "value") (.cons v r))
    | regex (v : J E) (r : Js E) : S r → Enc S L vt (.regex (.json v)) (.cons (tg "regex") (.cons v r))
    | time (v : J E) (r : Js E) : S r → (∀ s, v = .str s → vt s = true) →
        Enc S L vt (.time (.json v)) (.cons (tg "time") (.cons v r))
    | docField (k : List Nat) (path : List (List Nat)) : Enc S L vt (.field ⟨0, k :: path⟩) (.cons (tg "field") (strs (k :: path)))
    | field (f : E.F) (path : List (List Nat)) :
        Enc S L vt (.field ⟨(E.toInt f).toInt, path⟩) (.cons (tg "field") (.cons (.num f) (strs path)))
    | func (name : List Nat) (es : Exprs E) (ds : Js E) : EncL S L vt es ds →
        Enc S L vt (.func name es) (.cons (tg "func") (.cons (.str name) ds))
    | anon (e : Expr E) (es : Exprs E) (d ds : Js E) : L → Enc S L vt e d → EncL S L vt es ds →
        Enc S L vt (.func [] (.cons e es)) (.cons (tg "func") (.cons (.arr d) ds))
    | not (e : Expr E) (d r : Js E) : S r → Enc S L vt e d → Enc S L vt (.not e) (.cons (tg "not") (.cons (.arr d) r))
    | exist (e : Expr E) (d r : Js E) : S r → Enc S L vt e d →
        Enc S L vt (.exist e) (.cons (tg "exists") (.cons (.arr d) r))
    | notExist (e : Expr E) (d r : Js E) : S r → Enc S L vt e d →
        Enc S L vt (.notExist e) (.cons (tg "notexists") (.cons (.arr d) r))
    | or (es : Exprs E) (ds : Js E) : EncL S L vt es ds → Enc S L vt (.or es) (.cons (tg "or") ds)
    | and (es : Exprs E) (ds : Js E) : EncL S L vt es ds → Enc S L vt (.and es) (.cons (tg "and") ds)
    | cmp (c : Cmp) (l r : Expr E) (dl dr s : Js E) : S s → Enc S L vt l dl → Enc S L vt r dr →
        Enc S L vt (.cmp c l r) (.cons (tg (cmpTag c)) (.cons (.arr dl) (.cons (.arr dr) s)))
    | loop (m : Mode) (f : E.F) (i b : Expr E) (di db s : Js E) : S s → Enc S L vt i di → Enc S L vt b db →
        Enc S L vt (.loop m (E.toInt f).toInt i b)
          (.cons (tg (modeTag m)) (.cons (.num f) (.cons (.arr di) (.cons (.arr db) s))))

  inductive EncL (S : Js E → Prop) (L : Prop) (vt : List Nat → Bool) : Exprs E → Js E → Prop
    | nil : EncL S L vt .nil .nil
    | cons (e : Expr E) (es : Exprs E) (d ds : Js E) : Enc S L vt e d → EncL S L vt es ds →
        EncL S L vt (.cons e es) (.cons (.arr d) ds)
end

/-- The format proper. -/
def Strict (vt : List Nat → Bool) (e : Expr E) (d : Js E) : Prop := Enc (· = .nil) False vt e d

/-- What the code accepts. -/
def Lenient (vt : List Nat → Bool) (e : Expr E) (d : Js E) : Prop := Enc (fun _ => True) True vt e d

/-- The expressions the format can express: constants are JSON values, times are valid, the identifiers of variables
survive the detour over a float, and a document field with an empty path is written with its root. -/
def VarOk (E : Ext) (v : Int) : Prop := (E.toInt (E.ofInt (BitVec.ofInt 64 v))).toInt = v

mutual
  def Rep (vt : List Nat → Bool) : Expr E → Prop
    | .tru => False
    | .fals => False
    | .pcre _ => False
    | .value v => ∃ j, v = .json j
    | .regex v => ∃ j, v = .json j
    | .time v => ∃ j, v = .json j ∧ ∀ s, j = .str s → vt s = true
    | .field f => VarOk E f.root
    | .func _ ps => RepL vt ps
    | .not e => Rep vt e
    | .exist e => Rep vt e
    | .notExist e => Rep vt e
    | .and es => RepL vt es
    | .or es => RepL vt es
    | .cmp _ l r => Rep vt l ∧ Rep vt r
    | .loop _ v i b => VarOk E v ∧ Rep vt i ∧ Rep vt b

  def RepL (vt : List Nat → Bool) : Exprs E → Prop
    | .nil => True
    | .cons e r => Rep vt e ∧ RepL vt r
end

end Verif.Json
