import Verif.Model.RevsetParser

/-!
The tokens of git-branchless-revset/src/grammar.lalrpop: the texts which its two regular expressions match, and
how a text is cut into tokens (the rule of the lexers which LALRPOP generates: white space is skipped; the longest
match wins; a literal wins over a regular expression of the same length).
-/

namespace Verif.Spec

open Verif

/-- The class of characters in the first regular expression (called `N` below). -/
def NameChar (c : Char) : Prop :=
  c.isAlphanum = true ∨ c = '_' ∨ c = '$' ∨ c = '@' ∨ c = '/' ∨ c = '-'

/-- `(N|\.N)*`. -/
inductive NameStar : Text → Prop
  | nil : NameStar []
  | char {c t} : NameChar c → NameStar t → NameStar (c :: t)
  | dot {c t} : NameChar c → NameStar t → NameStar ('.' :: c :: t)

/-- `(N|\.N)+|\.`. -/
def NameText (t : Text) : Prop := (NameStar t ∧ t ≠ []) ∨ t = ['.']

/-- `([^q]|\\.)*` for a quote `q`. -/
inductive Quotable (q : Char) : Text → Prop
  | nil : Quotable q []
  | char {c t} : c ≠ q → Quotable q t → Quotable q (c :: t)
  | escape {c t} : c ≠ '\n' → Quotable q t → Quotable q ('\\' :: c :: t)

/-- `"([^"]|\\.)*"|'([^']|\\.)*'`. -/
def QuotedText (t : Text) : Prop :=
  ∃ q body, (q = '"' ∨ q = '\'') ∧ Quotable q body ∧ t = q :: (body ++ [q])

/-- The texts of a token. -/
def TokText : Tok → Text → Prop
  | .sym y, t => t = y.text
  | .ident x, t => t = x ∧ NameText x
  | .quoted x, t => t = x ∧ QuotedText x

/-- `n` is the length of the longest prefix of `s` with `P`. -/
def Longest (P : Text → Prop) (s : Text) (n : Nat) : Prop :=
  n ≤ s.length ∧ P (s.take n) ∧ ∀ m, m ≤ s.length → P (s.take m) → m ≤ n

/-- The first token of `s` is `x`, and its length is `n`. -/
def FirstTok (s : Text) (x : Tok) (n : Nat) : Prop :=
  TokText x (s.take n) ∧ Longest (fun t => ∃ x', TokText x' t) s n ∧
    ((∃ y : Sym, TokText (.sym y) (s.take n)) → ∃ y, x = .sym y)

/-- The tokens of a text. -/
inductive Lexes : Text → List Tok → Prop
  | nil : Lexes [] []
  | space {c s ts} : isBlank c = true → Lexes s ts → Lexes (c :: s) ts
  | tok {s x n ts} : FirstTok s x n → Lexes (s.drop n) ts → Lexes s (x :: ts)

/-- Names which can be written without quotes. -/
def PlainName (n : Text) : Prop := NameText n ∧ n ≠ t!"or" ∧ n ≠ t!"and" ∧ n ≠ t!"-"

/-- All names of an expression can be written without quotes. -/
inductive PlainExpr : Expr → Prop
  | name {n} : PlainName n → PlainExpr (.name n)
  | call {f args} : PlainName f → (∀ e ∈ args, PlainExpr e) → PlainExpr (.call f args)

/-- The characters of escapes. -/
def escaped (c : Char) : Char :=
  if c = 'n' then '\n' else if c = 'r' then '\r' else if c = 't' then '\t' else c

/-- The text between the quotes of a string literal means this string: every character means itself, except that
a backslash and the following character are an escape. -/
inductive Means : Text → Text → Prop
  | nil : Means [] []
  | char {c t v} : c ≠ '\\' → Means t v → Means (c :: t) (c :: v)
  | escape {c t v} : Means t v → Means ('\\' :: c :: t) (escaped c :: v)

end Verif.Spec
