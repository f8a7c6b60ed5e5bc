import Verif.Model.Text

/-!
The revset language: git-branchless-revset/src/ast.rs and grammar.lalrpop.
-/

namespace Verif

/-- ast.rs:8-11 `Expr`. -/
inductive Expr where
  | name (n : Text)
  | call (f : Text) (args : List Expr)

mutual
/-- Equality of expressions. -/
def Expr.decEq : (a b : Expr) → Decidable (a = b)
  | .name n, .name m =>
    if h : n = m then isTrue (h ▸ rfl) else isFalse fun e => h (Expr.name.inj e)
  | .name _, .call _ _ => isFalse (by simp)
  | .call _ _, .name _ => isFalse (by simp)
  | .call f as, .call g bs =>
    if h : f = g then
      match Expr.decEqs as bs with
      | isTrue h' => isTrue (h ▸ h' ▸ rfl)
      | isFalse h' => isFalse fun e => h' (Expr.call.inj e).2
    else isFalse fun e => h (Expr.call.inj e).1
/-- Equality of lists of expressions. -/
def Expr.decEqs : (a b : List Expr) → Decidable (a = b)
  | [], [] => isTrue rfl
  | [], _ :: _ => isFalse (by simp)
  | _ :: _, [] => isFalse (by simp)
  | a :: as, b :: bs =>
    match Expr.decEq a b, Expr.decEqs as bs with
    | isTrue h, isTrue h' => isTrue (h ▸ h' ▸ rfl)
    | isFalse h, _ => isFalse fun e => h (List.cons.inj e).1
    | _, isFalse h => isFalse fun e => h (List.cons.inj e).2
end

instance : DecidableEq Expr := Expr.decEq

mutual
/-- ast.rs:37-48 `replace_names`. -/
def Expr.replaceNames (map : AMap Text Expr) : Expr → Expr
  | .name n =>
    match AMap.get? map n with
    | some e => e
    | none => .name n
  | .call f args => .call f (Expr.replaceNamesList map args)
/-- The same for all arguments. -/
def Expr.replaceNamesList (map : AMap Text Expr) : List Expr → List Expr
  | [] => []
  | e :: es => e.replaceNames map :: Expr.replaceNamesList map es
end

mutual
/-- ast.rs:13-28: `Display`. -/
def Expr.display : Expr → Text
  | .name n => n
  | .call f args => f ++ '(' :: (Expr.displayArgs args ++ [')'])
/-- ast.rs:19-24: the arguments, separated by commas. -/
def Expr.displayArgs : List Expr → Text
  | [] => []
  | [e] => e.display
  | e :: e' :: es => e.display ++ ',' :: ' ' :: Expr.displayArgs (e' :: es)
end

/-! ### tokens -/

/-- The literal tokens of grammar.lalrpop. -/
inductive Sym where
  | pipe | plus | or | amp | and | minus | percent | colon | colons | dots | caret | tilde
  | lpar | rpar | comma
deriving DecidableEq

/-- The text of a literal token. -/
def Sym.text : Sym → Text
  | .pipe => t!"|"
  | .plus => t!"+"
  | .or => t!"or"
  | .amp => t!"&"
  | .and => t!"and"
  | .minus => t!"-"
  | .percent => t!"%"
  | .colon => t!":"
  | .colons => t!"::"
  | .dots => t!".."
  | .caret => t!"^"
  | .tilde => t!"~"
  | .lpar => t!"("
  | .rpar => t!")"
  | .comma => t!","

/-- All literal tokens. -/
def Sym.all : List Sym :=
  [.pipe, .plus, .or, .amp, .and, .minus, .percent, .colon, .colons, .dots, .caret, .tilde, .lpar, .rpar,
    .comma]

/-- Tokens: literals, and the two regular expressions of `Name` (grammar.lalrpop:64, 70) with the text
which matched. -/
inductive Tok where
  | sym (s : Sym)
  | ident (s : Text)
  | quoted (s : Text)
deriving DecidableEq

/-- grammar.lalrpop:64: the characters of names. -/
def isNameChar (c : Char) : Bool := c.isAlpha || c.isDigit || c = '_' || c = '$' || c = '@' || c = '/' || c = '-'

/-- The length of the longest prefix which matches the first alternative of grammar.lalrpop:64 (zero if
there is none). -/
def nameLen : Text → Nat
  | [] => 0
  | [c] => if isNameChar c then 1 else 0
  | c :: d :: cs =>
    if isNameChar c then nameLen (d :: cs) + 1
    else if c = '.' && isNameChar d then nameLen cs + 2
    else 0

/-- The length of the longest prefix which matches grammar.lalrpop:64. -/
def identLen (s : Text) : Option Nat :=
  if nameLen s ≠ 0 then some (nameLen s)
  else if s.head? = some '.' then some 1
  else none

/-- The length of the longest prefix which, after the opening quote `q`, matches grammar.lalrpop:70. `a` says
that the text so far may end here, `b` that it may end here with a backslash which begins an escape. -/
def quotedLenFrom (q : Char) : (a b : Bool) → Text → Option Nat
  | _, _, [] => none
  | a, b, c :: cs =>
    match quotedLenFrom q ((a && c ≠ q) || (b && c ≠ '\n')) (a && c = '\\') cs with
    | some n => some (n + 1)
    | none => if a && c = q then some 1 else none

/-- The length of the longest prefix which matches grammar.lalrpop:70. -/
def quotedLen : Text → Option Nat
  | [] => none
  | c :: cs => if c = '"' ∨ c = '\'' then (quotedLenFrom c true false cs).map (· + 1) else none

/-- The longer one of the best literal so far and another literal. -/
def betterSym (best : Option (Sym × Nat)) (y : Sym) : Option (Sym × Nat) :=
  match best with
  | some (_, n) => if n < y.text.length then some (y, y.text.length) else best
  | none => some (y, y.text.length)

/-- Literals which are a prefix, the longest one. -/
def symLen (s : Text) : Option (Sym × Nat) :=
  (Sym.all.filter fun y => y.text.isPrefixOf s).foldl betterSym none

/-- The longest prefix which matches one of the regular expressions (no text begins with matches of both). -/
def nameTok (s : Text) : Option (Tok × Nat) :=
  match quotedLen s with
  | some n => some (.quoted (s.take n), n)
  | none => (identLen s).map fun n => (.ident (s.take n), n)

/-- The next token: the longest match; if a literal and a name are equally long, the literal (as in the
lexers which LALRPOP generates). -/
def nextTok (s : Text) : Option (Tok × Nat) :=
  match symLen s, nameTok s with
  | some (y, n), some (t, m) => if n < m then some (t, m) else some (.sym y, n)
  | some (y, n), none => some (.sym y, n)
  | none, r => r

/-- White space is skipped. (Only ASCII white space is modelled.) -/
def isBlank (c : Char) : Bool := c = ' ' || c = '\t' || c = '\n' || c = '\r' || c = '\x0b' || c = '\x0c'

/-- All tokens of a text; the fuel bounds their number. `none`: at some point no token matches. -/
def lexFuel : Nat → Text → Option (List Tok)
  | 0, _ => none
  | fuel + 1, s =>
    let s := s.dropWhile isBlank
    if s = [] then some []
    else
      match nextTok s with
      | none => none
      | some (t, n) => (lexFuel fuel (s.drop n)).map (t :: ·)

/-- All tokens of a text. -/
def lex (s : Text) : Option (List Tok) := lexFuel (s.length + 1) s

/-- grammar.lalrpop:75-86: one round of the loop over the characters of a string literal. The state is the
result so far and `last_char_was_backslash`. -/
def unquoteStep (s : Text × Bool) (c : Char) : Text × Bool :=
  if s.2 then
    (s.1 ++ [if c = 'n' then '\n' else if c = 'r' then '\r' else if c = 't' then '\t' else c], s.2)
  else if c = '\\' then (s.1, true)
  else (s.1 ++ [c], s.2)

/-- grammar.lalrpop:70-92: the value of a string literal. -/
def unquote (s : Text) : Text := ((s.drop 1).foldl unquoteStep ([], false)).1.dropLast

/-- grammar.lalrpop:62-93 `Name`. -/
def Tok.nameOf : Tok → Option Text
  | .sym _ => none
  | .ident s => some s
  | .quoted s => some (unquote s)

/-! ### the parser -/

/-- Tokens with which `Expr4` can begin. -/
def startsOperand : List Tok → Bool
  | .sym .lpar :: _ => true
  | .sym _ :: _ => false
  | [] => false
  | _ => true

/-- The function for an operator of `Expr` and `Expr2` (grammar.lalrpop:9-22), with its level. -/
def Sym.binary : Sym → Option (Nat × Text)
  | .pipe | .plus | .or => some (1, t!"union")
  | .amp | .and => some (2, t!"intersection")
  | .minus => some (2, t!"difference")
  | .percent => some (2, t!"only")
  | _ => none

/-- grammar.lalrpop:25-27, 30-32, 35: an operator of `Expr3` with two operands. -/
def Sym.between : Sym → Option (Expr → Expr → Expr)
  | .colon | .colons => some fun a b => .call t!"range" [a, b]
  | .dots => some fun a b => .call t!"only" [b, a]
  | _ => none

/-- grammar.lalrpop:26, 31, 36: without the right operand. -/
def Sym.after : Sym → Option (Expr → Expr)
  | .colon | .colons => some fun a => .call t!"descendants" [a]
  | .dots => some fun a => .call t!"only" [.name t!".", a]
  | _ => none

/-- grammar.lalrpop:27, 32, 37: without the left operand. -/
def Sym.before : Sym → Option (Expr → Expr)
  | .colon | .colons => some fun b => .call t!"ancestors" [b]
  | .dots => some fun b => .call t!"only" [b, .name t!"."]
  | _ => none

/-- grammar.lalrpop:43-47: the function for an operator of `Expr4`. -/
def Sym.postfix : Sym → Option Text
  | .caret => some t!"parents.nth"
  | .tilde => some t!"ancestors.nth"
  | _ => none

/-- A literal at the beginning. -/
def headSym : List Tok → Option (Sym × List Tok)
  | .sym y :: r => some (y, r)
  | _ => none

/-- A name at the beginning. -/
def headName : List Tok → Option (Text × List Tok)
  | [] => none
  | t :: r => t.nameOf.map fun n => (n, r)

mutual
/-- The parser which LALRPOP generates from grammar.lalrpop. The generated code is not modelled; this is a
parser by recursive descent, and `Props/Grammar.lean` shows that it accepts exactly the grammar. The number is
the level: 1 is `Expr`, 5 is `Expr5`. The fuel bounds the depth of the recursion. -/
def parseExpr : Nat → Nat → List Tok → Option (Expr × List Tok)
  | 0, _, _ => none
  | fuel + 1, 1, ts =>
    match parseExpr fuel 2 ts with
    | some (e, r) => parseMore fuel 1 e r
    | none => none
  | fuel + 1, 2, ts =>
    match parseExpr fuel 3 ts with
    | some (e, r) => parseMore fuel 2 e r
    | none => none
  | fuel + 1, 3, ts =>
    match (headSym ts).bind fun y => y.1.before.map fun f => (f, y.2) with
    | some (f, ts') =>
      match parseExpr fuel 4 ts' with
      | some (e, r) => parseMore fuel 3 (f e) r
      | none => none
    | none =>
      match parseExpr fuel 4 ts with
      | some (e, r) => parseMore fuel 3 e r
      | none => none
  | fuel + 1, 4, ts =>
    match parseExpr fuel 5 ts with
    | some (e, r) => parseMore fuel 4 e r
    | none => none
  | fuel + 1, 5, ts =>
    match headName ts with
    | some (n, r) =>
      match headSym r with
      | some (.lpar, r') => (parseArgs fuel r').map fun a => (.call n a.1, a.2)
      | _ => some (.name n, r)
    | none =>
      match headSym ts with
      | some (.lpar, r) =>
        match parseExpr fuel 1 r with
        | some (e, r') =>
          match headSym r' with
          | some (.rpar, r'') => some (e, r'')
          | _ => none
        | none => none
      | _ => none
  | _ + 1, _, _ => none
/-- The rest of an expression, after its beginning. -/
def parseMore : Nat → Nat → Expr → List Tok → Option (Expr × List Tok)
  | 0, _, _, _ => none
  | fuel + 1, 3, e, ts =>
    match headSym ts with
    | some (y, r) =>
      match y.between, y.after with
      | some f, some g =>
        if startsOperand r then
          match parseExpr fuel 4 r with
          | some (e', r') => parseMore fuel 3 (f e e') r'
          | none => none
        else parseMore fuel 3 (g e) r
      | _, _ => some (e, ts)
    | none => some (e, ts)
  | fuel + 1, 4, e, ts =>
    match (headSym ts).bind fun y => y.1.postfix.map fun f => (f, y.2) with
    | some (f, r) =>
      match headName r with
      | some (n, r') => parseMore fuel 4 (.call f [e, .name n]) r'
      | none => parseMore fuel 4 (.call f [e, .name t!"1"]) r
    | none => some (e, ts)
  | fuel + 1, k, e, ts =>
    match (headSym ts).bind fun y => y.1.binary.map fun f => (f, y.2) with
    | some (f, r) =>
      if f.1 = k then
        match parseExpr fuel (k + 1) r with
        | some (e', r') => parseMore fuel k (.call f.2 [e, e']) r'
        | none => none
      else some (e, ts)
    | none => some (e, ts)
/-- grammar.lalrpop:95-103 `FunctionArgs` and the closing parenthesis. -/
def parseArgs : Nat → List Tok → Option (List Expr × List Tok)
  | 0, _ => none
  | fuel + 1, ts =>
    match headSym ts with
    | some (.rpar, r) => some ([], r)
    | _ =>
      match parseExpr fuel 1 ts with
      | some (e, r) =>
        match headSym r with
        | some (.comma, r') => (parseArgs fuel r').map fun a => (e :: a.1, a.2)
        | some (.rpar, r') => some ([e], r')
        | _ => none
      | none => none
end

/-- A fuel which suffices for a list of tokens. -/
def parseFuel (ts : List Tok) : Nat := 8 * ts.length + 8

/-- The parser on tokens. -/
def parseTokens (ts : List Tok) : Option Expr :=
  match parseExpr (parseFuel ts) 1 ts with
  | some (e, []) => some e
  | _ => none

/-- parser.rs:19-56 `parse`; `none` is a parse error. -/
def parseRevset (s : Text) : Option Expr := (lex s).bind parseTokens

end Verif
