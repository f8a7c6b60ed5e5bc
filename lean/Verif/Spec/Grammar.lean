import Verif.Model.RevsetParser

/-!
The grammar of git-branchless-revset/src/grammar.lalrpop, rule by rule. `Derives k ts e` says that the tokens
`ts` can be read as the expression `e` by the nonterminal with number `k` (1 is `Expr`, 2 is `Expr2`, …).
-/

namespace Verif.Spec

open Verif

mutual
inductive Derives : Nat → List Tok → Expr → Prop
  -- Expr
  | pipe {l r a b} : Derives 1 l a → Derives 2 r b → Derives 1 (l ++ .sym .pipe :: r) (.call t!"union" [a, b])
  | plus {l r a b} : Derives 1 l a → Derives 2 r b → Derives 1 (l ++ .sym .plus :: r) (.call t!"union" [a, b])
  | or {l r a b} : Derives 1 l a → Derives 2 r b → Derives 1 (l ++ .sym .or :: r) (.call t!"union" [a, b])
  | up1 {t e} : Derives 2 t e → Derives 1 t e
  -- Expr2
  | amp {l r a b} : Derives 2 l a → Derives 3 r b →
      Derives 2 (l ++ .sym .amp :: r) (.call t!"intersection" [a, b])
  | and {l r a b} : Derives 2 l a → Derives 3 r b →
      Derives 2 (l ++ .sym .and :: r) (.call t!"intersection" [a, b])
  | minus {l r a b} : Derives 2 l a → Derives 3 r b →
      Derives 2 (l ++ .sym .minus :: r) (.call t!"difference" [a, b])
  | percent {l r a b} : Derives 2 l a → Derives 3 r b →
      Derives 2 (l ++ .sym .percent :: r) (.call t!"only" [a, b])
  | up2 {t e} : Derives 3 t e → Derives 2 t e
  -- Expr3
  | colon {l r a b} : Derives 3 l a → Derives 4 r b →
      Derives 3 (l ++ .sym .colon :: r) (.call t!"range" [a, b])
  | afterColon {l a} : Derives 3 l a → Derives 3 (l ++ [.sym .colon]) (.call t!"descendants" [a])
  | beforeColon {r b} : Derives 4 r b → Derives 3 (.sym .colon :: r) (.call t!"ancestors" [b])
  | colons {l r a b} : Derives 3 l a → Derives 4 r b →
      Derives 3 (l ++ .sym .colons :: r) (.call t!"range" [a, b])
  | afterColons {l a} : Derives 3 l a → Derives 3 (l ++ [.sym .colons]) (.call t!"descendants" [a])
  | beforeColons {r b} : Derives 4 r b → Derives 3 (.sym .colons :: r) (.call t!"ancestors" [b])
  | dots {l r a b} : Derives 3 l a → Derives 4 r b →
      Derives 3 (l ++ .sym .dots :: r) (.call t!"only" [b, a])
  | afterDots {l a} : Derives 3 l a → Derives 3 (l ++ [.sym .dots]) (.call t!"only" [.name t!".", a])
  | beforeDots {r b} : Derives 4 r b → Derives 3 (.sym .dots :: r) (.call t!"only" [b, .name t!"."])
  | up3 {t e} : Derives 4 t e → Derives 3 t e
  -- Expr4
  | caret {l a} : Derives 4 l a → Derives 4 (l ++ [.sym .caret]) (.call t!"parents.nth" [a, .name t!"1"])
  | caretName {l a k n} : Derives 4 l a → Tok.nameOf k = some n →
      Derives 4 (l ++ [.sym .caret, k]) (.call t!"parents.nth" [a, .name n])
  | tilde {l a} : Derives 4 l a → Derives 4 (l ++ [.sym .tilde]) (.call t!"ancestors.nth" [a, .name t!"1"])
  | tildeName {l a k n} : Derives 4 l a → Tok.nameOf k = some n →
      Derives 4 (l ++ [.sym .tilde, k]) (.call t!"ancestors.nth" [a, .name n])
  | up4 {t e} : Derives 5 t e → Derives 4 t e
  -- Expr5
  | paren {t e} : Derives 1 t e → Derives 5 (.sym .lpar :: (t ++ [.sym .rpar])) e
  | call {k n t es} : Tok.nameOf k = some n → DerivesArgs t es →
      Derives 5 (k :: .sym .lpar :: (t ++ [.sym .rpar])) (.call n es)
  | name {k n} : Tok.nameOf k = some n → Derives 5 [k] (.name n)
/-- `FunctionArgs`. -/
inductive DerivesArgs : List Tok → List Expr → Prop
  | nil : DerivesArgs [] []
  | last {t e} : Derives 1 t e → DerivesArgs t [e]
  | cons {t t' e es} : Derives 1 t e → DerivesArgs t' es → DerivesArgs (t ++ .sym .comma :: t') (e :: es)
end

end Verif.Spec
