import Verif.Model.Transactions

/-!
Families of processes.
-/

namespace Verif.Spec

open Verif

/-- The process `p` is `a`, or was started by `a`, or by one which was, and so on. -/
inductive TxBelow (w : TxWorld) (a : Nat) : Nat → Prop
  | self : TxBelow w a a
  | child {p q : Nat} {c : TxProc} (h : TxBelow w a p) (hc : w.procs[q]? = some c) (hp : c.parent = some p) :
      TxBelow w a q

/-- The processes of a command which belong to its transaction: itself, and those which it started with this id. -/
def TxMember (w : TxWorld) (o : Nat) (tx : TxId) (p : Nat) : Prop :=
  p = o ∨ ∃ i c, w.procs[i]? = some c ∧ c.parent = some o ∧ c.var = some tx.toText ∧ TxBelow w i p

/-- No process works in another repository than the one which started it. -/
def StaysHome (w : TxWorld) : Prop :=
  ∀ (i j : Nat) (c q : TxProc), w.procs[i]? = some c → c.parent = some j → w.procs[j]? = some q → c.repo = q.repo

/-- The user has not set the variable. -/
def VarUnset (w : TxWorld) : Prop :=
  ∀ (i : Nat) (c : TxProc), w.procs[i]? = some c → c.parent = none → c.var = none

/-- The ids fit into 64 bits. -/
def SmallIds (w : TxWorld) : Prop := ∀ r, (w.dbs r).seq < 2 ^ 63

end Verif.Spec
