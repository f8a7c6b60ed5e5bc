import Verif.Model.Basic

/-!
Textual forms of numbers and object ids.
-/

namespace Verif

/-- A lower-case hexadecimal digit (only used for arguments below 16). -/
def hexDigit (n : Nat) : Char :=
  if n < 10 then Char.ofNat (48 + n) else Char.ofNat (87 + n)

/-- Value of a hexadecimal digit, upper or lower case (libgit2 1.9.0 `git__fromhex`). -/
def hexVal? (c : Char) : Option Nat :=
  if 48 ≤ c.toNat ∧ c.toNat ≤ 57 then some (c.toNat - 48)
  else if 97 ≤ c.toNat ∧ c.toNat ≤ 102 then some (c.toNat - 87)
  else if 65 ≤ c.toNat ∧ c.toNat ≤ 70 then some (c.toNat - 55)
  else none

/-- `len` hexadecimal digits of `n`, most significant first. -/
def hexDigits : (len : Nat) → (n : Nat) → Text
  | 0, _ => []
  | len + 1, n => hexDigits len (n / 16) ++ [hexDigit (n % 16)]

/-- Value of a list of hexadecimal digits, most significant first, continuing from `acc`. -/
def parseHexFrom (acc : Nat) : Text → Option Nat
  | [] => some acc
  | c :: cs => match hexVal? c with
    | none => none
    | some d => parseHexFrom (acc * 16 + d) cs

/-- git-branchless-lib/src/git/oid.rs:29-33 `Display for NonZeroOid` (through git2's
`Debug for Oid`): forty lower-case hexadecimal digits. -/
def Oid.toText (o : Oid) : Text := hexDigits 40 o.val

/-- git-branchless-lib/src/git/oid.rs:134-146 `Display for MaybeZeroOid`. -/
def MaybeZero.toText : MaybeZero → Text
  | .zero => hexDigits 40 0
  | .nonZero o => o.toText

/-- git2 0.20.0 `Oid::from_str`/libgit2 1.9.0 `git_oid_fromstrn`: between one and forty
hexadecimal digits; a shorter text is filled up with zeros on the right. The result is the raw
160-bit number. (Non-ASCII text is rejected as it is not hexadecimal.) -/
def parseRawOid (s : Text) : Option Nat :=
  if s.length = 0 ∨ s.length > 40 then none
  else match parseHexFrom 0 s with
    | none => none
    | some n => some (n * 16 ^ (40 - s.length))

/-- git-branchless-lib/src/git/oid.rs:148-158 `FromStr for MaybeZeroOid`. The last branch cannot
be taken (see `Verif.parseRawOid_lt`); raw git2 ids have 160 bits by type. -/
def MaybeZero.parse (s : Text) : Option MaybeZero :=
  match parseRawOid s with
  | none => none
  | some n =>
    if h0 : n = 0 then some .zero
    else if h : n < 2 ^ 160 then some (.nonZero ⟨n, Nat.pos_of_ne_zero h0, h⟩)
    else none

/-- git-branchless-lib/src/git/oid.rs:35-45 `TryFrom<MaybeZeroOid> for NonZeroOid`. -/
def MaybeZero.toNonZero? : MaybeZero → Option Oid
  | .zero => none
  | .nonZero o => some o

/-- git-branchless-lib/src/git/oid.rs:78-89 `FromStr for NonZeroOid`. -/
def Oid.parse (s : Text) : Option Oid := (MaybeZero.parse s).bind MaybeZero.toNonZero?

/-- Decimal digits of a natural number, most significant first (Rust's `Display` for integers);
`fuel` bounds the number of digits. -/
def decDigitsAux : (fuel : Nat) → (n : Nat) → Text → Text
  | 0, _, acc => acc
  | fuel + 1, n, acc =>
    let acc := Char.ofNat (48 + n % 10) :: acc
    if n / 10 = 0 then acc else decDigitsAux fuel (n / 10) acc

/-- Rust `Display` for unsigned integers. -/
def natToText (n : Nat) : Text := decDigitsAux (n + 1) n []

/-- Rust `Display` for `isize`. -/
def intToText (i : Int) : Text :=
  if i < 0 then '-' :: natToText i.natAbs else natToText i.natAbs

/-- Value of a decimal digit. -/
def decVal? (c : Char) : Option Nat :=
  if 48 ≤ c.toNat ∧ c.toNat ≤ 57 then some (c.toNat - 48) else none

/-- Value of a list of decimal digits, continuing from `acc`. -/
def parseDecFrom (acc : Nat) : Text → Option Nat
  | [] => some acc
  | c :: cs => match decVal? c with
    | none => none
    | some d => parseDecFrom (acc * 10 + d) cs

/-- Rust's unsigned integer parsing without bound: at least one digit. -/
def parseDec (s : Text) : Option Nat :=
  match s with
  | [] => none
  | _ => parseDecFrom 0 s

/-- Range of `isize` on 64-bit platforms. -/
def inIsize (i : Int) : Prop := -(2 : Int) ^ 63 ≤ i ∧ i < (2 : Int) ^ 63

instance (i : Int) : Decidable (inIsize i) := inferInstanceAs (Decidable (_ ∧ _))

/-- Rust `<isize as FromStr>::from_str`: optional sign, at least one digit, in range. -/
def parseIsize (s : Text) : Option Int :=
  let r : Option Int := match s with
    | '-' :: ds => (parseDec ds).map fun n : Nat => -(n : Int)
    | '+' :: ds => (parseDec ds).map fun n : Nat => (n : Int)
    | ds => (parseDec ds).map fun n : Nat => (n : Int)
  r.bind fun i => if inIsize i then some i else none

end Verif
