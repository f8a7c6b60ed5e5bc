import Verif.Model.Basic

/-!
Splitting of text, as done by Rust's standard library.
-/

namespace Verif

/-- Rust `str::split(c)` for a single character: the pieces between the separators (at least one,
possibly empty, piece). -/
def splitChar (c : Char) : Text → List Text
  | [] => [[]]
  | x :: xs =>
    if x = c then [] :: splitChar c xs
    else match splitChar c xs with
      | [] => [[x]]
      | p :: ps => (x :: p) :: ps

/-- Rust `BufRead::split(b'\n')`: like `splitChar`, but nothing follows a final newline. -/
def splitTerminated (t : Text) : List Text :=
  let ps := splitChar '\n' t
  if ps.getLast? = some [] then ps.dropLast else ps

/-- Remove one trailing carriage return. -/
def stripCr (l : Text) : Text := if l.getLast? = some '\r' then l.dropLast else l

/-- Rust `BufRead::lines` and `str::lines`: pieces terminated by `\n`, without a final `\r`.
(For `str::lines`, a `\r` at the end of an unterminated last line is kept in the code; the texts
read with it here are terminated.) -/
def textLines (t : Text) : List Text := (splitTerminated t).map stripCr

/-- Unicode `White_Space`, which is what Rust's `char::is_whitespace` tests. -/
def isSpace (c : Char) : Bool :=
  (9 ≤ c.toNat && c.toNat ≤ 13) || c.toNat == 32 || c.toNat == 0x85 || c.toNat == 0xA0 ||
  c.toNat == 0x1680 || (0x2000 ≤ c.toNat && c.toNat ≤ 0x200A) || c.toNat == 0x2028 ||
  c.toNat == 0x2029 || c.toNat == 0x202F || c.toNat == 0x205F || c.toNat == 0x3000

/-- Rust `str::trim_start`. -/
def trimStart (t : Text) : Text := t.dropWhile isSpace

/-- Rust `str::trim_end`. -/
def trimEnd (t : Text) : Text := (t.reverse.dropWhile isSpace).reverse

/-- Rust `str::trim`. -/
def trim (t : Text) : Text := trimEnd (trimStart t)

end Verif
