/-!
# Text: the parts of `str` and `char` the examples use

A `&str` is a list of characters; its length and its offsets count UTF-8 bytes. These are
definitions of the standard library's documented behaviour; no code of the repository is modelled
here.
-/

namespace Syntree

/-- A `&str`. -/
abbrev Text := List Char

/-- `str::len`: the number of UTF-8 bytes. -/
def Text.bytes : Text → Nat
  | [] => 0
  | c :: cs => c.utf8Size + Text.bytes cs

/-- `str::get(n..)`: `none` if `n` is beyond the end or inside a character. -/
def Text.dropBytes : Nat → Text → Option Text
  | 0, cs => some cs
  | _ + 1, [] => none
  | n + 1, c :: cs => if c.utf8Size ≤ n + 1 then Text.dropBytes (n + 1 - c.utf8Size) cs else none

/-- `str::get(..n)`. -/
def Text.takeBytes : Nat → Text → Option Text
  | 0, _ => some []
  | _ + 1, [] => none
  | n + 1, c :: cs =>
    if c.utf8Size ≤ n + 1 then (Text.takeBytes (n + 1 - c.utf8Size) cs).map (c :: ·) else none

/-- `str::get(a..b)`; indexing `source[a..b]` panics where this is `none`. -/
def Text.get (cs : Text) (r : Nat × Nat) : Option Text :=
  if r.1 ≤ r.2 then (cs.dropBytes r.1).bind (Text.takeBytes (r.2 - r.1)) else none

/-- `char::is_whitespace`: the characters with the Unicode property `White_Space`. -/
def isWhitespace (c : Char) : Bool :=
  let n := c.toNat
  (0x9 ≤ n && n ≤ 0xD) || n == 0x20 || n == 0x85 || n == 0xA0 || n == 0x1680 ||
  (0x2000 ≤ n && n ≤ 0x200A) || n == 0x2028 || n == 0x2029 || n == 0x202F || n == 0x205F ||
  n == 0x3000

/-- `char::is_ascii_digit`, and the pattern `'0'..='9'`. -/
def isDigit (c : Char) : Bool := 0x30 ≤ c.toNat && c.toNat ≤ 0x39

/-- The value of a string of decimal digits (of any length). -/
def decimal (ds : Text) : Nat := ds.foldl (fun n c => 10 * n + (c.toNat - 0x30)) 0

/-- Does the number fit in an `i64`? -/
def inI64 (n : Int) : Bool := -(2 ^ 63) ≤ n && n < 2 ^ 63

/-- `str::parse::<i64>`: an optional sign and at least one digit, in range. -/
def parseI64 (cs : Text) : Option Int :=
  let num (sign : Int) (ds : Text) : Option Int :=
    if ds.isEmpty || !ds.all isDigit then none
    else if inI64 (sign * decimal ds) then some (sign * decimal ds) else none
  match cs with
  | '+' :: ds => num 1 ds
  | '-' :: ds => num (-1) ds
  | ds => num 1 ds

/-- `Some(n)` if it fits in an `i64`. -/
def checkI64 (n : Int) : Option Int := if inI64 n then some n else none

/-- `i64::checked_add`. -/
def checkedAdd (a b : Int) : Option Int := checkI64 (a + b)
/-- `i64::checked_sub`. -/
def checkedSub (a b : Int) : Option Int := checkI64 (a - b)
/-- `i64::checked_mul`. -/
def checkedMul (a b : Int) : Option Int := checkI64 (a * b)
/-- `i64::checked_div`: rounds towards zero; `None` for a zero divisor and on overflow
(`i64::MIN / -1`). -/
def checkedDiv (a b : Int) : Option Int := if b = 0 then none else checkI64 (a.tdiv b)
/-- `i64::checked_pow`. -/
def checkedPow (a : Int) (n : Nat) : Option Int := checkI64 (a ^ n)
/-- `u32::try_from` of an `i64`. -/
def tryU32 (n : Int) : Option Nat := if 0 ≤ n ∧ n < 2 ^ 32 then some n.toNat else none

end Syntree
