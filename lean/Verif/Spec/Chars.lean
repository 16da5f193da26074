import Verif.Model.Synth

/-! # Characters, spelled out -/

namespace Syntree

def digitChars : List Char := ['0', '1', '2', '3', '4', '5', '6', '7', '8', '9']

def lowerChars : List Char :=
  ['a', 'b', 'c', 'd', 'e', 'f', 'g', 'h', 'i', 'j', 'k', 'l', 'm', 'n', 'o', 'p', 'q', 'r', 's', 't',
    'u', 'v', 'w', 'x', 'y', 'z']

def upperChars : List Char :=
  ['A', 'B', 'C', 'D', 'E', 'F', 'G', 'H', 'I', 'J', 'K', 'L', 'M', 'N', 'O', 'P', 'Q', 'R', 'S', 'T',
    'U', 'V', 'W', 'X', 'Y', 'Z']

/-- The characters with the Unicode property `White_Space`: tab, line feed, vertical tab, form feed,
carriage return, space, next line, no-break space, Ogham space mark, the spaces from en quad to hair
space, line separator, paragraph separator, narrow no-break space, medium mathematical space,
ideographic space. -/
def whiteChars : List Char :=
  ['\t', '\n', '\x0b', '\x0c', '\r', ' ', '\u0085', '\u00a0', '\u1680', '\u2000', '\u2001', '\u2002',
    '\u2003', '\u2004', '\u2005', '\u2006', '\u2007', '\u2008', '\u2009', '\u200a', '\u2028',
    '\u2029', '\u202f', '\u205f', '\u3000']

/-- A number in decimal notation. -/
def spell (n : Nat) : Text :=
  if n < 10 then [digitChars.getD n '0'] else spell (n / 10) ++ [digitChars.getD (n % 10) '0']

end Syntree
