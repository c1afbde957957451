/-!
# Specification vocabulary

Written from IEEE 1800 and the English properties; this file does not import the
model.
-/

namespace Verif

/-- A 4-state bit. -/
inductive V4
  | b0 | b1 | x | z
  deriving DecidableEq, Repr

namespace V4

/-- a 2-state bit -/
def ofBool (b : Bool) : V4 := if b then b1 else b0

/-- the 2-state value of a known bit -/
def known? : V4 → Option Bool
  | b0 => some false
  | b1 => some true
  | _ => none

/-- is the bit 0 or 1? -/
def isKnown (a : V4) : Bool := a.known?.isSome

/-- IEEE 1800 table 11-15: `~` -/
def not : V4 → V4
  | b0 => b1
  | b1 => b0
  | _ => x

/-- IEEE 1800 table 11-11: `&` -/
def and : V4 → V4 → V4
  | b0, _ => b0
  | _, b0 => b0
  | b1, b1 => b1
  | _, _ => x

/-- IEEE 1800 table 11-12: `|` -/
def or : V4 → V4 → V4
  | b1, _ => b1
  | _, b1 => b1
  | b0, b0 => b0
  | _, _ => x

/-- IEEE 1800 table 11-13: `^` -/
def xor : V4 → V4 → V4
  | b0, b0 => b0
  | b0, b1 => b1
  | b1, b0 => b1
  | b1, b1 => b0
  | _, _ => x

/-- the character shown by `%b` -/
def char : V4 → Char
  | b0 => '0'
  | b1 => '1'
  | x => 'x'
  | z => 'z'

end V4
end Verif
