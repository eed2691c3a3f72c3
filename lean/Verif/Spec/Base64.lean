/-
Independent specification: a Base64 decoder as described in RFC 4648.
-/
namespace MiniCFD.Spec.Base64

/-- Value of a Base64 digit, by character ranges (RFC 4648, table 1). -/
def value (c : Char) : Option Nat :=
  let n := c.toNat
  if 'A'.toNat ≤ n ∧ n ≤ 'Z'.toNat then some (n - 'A'.toNat)
  else if 'a'.toNat ≤ n ∧ n ≤ 'z'.toNat then some (n - 'a'.toNat + 26)
  else if '0'.toNat ≤ n ∧ n ≤ '9'.toNat then some (n - '0'.toNat + 52)
  else if c = '+' then some 62
  else if c = '/' then some 63
  else none

/-- The 24-bit group of four digits. -/
def group (v0 v1 v2 v3 : Nat) : Nat := v0 * 262144 + v1 * 4096 + v2 * 64 + v3

/-- One byte from two digits (group padded by `==`); the four unused low bits of the
second digit must be zero. -/
def decode1 (c0 c1 : Char) : Option (List Nat) := do
  let v0 ← value c0
  let v1 ← value c1
  if v1 % 16 = 0 then some [v0 * 4 + v1 / 16] else none

/-- Two bytes from three digits (group padded by `=`); the two unused low bits of the
third digit must be zero. -/
def decode2 (c0 c1 c2 : Char) : Option (List Nat) := do
  let v0 ← value c0
  let v1 ← value c1
  let v2 ← value c2
  if v2 % 4 = 0 then some [v0 * 4 + v1 / 16, v1 % 16 * 16 + v2 / 4] else none

/-- Three bytes from a full group. -/
def decode3 (c0 c1 c2 c3 : Char) : Option (List Nat) := do
  let v0 ← value c0
  let v1 ← value c1
  let v2 ← value c2
  let v3 ← value c3
  let g := group v0 v1 v2 v3
  return [g / 65536, g / 256 % 256, g % 256]

/-- Decode a text.  `=` is accepted only as the last one or two characters (strict
RFC 4648 decoding). -/
def decode : List Char → Option (List Nat)
  | [] => some []
  | c0 :: c1 :: c2 :: c3 :: rest =>
    if c3 = '=' then
      if rest = [] then
        if c2 = '=' then decode1 c0 c1 else decode2 c0 c1 c2
      else none
    else do
      let h ← decode3 c0 c1 c2 c3
      let r ← decode rest
      return h ++ r
  | _ => none

end MiniCFD.Spec.Base64
