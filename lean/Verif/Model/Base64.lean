/-
Model of the Base64 writer in /repo/include/mini/mesh/vtk.hpp.
-/
namespace MiniCFD.Base64

/-- The 64-character table `base` (vtk.hpp:22-23).  The C++ array also holds the
terminating NUL at index 64; reading it would be a wrong answer, so it is left
out here and reported as `none`. -/
def base : List Char :=
  "ABCDEFGHIJKLMNOPQRSTUVWXYZabcdefghijklmnopqrstuvwxyz0123456789+/".toList

/-- `base[i]` (vtk.hpp:25-30).  Out-of-range reads are `none`. -/
def lookup (i : Nat) : Option Char := base[i]?

/-- The lambda `encode` (vtk.hpp:24-31): three input bytes to four characters.
A byte is a natural number (the C++ `char` is masked after promotion, so only its
low eight bits matter). -/
def encode (a b c : Nat) : Option (List Char) := do
  let o0 ← lookup ((a &&& 0xFC) >>> 2)
  let o1 ← lookup (((a &&& 0x03) <<< 4) + ((b &&& 0xF0) >>> 4))
  let o2 ← lookup (((b &&& 0x0F) <<< 2) + ((c &&& 0xC0) >>> 6))
  let o3 ← lookup (c &&& 0x3F)
  return [o0, o1, o2, o3]

/-- `output.resize((n_char / 3 + (n_char % 3 != 0)) * 4)` (vtk.hpp:18). -/
def outLen (n : Nat) : Nat := (n / 3 + (if n % 3 ≠ 0 then 1 else 0)) * 4

/-- The tail branch (vtk.hpp:40-55) for the one or two bytes that are left:
a zero-padded triplet is encoded, its first `i + 1` characters are kept, and `'='`
is written up to `output_end`, which is `room` characters after the place where the
tail starts. Simplified: pointer writes into the pre-sized string become list
append. The C++ encodes into `out[0..3]` and then overwrites the last ones. -/
def tail (rest : List Nat) (room : Nat) : Option (List Char) :=
  match rest with
  | [] => some []
  | [a] => do
      let e ← encode a 0 0
      return e.take 2 ++ List.replicate (room - 2) '='
  | [a, b] => do
      let e ← encode a b 0
      return e.take 3 ++ List.replicate (room - 3) '='
  | _ => none  -- `assert(i == 1 || i == 2)` (vtk.hpp:46): would overrun `triplet`

/-- The main loop (vtk.hpp:32-38) followed by the tail; `k` is the number of
triplets still to be converted and `room` the space left in the output. -/
def loop : Nat → List Nat → Nat → Option (List Char)
  | 0, rest, room => tail rest room
  | k + 1, a :: b :: c :: rest, room => do
      let e ← encode a b c
      let r ← loop k rest (room - 4)
      return e ++ r
  | _ + 1, _, _ => none  -- would read past the end of the input

/-- `EncodeBase64(input_data, n_char)` (vtk.hpp:16-57). -/
def encodeBase64 (input : List Nat) : Option (List Char) :=
  loop (input.length / 3) input (outLen input.length)

end MiniCFD.Base64
