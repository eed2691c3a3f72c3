import Verif.Model.Base64
import Verif.Spec.Base64

namespace MiniCFD.Base64
open MiniCFD.Spec.Base64

theorem mask_facts : ∀ b : Fin 256,
    (b.val &&& 0xFC) >>> 2 = b.val / 4 ∧ (b.val &&& 0x03) <<< 4 = b.val % 4 * 16 ∧
    (b.val &&& 0xF0) >>> 4 = b.val / 16 ∧ (b.val &&& 0x0F) <<< 2 = b.val % 16 * 4 ∧
    (b.val &&& 0xC0) >>> 6 = b.val / 64 ∧ b.val &&& 0x3F = b.val % 64 := by
  decide +kernel

theorem lookup_value : ∀ i : Fin 64, ∃ c, lookup i.val = some c ∧ value c = some i.val ∧ c ≠ '=' := by
  have h : ∀ i : Fin 64, (match lookup i.val with
      | some c => decide (value c = some i.val ∧ c ≠ '=')
      | none => false) = true := by decide +kernel
  intro i
  have := h i
  revert this
  cases hl : lookup i.val with
  | none => simp
  | some c => simp

theorem lookup_value' {i : Nat} (h : i < 64) :
    ∃ c, lookup i = some c ∧ value c = some i ∧ c ≠ '=' := lookup_value ⟨i, h⟩

/-- The four digits produced for three bytes. -/
theorem encode_eq {a b c : Nat} (ha : a < 256) (hb : b < 256) (hc : c < 256) :
    ∃ c0 c1 c2 c3, encode a b c = some [c0, c1, c2, c3] ∧
      value c0 = some (a / 4) ∧ value c1 = some (a % 4 * 16 + b / 16) ∧
      value c2 = some (b % 16 * 4 + c / 64) ∧ value c3 = some (c % 64) ∧
      c0 ≠ '=' ∧ c1 ≠ '=' ∧ c2 ≠ '=' ∧ c3 ≠ '=' := by
  obtain ⟨a1, a2, -⟩ := mask_facts ⟨a, ha⟩
  obtain ⟨-, -, b3, b4, -⟩ := mask_facts ⟨b, hb⟩
  obtain ⟨-, -, -, -, c5, c6⟩ := mask_facts ⟨c, hc⟩
  simp only at a1 a2 b3 b4 c5 c6
  obtain ⟨c0, h0, v0, n0⟩ := lookup_value' (i := a / 4) (by omega)
  obtain ⟨c1, h1, v1, n1⟩ := lookup_value' (i := a % 4 * 16 + b / 16) (by omega)
  obtain ⟨c2, h2, v2, n2⟩ := lookup_value' (i := b % 16 * 4 + c / 64) (by omega)
  obtain ⟨c3, h3, v3, n3⟩ := lookup_value' (i := c % 64) (by omega)
  refine ⟨c0, c1, c2, c3, ?_, v0, v1, v2, v3, n0, n1, n2, n3⟩
  simp [encode, a1, a2, b3, b4, c5, c6, h0, h1, h2, h3]

theorem outLen_add_three (n : Nat) : outLen (n + 3) = outLen n + 4 := by
  have h1 : (n + 3) / 3 = n / 3 + 1 := by omega
  have h2 : (n + 3) % 3 = n % 3 := by omega
  simp only [outLen, h1, h2]; omega

theorem decode3_of {c0 c1 c2 c3 : Char} {v0 v1 v2 v3 : Nat} (h0 : value c0 = some v0)
    (h1 : value c1 = some v1) (h2 : value c2 = some v2) (h3 : value c3 = some v3) (a b c : Nat)
    (ha : group v0 v1 v2 v3 / 65536 = a) (hb : group v0 v1 v2 v3 / 256 % 256 = b)
    (hc : group v0 v1 v2 v3 % 256 = c) : decode3 c0 c1 c2 c3 = some [a, b, c] := by
  subst ha hb hc
  simp only [decode3, h0, h1, h2, h3, Option.bind_eq_bind, Option.bind_some, Option.pure_def]

theorem decode2_of {c0 c1 c2 : Char} {v0 v1 v2 : Nat} (h0 : value c0 = some v0)
    (h1 : value c1 = some v1) (h2 : value c2 = some v2) (a b : Nat)
    (ha : v0 * 4 + v1 / 16 = a) (hb : v1 % 16 * 16 + v2 / 4 = b)
    (hc : v2 % 4 = 0) : decode2 c0 c1 c2 = some [a, b] := by
  simp [decode2, h0, h1, h2, ha, hb, hc]

theorem decode1_of {c0 c1 : Char} {v0 v1 : Nat} (h0 : value c0 = some v0)
    (h1 : value c1 = some v1) (a : Nat) (ha : v0 * 4 + v1 / 16 = a)
    (hc : v1 % 16 = 0) : decode1 c0 c1 = some [a] := by
  simp [decode1, h0, h1, ha, hc]

end MiniCFD.Base64
