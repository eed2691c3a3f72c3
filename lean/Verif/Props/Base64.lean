import Verif.Lemmas.Base64

/-!
C01: Base64 output decodes back to the data written.
-/
namespace MiniCFD.Base64
open MiniCFD.Spec.Base64

theorem loop_spec (input : List Nat) (hb : ∀ x ∈ input, x < 256) :
    ∃ out, loop (input.length / 3) input (outLen input.length) = some out ∧
      out.length = outLen input.length ∧ decode out = some input ∧
      (∃ k ≤ 2, ∃ body, out = body ++ List.replicate k '=' ∧
        ∀ c ∈ body, ∃ v < 64, value c = some v) := by
  match input, hb with
  | [], _ =>
    exact ⟨[], rfl, rfl, rfl, 0, by omega, [], rfl, by simp⟩
  | [a], hb =>
    obtain ⟨c0, c1, c2, c3, he, v0, v1, v2, v3, n0, n1, n2, n3⟩ :=
      encode_eq (hb a (by simp)) (b := 0) (c := 0) (by omega) (by omega)
    have ha := hb a (by simp)
    refine ⟨[c0, c1, '=', '='], ?_, by simp [outLen], ?_, 2, by omega, [c0, c1], rfl, ?_⟩
    · simp [loop, tail, outLen, he]
    · rw [decode, if_pos rfl, if_pos rfl, if_pos rfl]
      refine decode1_of v0 v1 a ?_ ?_ <;> omega
    · intro c hc
      simp only [List.mem_cons, List.not_mem_nil, or_false] at hc
      rcases hc with rfl | rfl
      · exact ⟨_, by omega, v0⟩
      · exact ⟨_, by omega, v1⟩
  | [a, b], hb =>
    have ha := hb a (by simp)
    have hb' := hb b (by simp)
    obtain ⟨c0, c1, c2, c3, he, v0, v1, v2, v3, n0, n1, n2, n3⟩ :=
      encode_eq ha hb' (c := 0) (by omega)
    refine ⟨[c0, c1, c2, '='], ?_, by simp [outLen], ?_, 1, by omega, [c0, c1, c2], rfl, ?_⟩
    · simp [loop, tail, outLen, he]
    · rw [decode, if_pos rfl, if_pos rfl, if_neg n2]
      refine decode2_of v0 v1 v2 a b ?_ ?_ ?_ <;> omega
    · intro c hc
      simp only [List.mem_cons, List.not_mem_nil, or_false] at hc
      rcases hc with rfl | rfl | rfl
      · exact ⟨_, by omega, v0⟩
      · exact ⟨_, by omega, v1⟩
      · exact ⟨_, by omega, v2⟩
  | a :: b :: c :: rest, hb =>
    have ha := hb a (by simp)
    have hb' := hb b (by simp)
    have hc := hb c (by simp)
    obtain ⟨c0, c1, c2, c3, he, v0, v1, v2, v3, n0, n1, n2, n3⟩ := encode_eq ha hb' hc
    obtain ⟨r, hr, hlen, hdec, k, hk, body, hbody, hval⟩ :=
      loop_spec rest (fun x hx => hb x (by simp [hx]))
    have hl : (a :: b :: c :: rest).length = rest.length + 3 := rfl
    have h3 : (rest.length + 3) / 3 = rest.length / 3 + 1 := by omega
    refine ⟨c0 :: c1 :: c2 :: c3 :: r, ?_, ?_, ?_, k, hk, c0 :: c1 :: c2 :: c3 :: body, ?_, ?_⟩
    · rw [hl, h3, loop, outLen_add_three]
      simp [he, hr]
    · rw [hl, outLen_add_three]; simp [hlen]
    · have hd : decode3 c0 c1 c2 c3 = some [a, b, c] := by
        refine decode3_of v0 v1 v2 v3 a b c ?_ ?_ ?_ <;> unfold group <;> omega
      rw [decode, if_neg n3, hd, hdec]
      rfl
    · simp [hbody]
    · intro x hx
      simp only [List.mem_cons] at hx
      rcases hx with rfl | rfl | rfl | rfl | hx
      · exact ⟨_, by omega, v0⟩
      · exact ⟨_, by omega, v1⟩
      · exact ⟨_, by omega, v2⟩
      · exact ⟨_, by omega, v3⟩
      · exact hval x hx

/-- **C01.** For every byte sequence the encoder succeeds (no out-of-range table
read), its output has length `4 * ceil (n / 3)`, decodes (RFC 4648, strict) to the input,
and is alphabet characters followed by at most two `=`. -/
theorem encodeBase64_roundtrip (input : List Nat) (hb : ∀ x ∈ input, x < 256) :
    ∃ out, encodeBase64 input = some out ∧ decode out = some input ∧
      out.length = 4 * ((input.length + 2) / 3) ∧
      (∃ k ≤ 2, ∃ body, out = body ++ List.replicate k '=' ∧
        ∀ c ∈ body, ∃ v < 64, value c = some v) := by
  obtain ⟨out, h1, h2, h3, h4⟩ := loop_spec input hb
  refine ⟨out, h1, h3, ?_, h4⟩
  rw [h2, outLen]; split <;> omega

/-- Consequence: distinct buffers give distinct texts. -/
theorem encodeBase64_injective (x y : List Nat) (hx : ∀ b ∈ x, b < 256)
    (hy : ∀ b ∈ y, b < 256) (h : encodeBase64 x = encodeBase64 y) : x = y := by
  obtain ⟨o, e, d, -⟩ := encodeBase64_roundtrip x hx
  obtain ⟨o', e', d', -⟩ := encodeBase64_roundtrip y hy
  rw [e, e'] at h
  cases h
  rw [d] at d'
  exact Option.some.inj d'

/-- Non-vacuity: a concrete buffer with all residues of interest. -/
example : encodeBase64 [77, 97, 110, 255, 0] = some ['T', 'W', 'F', 'u', '/', 'w', 'A', '='] := by decide +kernel
example : decode ['T', 'W', 'F', 'u', '/', 'w', 'A', '='] = some [77, 97, 110, 255, 0] := by decide +kernel
example : ∀ x ∈ [77, 97, 110, 255, 0], x < 256 := by decide

end MiniCFD.Base64
