import Verif.Lemmas.Decode
import Verif.Props.LogicalCircuit

/-! # C15: the decoding circuit; C47: the qubits it returns -/

namespace PyQ

open Spec

theorem bitsList_length {k : ℕ} (δ : Fin k → ZMod 2) : (bitsList δ).length = k := by simp [bitsList]

theorem bitsList_binary {k : ℕ} (δ : Fin k → ZMod 2) : IsBinary (bitsList δ) := by
  intro v hv
  simp only [bitsList, List.mem_ofFn] at hv
  obtain ⟨i, rfl⟩ := hv
  rcases zmod2_cases (δ i) with e | e <;> rw [e]
  · left; rfl
  · right; rfl

theorem bitFn_bitsList {k : ℕ} (δ : Fin k → ZMod 2) (i : ℕ) : bitFn (bitsList δ) i = if h : i < k then δ ⟨i, h⟩ else 0 := by
  unfold bitFn
  by_cases h : i < k
  · rw [dif_pos h, List.getD_eq_getElem _ _ (by rw [bitsList_length]; exact h)]
    simp only [bitsList, List.getElem_ofFn]
    rcases zmod2_cases (δ ⟨i, h⟩) with e | e <;> rw [e] <;> rfl
  · rw [dif_neg h, List.getD_eq_default _ _ (by rw [bitsList_length]; omega)]; rfl

/-- **C15**.  Let `enc δ` be the gates of `encoding_circuit` for the bits `δ`.  The gates of `decoding_circuit`, called
with `n` qubits and asked for ancillas or with `n + k` qubits, act on the `n + k` qubits; for all amplitudes `α` they take
`(∑ α_δ enc δ|0⟩) ⊗ |0^k⟩` to `enc 0|0⟩ ⊗ ∑ α_δ |δ⟩`: the register is left in one fixed state, unentangled. -/
theorem C15_decoding (s : StabInput) (n k : ℕ) (c : StabCode) (h : stabInit s n k none = .ok c)
    (hb : BinaryArr c.stab) (hind : Independent n c.stab) (len : ℕ) (addAncilla : Bool)
    (hla : (len = n ∧ addAncilla = true) ∨ (len = n + k ∧ addAncilla = false)) :
    ∃ (enc : (Fin k → ZMod 2) → List Gate) (dec : List Gate),
      (∀ δ, encodingCircuit c n (bitsList δ) = .ok (enc δ)) ∧
      decodingCircuit c len addAncilla = .ok dec ∧ (∀ g ∈ dec, g.WF (n + k)) ∧
      ∀ α : (Fin k → ZMod 2) → ℂ,
        run dec (tensor (∑ δ, α δ • (run (enc δ) (ket 0) : Amp n)) (ket 0)) =
          tensor (run (enc 0) (ket 0)) (∑ δ, α δ • ket δ) := by
  obtain ⟨hn, hk, -, hsh, hX, hZ, -⟩ := accepted_facts h hb hind
  have henc := fun δ : Fin k → ZMod 2 =>
    C11_encoding_closed_form s n k c h hb hind (bitsList δ) (bitsList_length δ) (bitsList_binary δ)
  choose enc h1 _ h3 using henc
  obtain ⟨dec, d1, d2, d3⟩ := decoding_ok hn hk hsh hX hZ hla
  refine ⟨enc, dec, h1, d1, d2, ?_⟩
  intro α
  have hz : ∀ δ : Fin k → ZMod 2, (fun j => if j < k then 0 else bitFn (bitsList δ) j) = bitFn (bitsList (0 : Fin k → ZMod 2)) := by
    intro δ
    funext j
    rw [bitFn_bitsList, bitFn_bitsList]
    split_ifs <;> rfl
  have hδ : ∀ δ : Fin k → ZMod 2, (fun i : Fin k => bitFn (bitsList δ) i) = δ := by
    intro δ
    funext i
    rw [bitFn_bitsList, dif_pos i.2]
  rw [tensor_sum_left, run_sum, tensor_sum_right]
  apply Finset.sum_congr rfl
  intro δ _
  rw [tensor_smul_left, run_smul, tensor_smul_right, h3, d3, hz, hδ, h3]

/-- The hypotheses are met by the `[[4,2]]` code. -/
example : ∃ c, stabInit (.rows [[1, 1, 1, 1, 0, 0, 0, 0], [0, 0, 0, 0, 1, 1, 1, 1]]) 4 2 none = .ok c ∧
    BinaryArr c.stab ∧ Independent 4 c.stab ∧ ((6 = 4 ∧ false = true) ∨ (6 = 4 + 2 ∧ false = false)) := by
  obtain ⟨c, h1, h2, h3, -⟩ := code422
  exact ⟨c, h1, h2, h3, Or.inr ⟨rfl, rfl⟩⟩

/-- **C47, partial**.  With `add_ancilla_bits` the list returned by `decoding_circuit` is the register followed by the
ancillas, without repetition; with `deallocate_nqubits` it is the list of the `k` ancillas.  Missing: a register that
already contains the ancillas and is kept (see `C47_refuted`). -/
theorem C47_decoding_returns_partial (c : StabCode) :
    decodingReturn c c.n true false = List.range (c.n + c.k) ∧
    decodingReturn c c.n true true = List.range' c.n c.k ∧
    decodingReturn c (c.n + c.k) false true = List.range' c.n c.k ∧
    (List.range (c.n + c.k)).Nodup ∧ (List.range' c.n c.k).Nodup := by
  refine ⟨?_, rfl, ?_, List.nodup_range, List.nodup_range'⟩
  · show List.range c.n ++ List.range' c.n c.k = _
    rw [List.range_eq_range', List.range_eq_range', ← List.range'_append_1, Nat.zero_add]
  · show List.range' c.n (c.n + c.k - c.n) = _
    rw [Nat.add_sub_cancel_left]

/-- **C47 refuted**.  Called with a register of `n + k` qubits (ancillas included), and not deallocating, every code with
`k ≥ 1` returns a list in which the ancillas occur twice. -/
theorem C47_refuted (c : StabCode) (hk : 0 < c.k) :
    ¬ (decodingReturn c (c.n + c.k) false false).Nodup ∧
    (decodingReturn c (c.n + c.k) false false).length = c.n + 2 * c.k := by
  have e : decodingReturn c (c.n + c.k) false false = List.range (c.n + c.k) ++ List.range' c.n c.k := by
    show List.range (c.n + c.k) ++ List.range' c.n (c.n + c.k - c.n) = _
    rw [Nat.add_sub_cancel_left]
  rw [e]
  constructor
  · intro hnd
    rw [List.nodup_append] at hnd
    exact hnd.2.2 c.n (List.mem_range.mpr (by omega)) c.n (by rw [List.mem_range'_1]; omega) rfl
  · simp; omega

end PyQ
