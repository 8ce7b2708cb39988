import Verif.Lemmas.LogicalCirc
import Verif.Props.Encode

/-! # C14: logical circuits -/

namespace PyQ

open Spec

theorem bitFn_flip {δ : List ℤ} {i : ℕ} (hi : i < δ.length) :
    bitFn (δ.set i (1 - δ.getD i 0)) = Function.update (bitFn δ) i (bitFn δ i + 1) := by
  funext j
  unfold bitFn
  by_cases h : j = i
  · subst h
    rw [Function.update_self, List.getD_eq_getElem (δ.set _ _) _ (by simpa using hi), List.getElem_set_self]
    push_cast
    generalize ((δ.getD j 0 : ℤ) : ZMod 2) = t
    revert t; decide
  · rw [Function.update_of_ne h]
    congr 1
    simp [List.getD_eq_getElem?_getD, Ne.symm h]

/-- **C14 (X)**.  For every encoded basis state, running the gates of `logical_circuit` for `'Xi'` after the encoder gives
the state encoded from the bits with bit `i` flipped.  (The name of the operator has one digit, so `i ≤ 9`.) -/
theorem C14_logical_X (s : StabInput) (n k : ℕ) (c : StabCode) (h : stabInit s n k none = .ok c)
    (hb : BinaryArr c.stab) (hind : Independent n c.stab) (δ : List ℤ) (hlen : δ.length = k) (hδ : IsBinary δ)
    (i : ℕ) (hi : i < k) (hi10 : i < 10) :
    ∃ gs gs' hs, encodingCircuit c n δ = .ok gs ∧ encodingCircuit c n (δ.set i (1 - δ.getD i 0)) = .ok gs' ∧
      logicalCircuit c n ['X', Char.ofNat (48 + i)] = .ok hs ∧
      run hs (run gs (ket 0)) = (run gs' (ket 0) : Amp n) := by
  obtain ⟨hn, hk, -, hsh, hX, hZ, -⟩ := accepted_facts h hb hind
  have hδ' : IsBinary (δ.set i (1 - δ.getD i 0)) := by
    intro v hv
    rcases List.mem_or_eq_of_mem_set hv with hv | rfl
    · exact hδ v hv
    · rw [List.getD_eq_getElem _ _ (by omega)]
      rcases hδ _ (List.getElem_mem (by omega : i < δ.length)) with e | e <;> rw [e] <;> simp
  obtain ⟨gs, g1, -, g3⟩ := C11_encoding_closed_form s n k c h hb hind δ hlen hδ
  obtain ⟨gs', g1', -, g3'⟩ := C11_encoding_closed_form s n k c h hb hind _ (by simpa using hlen) hδ'
  obtain ⟨hs, e1, -, e3⟩ := logicalCircuit_ok hk hsh hX hZ (p := 'X') (Or.inl rfl) (intOfChar_digit hi10) hi
  refine ⟨gs, gs', hs, g1, g1', e1, ?_⟩
  rw [g3, g3', e3, if_pos rfl, hX, lx_codeword hsh hi, bitFn_flip (by omega)]

/-- **C14 (Z)**.  The gates of `logical_circuit` for `'Zi'` multiply every encoded basis state by `(-1)^δ_i`. -/
theorem C14_logical_Z (s : StabInput) (n k : ℕ) (c : StabCode) (h : stabInit s n k none = .ok c)
    (hb : BinaryArr c.stab) (hind : Independent n c.stab) (δ : List ℤ) (hlen : δ.length = k) (hδ : IsBinary δ)
    (i : ℕ) (hi : i < k) (hi10 : i < 10) :
    ∃ gs hs, encodingCircuit c n δ = .ok gs ∧ logicalCircuit c n ['Z', Char.ofNat (48 + i)] = .ok hs ∧
      run hs (run gs (ket 0)) = (if δ.getD i 0 = 1 then (-1 : ℂ) else 1) • (run gs (ket 0) : Amp n) := by
  obtain ⟨hn, hk, -, hsh, hX, hZ, -⟩ := accepted_facts h hb hind
  obtain ⟨gs, g1, -, g3⟩ := C11_encoding_closed_form s n k c h hb hind δ hlen hδ
  obtain ⟨hs, e1, -, e3⟩ := logicalCircuit_ok hk hsh hX hZ (p := 'Z') (Or.inr (Or.inr rfl)) (intOfChar_digit hi10) hi
  refine ⟨gs, hs, g1, e1, ?_⟩
  rw [g3, e3, if_neg (by decide), if_pos rfl, hZ, lz_codeword hsh hi]
  congr 1
  unfold bitFn
  rw [List.getD_eq_getElem _ _ (by omega)]
  rcases hδ _ (List.getElem_mem (by omega : i < δ.length)) with e | e <;> rw [e] <;> simp

/-- **C14 (Y)**.  On every state of the register, encoded or not, the gates for `'Yi'` act as those for `'Zi'` followed by
those for `'Xi'`. -/
theorem C14_logical_Y (s : StabInput) (n k : ℕ) (c : StabCode) (h : stabInit s n k none = .ok c)
    (hb : BinaryArr c.stab) (hind : Independent n c.stab) (i : ℕ) (hi : i < k) (hi10 : i < 10) :
    ∃ xs ys zs, logicalCircuit c n ['X', Char.ofNat (48 + i)] = .ok xs ∧
      logicalCircuit c n ['Y', Char.ofNat (48 + i)] = .ok ys ∧ logicalCircuit c n ['Z', Char.ofNat (48 + i)] = .ok zs ∧
      ∀ ψ : Amp n, run ys ψ = run xs (run zs ψ) := by
  obtain ⟨hn, hk, -, hsh, hX, hZ, -⟩ := accepted_facts h hb hind
  obtain ⟨xs, x1, -, x3⟩ := logicalCircuit_ok hk hsh hX hZ (p := 'X') (Or.inl rfl) (intOfChar_digit hi10) hi
  obtain ⟨ys, y1, -, y3⟩ := logicalCircuit_ok hk hsh hX hZ (p := 'Y') (Or.inr (Or.inl rfl)) (intOfChar_digit hi10) hi
  obtain ⟨zs, z1, -, z3⟩ := logicalCircuit_ok hk hsh hX hZ (p := 'Z') (Or.inr (Or.inr rfl)) (intOfChar_digit hi10) hi
  refine ⟨xs, ys, zs, x1, y1, z1, ?_⟩
  intro ψ
  rw [x3, y3, z3, if_pos rfl, if_neg (by decide), if_neg (by decide), if_neg (by decide), if_pos rfl, pauliAct_comp]
  have hx : (rowPauli n (c.logicalZ.row i)).x = 0 := by
    funext j
    rw [hZ, rowPauli_x (lz_shape hsh).2, lz_x j.2]; rfl
  rw [hx, dotp_zero_right, sgn_zero, one_smul]

/-- The hypotheses are met by the `[[4,2]]` code, bits `1, 0`, operators `X1`, `Z1`, `Y1`. -/
example : ∃ c, stabInit (.rows [[1, 1, 1, 1, 0, 0, 0, 0], [0, 0, 0, 0, 1, 1, 1, 1]]) 4 2 none = .ok c ∧
    BinaryArr c.stab ∧ Independent 4 c.stab ∧ ([1, 0] : List ℤ).length = 2 ∧ IsBinary [1, 0] ∧ 1 < 2 ∧ 1 < 10 ∧
    Char.ofNat (48 + 1) = '1' := by
  obtain ⟨c, h1, h2, h3, -⟩ := code422
  exact ⟨c, h1, h2, h3, rfl, by unfold IsBinary; decide, by omega, by omega, by decide⟩

end PyQ
