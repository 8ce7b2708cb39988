import Verif.Lemmas.Group

/-! The gates of `logical_circuit`. -/

namespace PyQ

open Spec

variable {n k : ℕ}

theorem ctrlAct_none' (p : Pauli n) (ψ : Amp n) : ctrlAct none p ψ = pauliAct p ψ := ctrlAct_none p ψ

/-- The gates of a binary row of length `2 n` on a register of `n` qubits. -/
theorem row_gates {b : List ℤ} (hl : b.length = 2 * n) (hb : IsBinary b) :
    ∃ gs, (do let s ← binaryRepToPauliStr b; pauliGates n none s) = .ok gs ∧ (∀ g ∈ gs, g.WF n) ∧
      ∀ ψ : Amp n, run gs ψ = pauliAct (rowPauli n b) ψ := by
  obtain ⟨s, h1, h2, h3⟩ := rowStr hl hb
  refine ⟨strG none 0 s, ?_, strG_wf (by omega) (by simp), ?_⟩
  · rw [h1, ok_bind', pauliGates_ok (by omega)]
  · intro ψ
    rw [run_strG_zero none s (by omega) (by simp), h3, ctrlAct_none]

theorem intOfChar_digit {i : ℕ} (hi : i < 10) : intOfChar (Char.ofNat (48 + i)) = .ok i := by
  interval_cases i <;> decide

theorem row_length (A : Arr ℤ) (i : ℕ) : (A.row i).length = A.cols := by simp [Arr.row]

/-- The row of a Y operator. -/
theorem rowPauli_sum {x z : List ℤ} (hx : x.length = 2 * n) (hz : z.length = 2 * n) :
    rowPauli n ((List.zipWith (· + ·) z x).map (· % 2)) = (rowPauli n x).add (rowPauli n z) := by
  have key : ∀ j < 2 * n, ((((List.zipWith (· + ·) z x).map (· % 2)).getD j 0 : ℤ) : ZMod 2) =
      ((x.getD j 0 : ℤ) : ZMod 2) + ((z.getD j 0 : ℤ) : ZMod 2) := by
    intro j hj
    rw [List.getD_eq_getElem _ _ (by simp; omega), List.getD_eq_getElem x _ (by omega), List.getD_eq_getElem z _ (by omega)]
    simp only [List.getElem_map, List.getElem_zipWith]
    rw [zmod_emod2]; push_cast; ring
  unfold rowPauli Pauli.add
  congr 1
  · funext j; exact key j (by omega)
  · funext j; exact key (n + j) (by omega)

/-- The rows used by `logical_circuit`. -/
theorem logicalRow_ok {c : StabCode} (hsh : NormalShape n k c.rank c.normalForm)
    (hX : c.logicalX = logicalXOf n k c.rank c.normalForm) (hZ : c.logicalZ = logicalZOf n k c.rank c.normalForm)
    {p : Char} (hp : p = 'X' ∨ p = 'Y' ∨ p = 'Z') {i : ℕ} (hi : i < k) :
    ∃ b, logicalRow c p i = .ok b ∧ b.length = 2 * n ∧ IsBinary b ∧
      rowPauli n b = if p = 'X' then rowPauli n (c.logicalX.row i) else if p = 'Z' then rowPauli n (c.logicalZ.row i)
        else (rowPauli n (c.logicalX.row i)).add (rowPauli n (c.logicalZ.row i)) := by
  have hx := lx_shape hsh
  have hz := lz_shape hsh
  rw [← hX] at hx
  rw [← hZ] at hz
  have bx : IsBinary (c.logicalX.row i) := row_binary (by rw [hX]; exact lx_binary hsh) (by omega)
  have bz : IsBinary (c.logicalZ.row i) := row_binary (by rw [hZ]; exact lz_binary hsh) (by omega)
  have ex : rowAt c.logicalX i = .ok (c.logicalX.row i) := by unfold rowAt; rw [if_pos (by omega)]
  have ez : rowAt c.logicalZ i = .ok (c.logicalZ.row i) := by unfold rowAt; rw [if_pos (by omega)]
  unfold logicalRow
  rcases hp with rfl | rfl | rfl
  · rw [if_pos rfl, if_pos rfl]
    exact ⟨_, ex, by rw [row_length]; omega, bx, rfl⟩
  · rw [if_neg (by decide), if_neg (by decide), if_neg (by decide), if_neg (by decide), ez, ex]
    refine ⟨_, rfl, ?_, ?_, ?_⟩
    · simp [row_length]; omega
    · intro v hv
      simp only [List.mem_map] at hv
      obtain ⟨u, -, rfl⟩ := hv
      omega
    · exact rowPauli_sum (by rw [row_length]; omega) (by rw [row_length]; omega)
  · rw [if_neg (by decide), if_pos rfl, if_neg (by decide), if_pos rfl]
    exact ⟨_, ez, by rw [row_length]; omega, bz, rfl⟩

/-- `logical_circuit` on a well-formed name. -/
theorem logicalCircuit_ok {c : StabCode} (hk : c.k = k) (hsh : NormalShape n k c.rank c.normalForm)
    (hX : c.logicalX = logicalXOf n k c.rank c.normalForm) (hZ : c.logicalZ = logicalZOf n k c.rank c.normalForm)
    {p d : Char} (hp : p = 'X' ∨ p = 'Y' ∨ p = 'Z') {i : ℕ} (hd : intOfChar d = .ok i) (hi : i < k) :
    ∃ gs, logicalCircuit c n [p, d] = .ok gs ∧ (∀ g ∈ gs, g.WF n) ∧
      ∀ ψ : Amp n, run gs ψ = pauliAct (if p = 'X' then rowPauli n (c.logicalX.row i)
        else if p = 'Z' then rowPauli n (c.logicalZ.row i)
        else (rowPauli n (c.logicalX.row i)).add (rowPauli n (c.logicalZ.row i))) ψ := by
  obtain ⟨b, h1, h2, h3, h4⟩ := logicalRow_ok hsh hX hZ hp hi
  obtain ⟨gs, g1, g2, g3⟩ := row_gates h2 h3
  refine ⟨gs, ?_, g2, fun ψ => by rw [g3, h4]⟩
  unfold logicalCircuit
  simp only
  unfold pyAssert
  rw [if_pos hp, hd, ok_bind', ok_bind', hk, if_pos hi, ok_bind', h1, ok_bind']
  exact g1

end PyQ
