import Verif.Props.Measure

/-!
# C57: what measuring an operator with an odd number of Y's does to the register
-/

namespace PyQ

open Spec

variable {n : ℕ}

theorem pauliAct_sq_odd {p : Pauli n} (hY : parityY p = 1) (φ : Amp n) : pauliAct p (pauliAct p φ) = -φ := by
  rw [pauliAct_comp, show dotp p.z p.x = 1 from hY, sgn_one]
  have : p.add p = ⟨0, 0⟩ := by simp [Pauli.add, add_self_f]
  rw [this, pauliAct_one, neg_one_smul]

/-- `S` with an odd number of Y's is not measured but a rotation is applied: `(1 + (-1)^r S) φ / √2`. -/
noncomputable def Spec.rotated (p : Pauli n) (r : ZMod 2) (φ : Amp n) : Amp n :=
  ((Real.sqrt 2 : ℝ) : ℂ)⁻¹ • (φ + (sgn r : ℂ) • pauliAct p φ)

theorem normSq_part_odd {p : Pauli n} (hY : parityY p = 1) {φ : Amp n} (hφ : Normalised φ) (r : ZMod 2) :
    normSq (part p r φ) = 1 / 2 := by
  have hS : normSq (pauliAct p φ) = 1 := normalised_pauli p hφ
  have e := braket_pauli p φ φ
  rw [hY, sgn_one] at e
  have hc : ((normSq (part p r φ) : ℝ) : ℂ) = ((1 / 2 : ℝ) : ℂ) := by
    rw [normSq_braket]
    unfold part
    rw [braket_smul_left, braket_smul_right, braket_add_left, braket_add_right, braket_add_right, braket_smul_left,
      braket_smul_right, braket_smul_left, braket_smul_right, conj_sgn, ← normSq_braket, ← normSq_braket, hS,
      show normSq φ = 1 from hφ, e]
    have := sgn_mul_self (R := ℂ) r
    simp only [map_div₀, map_one, map_ofNat, Complex.ofReal_one]
    push_cast
    linear_combination (1 / 4) * this
  exact_mod_cast hc

/-- **C57, exactly what happens for odd numbers of Y's**: whatever the normalised state `φ` of the register, each result
has probability one half and leaves the register in `(1 + (-1)^r S) φ / √2`, which is normalised. -/
theorem C57_odd_state_refuted (c : StabCode) (s : StabArg) (hs : s.Valid c.n) (hY : parityY (s.pauli c.n) = 1)
    (active len : ℕ) (h : (active = c.n ∧ len = c.n) ∨ (active = c.n + 1 ∧ len = c.n + 1)) :
    ∃ gs, syndromeCircuit c active len s = .ok (gs, c.n) ∧ ∀ φ : Amp c.n, Normalised φ → ∀ r,
      measProb c.n r (run gs (tensor φ (qubit 0))) = 1 / 2 ∧
      collapse c.n r (run gs (tensor φ (qubit 0))) = tensor (Spec.rotated (s.pauli c.n) r φ) (qubit r) ∧
      Normalised (Spec.rotated (s.pauli c.n) r φ) := by
  obtain ⟨gs, h1, h2⟩ := syndromeCircuit_part h hs
  refine ⟨gs, h1, fun φ hφ r => ?_⟩
  have hrun := h2 φ 0
  rw [zero_add] at hrun
  have hif : (if r = 0 then part (s.pauli c.n) 0 φ else part (s.pauli c.n) 1 φ) = part (s.pauli c.n) r φ := by
    rcases zmod2_cases r with rfl | rfl
    · rw [if_pos rfl]
    · rw [if_neg (by decide)]
  have hn := normSq_part_odd hY hφ r
  have hrot : Spec.rotated (s.pauli c.n) r φ =
      ((Real.sqrt (normSq (part (s.pauli c.n) r φ)) : ℝ) : ℂ)⁻¹ • part (s.pauli c.n) r φ := by
    unfold Spec.rotated part
    rw [show normSq ((1 / 2 : ℂ) • (φ + (sgn r : ℂ) • pauliAct (s.pauli c.n) φ)) = 1 / 2 from hn, smul_smul]
    congr 1
    rw [Real.sqrt_div zero_le_one, Real.sqrt_one, ← Complex.ofReal_inv, ← Complex.ofReal_inv, ← Complex.ofReal_ofNat,
      ← Complex.ofReal_one, ← Complex.ofReal_div, ← Complex.ofReal_mul]
    congr 1
    have h2 : Real.sqrt 2 * Real.sqrt 2 = 2 := Real.mul_self_sqrt (by norm_num)
    have h0 : Real.sqrt 2 ≠ 0 := by positivity
    field_simp
    linarith
  refine ⟨by rw [hrun, measProb_branches, hif, hn], by rw [hrun, collapse_branches, hif, ← hrot], ?_⟩
  rw [hrot]
  show normSq _ = 1
  rw [normSq_smul, Complex.normSq_inv, Complex.normSq_ofReal, Real.mul_self_sqrt (by rw [hn]; norm_num), hn]
  norm_num

/-- **C57 fails for odd numbers of Y's**: the measurement is not repeatable.  After two calls for the same operator, two
different results leave the register as it was, two equal results leave `± S φ`; each of the four pairs of results has
probability one quarter, whatever the state. -/
theorem C57_odd_twice_refuted (c : StabCode) (s : StabArg) (hs : s.Valid c.n) (hY : parityY (s.pauli c.n) = 1)
    (active len : ℕ) (h : (active = c.n ∧ len = c.n) ∨ (active = c.n + 1 ∧ len = c.n + 1)) :
    ∃ gs, syndromeCircuit c active len s = .ok (gs, c.n) ∧ ∀ φ : Amp c.n, Normalised φ → ∀ r r', ∃ φ',
      collapse c.n r (run gs (tensor φ (qubit 0))) = tensor φ' (qubit r) ∧
      measProb c.n r (run gs (tensor φ (qubit 0))) * measProb c.n r' (run gs (tensor φ' (qubit 0))) = 1 / 4 ∧
      collapse c.n r' (run gs (tensor φ' (qubit 0))) =
        tensor (if r = r' then (sgn r : ℂ) • pauliAct (s.pauli c.n) φ else φ) (qubit r') := by
  obtain ⟨gs, h1, h2⟩ := C57_odd_state_refuted c s hs hY active len h
  refine ⟨gs, h1, fun φ hφ r r' => ?_⟩
  obtain ⟨a1, a2, a3⟩ := h2 φ hφ r
  obtain ⟨b1, b2, -⟩ := h2 _ a3 r'
  refine ⟨_, a2, by rw [a1, b1]; norm_num, ?_⟩
  rw [b2]
  congr 1
  have hq : (((Real.sqrt 2 : ℝ) : ℂ)⁻¹) * (((Real.sqrt 2 : ℝ) : ℂ)⁻¹) = 1 / 2 := by
    rw [← mul_inv, ← Complex.ofReal_mul, Real.mul_self_sqrt (by norm_num)]
    norm_num
  have hsq := pauliAct_sq_odd hY φ
  unfold Spec.rotated
  rw [pauliAct_smul, pauliAct_add, pauliAct_smul, hsq]
  generalize pauliAct (s.pauli c.n) φ = S
  funext b
  have key : ∀ x y : ℂ, ((Real.sqrt 2 : ℝ) : ℂ)⁻¹ * (((Real.sqrt 2 : ℝ) : ℂ)⁻¹ * x + sgn r' * (((Real.sqrt 2 : ℝ) : ℂ)⁻¹ * y)) =
      1 / 2 * (x + sgn r' * y) := by
    intro x y
    linear_combination (x + sgn r' * y) * hq
  simp only [Pi.smul_apply, Pi.add_apply, Pi.neg_apply, smul_eq_mul]
  rw [key]
  rcases zmod2_cases r with rfl | rfl <;> rcases zmod2_cases r' with rfl | rfl <;> simp <;> ring

/-- "Y" on one qubit: a valid argument with an odd number of Y's, and a normalised state. -/
example : (StabArg.str ['Y']).Valid 1 ∧ parityY ((StabArg.str ['Y']).pauli 1) = 1 ∧
    ∃ φ : Amp 1, Normalised φ := by
  refine ⟨⟨by decide, by decide⟩, by decide, ket 0, ?_⟩
  unfold Normalised ket
  simp

end PyQ
