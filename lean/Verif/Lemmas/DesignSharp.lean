import Verif.Lemmas.DesignHaar

/-!
# An antisymmetric state of two copies, for which the two-design is worst
-/

namespace PyQ

open Spec Matrix MeasureTheory
open scoped Kronecker ComplexOrder

variable {N : ℕ} {ι : Type} [Fintype ι] [DecidableEq ι]

/-- The pairs with a given sum. -/
noncomputable def sumProj (w : Fin N → ZMod 2) :
    Matrix ((Fin N → ZMod 2) × (Fin N → ZMod 2)) ((Fin N → ZMod 2) × (Fin N → ZMod 2)) ℂ :=
  Matrix.diagonal fun s => if s.1 + s.2 = w then (1 : ℂ) else 0

theorem sumProj_sq (w : Fin N → ZMod 2) : sumProj w * sumProj w = sumProj w := by
  unfold sumProj
  rw [Matrix.diagonal_mul_diagonal]
  congr 1
  funext s
  split_ifs <;> simp

theorem sumProj_star (w : Fin N → ZMod 2) : (sumProj w)ᴴ = sumProj w := by
  unfold sumProj
  rw [Matrix.diagonal_conjTranspose]
  congr 1
  funext s
  simp only [Pi.star_apply]
  split_ifs <;> simp

theorem sumProj_swap (w : Fin N → ZMod 2) : sumProj w * swapMat N = swapMat N * sumProj w := by
  ext ⟨x, y⟩ ⟨x', y'⟩
  unfold sumProj
  rw [Matrix.mul_diagonal, Matrix.diagonal_mul]
  simp only [swapMat, Matrix.of_apply]
  by_cases h : x' = y ∧ y' = x
  · obtain ⟨rfl, rfl⟩ := h
    rw [add_comm y' x', mul_comm]
  · rw [if_neg h, mul_zero, zero_mul]

/-- The projection on the antisymmetric vectors of the pairs with a given sum. -/
noncomputable def antiProj (w : Fin N → ZMod 2) :
    Matrix ((Fin N → ZMod 2) × (Fin N → ZMod 2)) ((Fin N → ZMod 2) × (Fin N → ZMod 2)) ℂ :=
  ((1 / 2 : ℂ) • (1 - swapMat N)) * sumProj w

theorem anti_sq : ((1 / 2 : ℂ) • (1 - swapMat N)) * ((1 / 2 : ℂ) • (1 - swapMat N)) = (1 / 2 : ℂ) • (1 - swapMat N) := by
  rw [Matrix.smul_mul, Matrix.mul_smul, Matrix.sub_mul, Matrix.mul_sub, Matrix.mul_sub, swap_sq, Matrix.one_mul, Matrix.one_mul,
    Matrix.mul_one, smul_smul, show (1 - swapMat N - (swapMat N - 1)) = (2 : ℂ) • (1 - swapMat N) by rw [two_smul]; abel,
    smul_smul]
  norm_num

theorem anti_star : ((1 / 2 : ℂ) • (1 - swapMat N))ᴴ = (1 / 2 : ℂ) • (1 - swapMat N) := by
  rw [Matrix.conjTranspose_smul, Matrix.conjTranspose_sub, Matrix.conjTranspose_one, swap_star, half_star]

theorem anti_comm (w : Fin N → ZMod 2) :
    ((1 / 2 : ℂ) • (1 - swapMat N)) * sumProj w = sumProj w * ((1 / 2 : ℂ) • (1 - swapMat N)) := by
  rw [Matrix.smul_mul, Matrix.mul_smul, Matrix.sub_mul, Matrix.mul_sub, Matrix.one_mul, Matrix.mul_one, sumProj_swap]

theorem antiProj_sq (w : Fin N → ZMod 2) : antiProj w * antiProj w = antiProj w := by
  unfold antiProj
  rw [Matrix.mul_assoc, ← Matrix.mul_assoc (sumProj w), ← anti_comm, Matrix.mul_assoc _ (sumProj w), sumProj_sq, ← Matrix.mul_assoc,
    anti_sq]

theorem antiProj_star (w : Fin N → ZMod 2) : (antiProj w)ᴴ = antiProj w := by
  unfold antiProj
  rw [Matrix.conjTranspose_mul, sumProj_star, anti_star, anti_comm]

theorem antiProj_anti (w : Fin N → ZMod 2) : antiProj w * (1 - swapMat N) = (2 : ℂ) • antiProj w := by
  have h : antiProj w * ((1 / 2 : ℂ) • (1 - swapMat N)) = antiProj w := by
    unfold antiProj
    rw [Matrix.mul_assoc, ← anti_comm, ← Matrix.mul_assoc, anti_sq]
  rw [Matrix.mul_smul] at h
  conv_rhs => rw [← h]
  rw [smul_smul]
  norm_num

theorem antiProj_apply (w x y x' y' : Fin N → ZMod 2) : antiProj w (x, y) (x', y') =
    (1 / 2 : ℂ) * if x + y = w then (if x' = x ∧ y' = y then 1 else 0) - (if x' = y ∧ y' = x then 1 else 0) else 0 := by
  unfold antiProj
  rw [anti_comm, sumProj, Matrix.diagonal_mul, Matrix.smul_apply, Matrix.sub_apply, Matrix.one_apply, smul_eq_mul]
  simp only [swapMat, Matrix.of_apply, Prod.mk.injEq]
  have : (x = x' ∧ y = y') ↔ (x' = x ∧ y' = y) := by simp only [eq_comm]
  simp only [this]
  split_ifs <;> simp

/-- The state. -/
noncomputable def antiState (w : Fin N → ZMod 2) : TwoCopies Unit N :=
  (1 : Matrix Unit Unit ℂ) ⊗ₖ ((2 * ((2 : ℂ) ^ N)⁻¹) • antiProj w)

theorem antiState_blk (w x y x' y' : Fin N → ZMod 2) : blk (antiState w) () () x y x' y' =
    ((2 : ℂ) ^ N)⁻¹ * if x + y = w then (if x' = x ∧ y' = y then 1 else 0) - (if x' = y ∧ y' = x then 1 else 0) else 0 := by
  unfold blk antiState
  rw [Matrix.kroneckerMap_apply, Matrix.smul_apply, antiProj_apply, smul_eq_mul, Matrix.one_apply_eq, one_mul]
  ring

theorem antiState_sumA {w : Fin N → ZMod 2} (hw : w ≠ 0) (v : Fin N → ZMod 2) :
    sumA (blk (antiState w) () ()) v = if v = w then 1 else 0 := by
  have hd := two_pow_ne (N := N)
  unfold sumA
  simp only [antiState_blk, bits_cancel, and_self, if_true]
  by_cases h : v = w
  · subst h
    simp [hw, card_bits_c]
  · simp [h]

theorem antiState_sumB {w : Fin N → ZMod 2} (hw : w ≠ 0) (v : Fin N → ZMod 2) :
    sumB (blk (antiState w) () ()) v = if v = w then -1 else 0 := by
  have hd := two_pow_ne (N := N)
  unfold sumB
  simp only [antiState_blk, bits_cancel, and_self, if_true]
  by_cases h : v = w
  · subst h
    simp [hw, card_bits_c]
  · simp [h]

theorem antiState_symMat {w : Fin N → ZMod 2} (hw : w ≠ 0) (c : ℂ) : symMat (antiState w) c = (1 - c) • 1 := by
  ext ⟨⟩ ⟨⟩
  rw [symMat_blk]
  simp only [antiState_sumA hw, antiState_sumB hw, Finset.sum_ite_eq', Finset.mem_univ, if_true, Matrix.smul_apply, smul_eq_mul,
    Matrix.one_apply_eq]
  ring

theorem antiState_trace {w : Fin N → ZMod 2} (hw : w ≠ 0) : (antiState w).trace = 1 := by
  rw [trace_blk]
  simp [antiState_sumA hw]

theorem antiState_posSemidef (w : Fin N → ZMod 2) : (antiState w).PosSemidef :=
  PosSemidef.kronecker PosSemidef.one (real_smul_posSemidef (idempotent_posSemidef (antiProj_star w) (antiProj_sq w))
    (r := 2 * ((2 : ℝ) ^ N)⁻¹) (by push_cast; rfl) (by positivity))

theorem antiState_rest {w : Fin N → ZMod 2} (hw : w ≠ 0) (l : ℕ) :
    restMat (antiState w) l = (((2 : ℂ) ^ N) ^ l)⁻¹ • antiState w := by
  have hne : (0 : Fin N → ZMod 2) ≠ w := Ne.symm hw
  ext ⟨⟨⟩, x, y⟩ ⟨⟨⟩, x', y'⟩
  have hc : restC (blk (antiState w) () ()) l = 0 := by
    unfold restC
    simp [antiState_sumA hw, antiState_sumB hw, hne]
  show restTab (blk (antiState w) () ()) l x y x' y' = _ * blk (antiState w) () () x y x' y'
  rw [antiState_blk]
  unfold restTab
  rw [hc, antiState_sumA hw, antiState_sumB hw]
  by_cases h : x + y = w
  · have hxy : x ≠ y := by
      rintro rfl
      rw [bits_self] at h
      exact hne h
    simp only [h, hxy, ne_eq, not_false_eq_true, true_and, if_true, false_and, if_false]
    split_ifs <;> ring
  · simp [h]

/-- An operator inside the blocks of pairs: the phases do nothing. -/
theorem roundMat_block (X : TwoCopies ι N)
    (h : ∀ i j a b a' b', pairInd a b a' b' * blk X i j a b a' b' = blk X i j a b a' b') :
    roundMat X = twice (roundU fun _ => 0) X := by
  have hs : star (((Real.sqrt 2 : ℝ) : ℂ)⁻¹ ^ N) = ((Real.sqrt 2 : ℝ) : ℂ)⁻¹ ^ N := by
    change (starRingEnd ℂ) _ = _
    rw [map_pow, map_inv₀, Complex.conj_ofReal]
  ext ⟨i, x, y⟩ ⟨j, x', y'⟩
  rw [twice_apply]
  show roundTab (blk X i j) x y x' y' = _
  unfold roundTab
  rw [← inv_sqrt_pow_four]
  simp only [h, Finset.mul_sum]
  apply Finset.sum_congr rfl; intro a _
  apply Finset.sum_congr rfl; intro b _
  apply Finset.sum_congr rfl; intro a' _
  apply Finset.sum_congr rfl; intro b' _
  simp only [roundU, Matrix.of_apply, Complex.ofReal_zero, zero_mul, Complex.exp_zero, mul_one, star_mul', hs]
  have e : ∀ u v : Fin N → ZMod 2, star (chi u v) = chi u v := chi_star
  rw [e, e]
  ring

theorem antiState_block (w : Fin N → ZMod 2) (i j : Unit) (a b a' b' : Fin N → ZMod 2) :
    pairInd a b a' b' * blk (antiState w) i j a b a' b' = blk (antiState w) i j a b a' b' := by
  obtain ⟨⟩ := i
  obtain ⟨⟩ := j
  rw [antiState_blk]
  unfold pairInd
  by_cases h1 : a' = a ∧ b' = b
  · simp [h1]
  · by_cases h2 : a' = b ∧ b' = a
    · simp [h2]
    · simp [h1, h2]

/-- The measurement. -/
noncomputable def antiEffect (w : Fin N → ZMod 2) : TwoCopies Unit N :=
  twice (roundU fun _ => 0) ((1 : Matrix Unit Unit ℂ) ⊗ₖ antiProj w)

theorem antiEffect_sq (w : Fin N → ZMod 2) : antiEffect w * antiEffect w = antiEffect w ∧ (antiEffect w)ᴴ = antiEffect w := by
  have hU := Matrix.mem_unitaryGroup_iff'.mp (roundU_unitary (N := N) fun _ => 0)
  unfold antiEffect twice
  set W := (1 : Matrix Unit Unit ℂ) ⊗ₖ (roundU (N := N) (fun _ => 0) ⊗ₖ roundU fun _ => 0) with hW
  have h : Wᴴ * W = 1 := by
    rw [hW, Matrix.conjTranspose_kronecker, Matrix.conjTranspose_kronecker, ← Matrix.mul_kronecker_mul, ← Matrix.mul_kronecker_mul]
    rw [Matrix.star_eq_conjTranspose] at hU
    rw [hU, Matrix.conjTranspose_one, Matrix.one_mul, Matrix.one_kronecker_one, Matrix.one_kronecker_one]
  constructor
  · rw [show ∀ A B C : TwoCopies Unit N, A * B * C * (A * B * C) = A * B * (C * A) * B * C from fun A B C => by
      simp only [Matrix.mul_assoc], h, Matrix.mul_one, Matrix.mul_assoc W, ← Matrix.mul_kronecker_mul, antiProj_sq, Matrix.one_mul]
  · rw [Matrix.conjTranspose_mul, Matrix.conjTranspose_mul, Matrix.conjTranspose_conjTranspose, Matrix.conjTranspose_kronecker,
      antiProj_star, Matrix.conjTranspose_one, Matrix.mul_assoc]

theorem antiEffect_isEffect (w : Fin N → ZMod 2) : IsEffect (antiEffect w) := by
  obtain ⟨h1, h2⟩ := antiEffect_sq w
  refine ⟨idempotent_posSemidef h2 h1, idempotent_posSemidef ?_ ?_⟩
  · rw [Matrix.conjTranspose_sub, Matrix.conjTranspose_one, h2]
  · rw [Matrix.sub_mul, Matrix.mul_sub, Matrix.mul_sub, h1, Matrix.one_mul, Matrix.mul_one, Matrix.one_mul, sub_self, sub_zero]

theorem chance_twice (U : Matrix (Fin N → ZMod 2) (Fin N → ZMod 2) ℂ) (hU : Uᴴ * U = 1) (E X : TwoCopies ι N) :
    chance (twice U E) (twice U X) = chance E X := by
  have h : ((1 : Matrix ι ι ℂ) ⊗ₖ (U ⊗ₖ U))ᴴ * ((1 : Matrix ι ι ℂ) ⊗ₖ (U ⊗ₖ U)) = 1 := by
    rw [Matrix.conjTranspose_kronecker, Matrix.conjTranspose_kronecker, ← Matrix.mul_kronecker_mul, ← Matrix.mul_kronecker_mul,
      hU, Matrix.conjTranspose_one, Matrix.one_mul, Matrix.one_kronecker_one, Matrix.one_kronecker_one]
  unfold chance
  have e : twice U E * twice U X = twice U (E * X) := by
    unfold twice
    rw [show ∀ A B C D : TwoCopies ι N, A * B * C * (A * D * C) = A * B * (C * A) * D * C from fun A B C D => by
      simp only [Matrix.mul_assoc], h, Matrix.mul_one, Matrix.mul_assoc _ E X]
  rw [e, twice_trace U hU]

theorem anti_chance_round {w : Fin N → ZMod 2} (hw : w ≠ 0) : chance (antiEffect w) (roundMat (antiState w)) = 1 := by
  have hU := Matrix.mem_unitaryGroup_iff'.mp (roundU_unitary (N := N) fun _ => 0)
  rw [Matrix.star_eq_conjTranspose] at hU
  rw [roundMat_block _ (antiState_block w), antiEffect, chance_twice _ hU]
  have h : ((1 : Matrix Unit Unit ℂ) ⊗ₖ antiProj w) * antiState w = antiState w := by
    unfold antiState
    rw [← Matrix.mul_kronecker_mul, Matrix.mul_smul, antiProj_sq, Matrix.one_mul]
  unfold chance
  rw [h, antiState_trace hw, Complex.one_re]

theorem anti_chance_g (hN : 0 < N) {w : Fin N → ZMod 2} (hw : w ≠ 0) :
    chance (antiEffect w) (gMat (antiState w)) = ((2 : ℝ) ^ N - 1)⁻¹ := by
  have hU := roundU_unitary (N := N) fun _ => 0
  have hU' := Matrix.mem_unitaryGroup_iff'.mp hU
  rw [Matrix.star_eq_conjTranspose] at hU'
  have h1 := two_pow_ne (N := N)
  have h2 := two_pow_sub_ne hN
  have hg : gMat (antiState w) = (((2 : ℂ) ^ N * (2 ^ N - 1))⁻¹ • (1 : Matrix Unit Unit ℂ)) ⊗ₖ (1 - swapMat N) := by
    unfold gMat
    rw [antiState_symMat hw, antiState_symMat hw, sub_self, zero_smul, smul_zero, Matrix.zero_kronecker, zero_add, smul_smul]
    congr 2
    field_simp
    norm_num
  have hf : twice (roundU (N := N) fun _ => 0) (gMat (antiState w)) = gMat (antiState w) := by
    have := twice_fixed (roundU (N := N) fun _ => 0) (Matrix.mem_unitaryGroup_iff.mp hU)
      (((2 : ℂ) ^ N * (2 ^ N - 1))⁻¹ • (1 : Matrix Unit Unit ℂ)) (-(((2 : ℂ) ^ N * (2 ^ N - 1))⁻¹ • (1 : Matrix Unit Unit ℂ)))
    have e : gMat (antiState w) = (((2 : ℂ) ^ N * (2 ^ N - 1))⁻¹ • (1 : Matrix Unit Unit ℂ)) ⊗ₖ 1 +
        (-(((2 : ℂ) ^ N * (2 ^ N - 1))⁻¹ • (1 : Matrix Unit Unit ℂ))) ⊗ₖ swapMat N := by
      rw [hg]
      ext ⟨i, s⟩ ⟨j, t⟩
      simp only [Matrix.add_apply, Matrix.kroneckerMap_apply, Matrix.sub_apply, Matrix.neg_apply]
      ring
    rw [e, this]
  rw [← hf, antiEffect, chance_twice _ hU', hg]
  unfold chance
  rw [← Matrix.mul_kronecker_mul, antiProj_anti, Matrix.one_mul, Matrix.trace_kronecker, Matrix.trace_smul, Matrix.trace_smul]
  have ht : (antiProj w).trace = 2 ^ N / 2 := by
    have h3 := antiState_trace hw
    unfold antiState at h3
    rw [Matrix.trace_kronecker, Matrix.trace_smul, Matrix.trace_one, smul_eq_mul] at h3
    simp only [Fintype.card_unit, Nat.cast_one, one_mul] at h3
    field_simp at h3 ⊢
    linear_combination h3
  rw [ht, Matrix.trace_one, smul_eq_mul, smul_eq_mul]
  simp only [Fintype.card_unit, Nat.cast_one, mul_one]
  have : ((2 : ℂ) ^ N * (2 ^ N - 1))⁻¹ * (2 * (2 ^ N / 2)) = ((((2 : ℝ) ^ N - 1)⁻¹ : ℝ) : ℂ) := by
    push_cast
    field_simp
  rw [this, Complex.ofReal_re]

/-- The error for this state and this measurement. -/
theorem anti_error (hN : 0 < N) {μ : Measure (unitaryGroup (Fin N → ZMod 2) ℂ)} (hμ : UniformUnitaries μ)
    {w : Fin N → ZMod 2} (hw : w ≠ 0) (l : ℕ) :
    chance (antiEffect w) (roundMat^[2 * (l + 1) + 1] (antiState w)) -
      ∫ V : unitaryGroup (Fin N → ZMod 2) ℂ,
        chance (antiEffect w) (twice (V : Matrix (Fin N → ZMod 2) (Fin N → ZMod 2) ℂ) (antiState w)) ∂μ =
      (((2 : ℝ) ^ N) ^ (l + 1))⁻¹ * (1 - ((2 : ℝ) ^ N - 1)⁻¹) := by
  rw [haar_eq hN hμ (antiEffect_isEffect w) (antiState_posSemidef w), ← gMat_round _ (2 * (l + 1) + 1)]
  obtain ⟨P, Q, h⟩ := oddRounds_mat (antiState w) l
  have hg : gMat (roundMat (restMat (antiState w) (l + 1))) = gMat (restMat (antiState w) (l + 1)) := gMat_round _ 1
  have hgs : gMat ((((2 : ℂ) ^ N) ^ (l + 1))⁻¹ • antiState w) = (((2 : ℂ) ^ N) ^ (l + 1))⁻¹ • gMat (antiState w) := by
    unfold gMat
    ext ⟨i, s⟩ ⟨j, t⟩
    simp only [symMat_smul, Matrix.add_apply, Matrix.kroneckerMap_apply, Matrix.smul_apply, smul_eq_mul]
    ring
  rw [h, gMat_add, gMat_fixed hN, hg, antiState_rest hw, roundMat_smul, hgs, chance_add _ _ (_ • roundMat _),
    chance_add _ _ (_ • gMat _), inv_pow_real, chance_smul, chance_smul, anti_chance_round hw, anti_chance_g hN hw]
  ring

end PyQ
