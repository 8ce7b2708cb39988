import Verif.Lemmas.DesignMatrix
import Verif.Props.Device

/-!
# The average over the draws and over all unitaries
-/

namespace PyQ

open Spec Matrix MeasureTheory
open scoped Kronecker ComplexOrder

variable {N : ℕ} {ι : Type} [Fintype ι] [DecidableEq ι]

theorem trace_re_nonneg {n : Type} [Fintype n] {A : Matrix n n ℂ} (hA : A.PosSemidef) : 0 ≤ A.trace.re :=
  (Complex.le_def.mp hA.trace_nonneg).1

theorem symOff_trace (X : TwoCopies ι N) :
    (symMat (offMat X) ((1 : ℝ) : ℂ)).trace.re + (symMat (offMat X) ((-1 : ℝ) : ℂ)).trace.re =
      2 * (X.trace.re - (equalMat X).trace.re) := by
  have : (symMat (offMat X) ((1 : ℝ) : ℂ)).trace + (symMat (offMat X) ((-1 : ℝ) : ℂ)).trace =
      2 * (X.trace - (equalMat X).trace) := by
    rw [trace_blk]
    unfold Matrix.trace
    simp only [Matrix.diag_apply, equalMat_apply, symMat_off]
    rw [← Finset.sum_add_distrib, ← Finset.sum_sub_distrib, Finset.mul_sum]
    apply Finset.sum_congr rfl; intro i _
    push_cast
    ring
  have h := congrArg Complex.re this
  simpa using h

theorem restMat_trace_le (hN : 0 < N) {X : TwoCopies ι N} (hX : X.PosSemidef) (l : ℕ) :
    (restMat X l).trace.re ≤ (((2 : ℝ) ^ N) ^ l)⁻¹ * ((2 ^ N + 1) / (2 ^ N - 1)) * X.trace.re := by
  have hd : (1 : ℝ) < 2 ^ N := one_lt_pow₀ (by norm_num) hN.ne'
  have hoff := offMat_posSemidef hX
  have s1 := trace_re_nonneg (symMat_posSemidef hoff (c := 1) (by norm_num))
  have s2 := trace_re_nonneg (symMat_posSemidef hoff (c := -1) (by norm_num))
  have s3 := trace_re_nonneg (equalMat_posSemidef hX)
  have hs := symOff_trace X
  have hl := leak_le hN l
  have hl0 := leak_nonneg (N := N) l
  have hD : ((((2 : ℝ) ^ N) ^ (2 * l))⁻¹) ≤ (((2 : ℝ) ^ N) ^ l)⁻¹ := by
    apply inv_anti₀ (by positivity)
    exact pow_le_pow_right₀ hd.le (by omega)
  have hr : (restMat X l).trace.re = (((2 : ℝ) ^ N) ^ l)⁻¹ * (X.trace.re - (equalMat X).trace.re) +
      (leak N l * (symMat (offMat X) ((1 : ℝ) : ℂ)).trace.re + (((2 : ℝ) ^ N) ^ (2 * l))⁻¹ * (equalMat X).trace.re) := by
    rw [restMat_trace]
    unfold restEqual
    rw [Matrix.trace_add, Matrix.trace_smul, Matrix.trace_smul, smul_eq_mul, smul_eq_mul]
    have e1 : (((2 : ℂ) ^ N) ^ l)⁻¹ = (((((2 : ℝ) ^ N) ^ l)⁻¹ : ℝ) : ℂ) := by push_cast; rfl
    have e2 : (((2 : ℂ) ^ N) ^ (2 * l))⁻¹ = (((((2 : ℝ) ^ N) ^ (2 * l))⁻¹ : ℝ) : ℂ) := by push_cast; rfl
    rw [e1, e2, Complex.ofReal_one]
    simp only [Complex.add_re, Complex.re_ofReal_mul, Complex.sub_re]
  rw [hr]
  set D := (((2 : ℝ) ^ N) ^ l)⁻¹
  set D2 := (((2 : ℝ) ^ N) ^ (2 * l))⁻¹
  have hD0 : 0 ≤ D := by positivity
  generalize (symMat (offMat X) ((1 : ℝ) : ℂ)).trace.re = τ at *
  generalize (symMat (offMat X) ((-1 : ℝ) : ℂ)).trace.re = τ' at *
  generalize (equalMat X).trace.re = c at *
  generalize X.trace.re = t at *
  generalize (2 : ℝ) ^ N = d at *
  have hd1 : 0 < d - 1 := by linarith
  have h1 : leak N l * τ ≤ D / (d - 1) * (2 * (t - c)) :=
    mul_le_mul hl (by linarith) s1 (by positivity)
  have h2 : D2 * c ≤ D * c := mul_le_mul_of_nonneg_right hD s3
  have h3 : D * ((d + 1) / (d - 1)) * t = D * (t - c) + D / (d - 1) * (2 * (t - c)) + D * c + D / (d - 1) * (2 * c) := by
    field_simp
    ring
  have h4 : 0 ≤ D / (d - 1) * (2 * c) := by positivity
  linarith

/-- The swap of the two copies. -/
def swapMat (N : ℕ) : Matrix ((Fin N → ZMod 2) × (Fin N → ZMod 2)) ((Fin N → ZMod 2) × (Fin N → ZMod 2)) ℂ :=
  Matrix.of fun s t => if t.1 = s.2 ∧ t.2 = s.1 then 1 else 0

theorem swap_comm (U : Matrix (Fin N → ZMod 2) (Fin N → ZMod 2) ℂ) : (U ⊗ₖ U) * swapMat N = swapMat N * (U ⊗ₖ U) := by
  ext ⟨x, y⟩ ⟨x', y'⟩
  rw [Matrix.mul_apply, Matrix.mul_apply, Fintype.sum_prod_type, Fintype.sum_prod_type]
  simp only [swapMat, Matrix.of_apply, Matrix.kroneckerMap_apply, ite_and, mul_ite, mul_one, mul_zero, ite_mul, one_mul, zero_mul]
  simp only [Finset.sum_ite_irrel, Finset.sum_const_zero, Finset.sum_ite_eq, Finset.sum_ite_eq', Finset.mem_univ, if_true]
  ring

theorem twice_fixed (U : Matrix (Fin N → ZMod 2) (Fin N → ZMod 2) ℂ) (hU : U * Uᴴ = 1) (P Q : Matrix ι ι ℂ) :
    twice U (P ⊗ₖ 1 + Q ⊗ₖ swapMat N) = P ⊗ₖ 1 + Q ⊗ₖ swapMat N := by
  have h1 : (U ⊗ₖ U) * (U ⊗ₖ U)ᴴ = 1 := by
    rw [Matrix.conjTranspose_kronecker, ← Matrix.mul_kronecker_mul, hU, Matrix.one_kronecker_one]
  unfold twice
  rw [Matrix.mul_add, Matrix.add_mul, Matrix.conjTranspose_kronecker, Matrix.conjTranspose_one, ← Matrix.mul_kronecker_mul,
    ← Matrix.mul_kronecker_mul, ← Matrix.mul_kronecker_mul, ← Matrix.mul_kronecker_mul, swap_comm, Matrix.mul_one,
    Matrix.one_mul, Matrix.one_mul, Matrix.mul_one, Matrix.mul_one, Matrix.mul_assoc, h1, Matrix.mul_one]

omit [Fintype ι] [DecidableEq ι] in
/-- The average of an odd number of rounds. -/
theorem oddRounds_mat (X : TwoCopies ι N) (l : ℕ) : ∃ P Q : Matrix ι ι ℂ,
    roundMat^[2 * (l + 1) + 1] X = (P ⊗ₖ 1 + Q ⊗ₖ swapMat N) + roundMat (restMat X (l + 1)) := by
  choose p q h using fun i j => oddRounds (blk X i j) l
  refine ⟨Matrix.of p, Matrix.of q, ?_⟩
  ext ⟨i, x, y⟩ ⟨j, x', y'⟩
  have h1 : (roundMat^[2 * (l + 1) + 1] X) (i, (x, y)) (j, (x', y')) =
      roundTab^[2 * (l + 1) + 1] (blk X i j) x y x' y' := by
    rw [← blk_iterate]
    rfl
  rw [h1, h, Matrix.add_apply, Matrix.add_apply, Matrix.kroneckerMap_apply, Matrix.kroneckerMap_apply]
  refine congrArg₂ (· + ·) (congrArg₂ (· + ·) ?_ rfl) rfl
  refine congrArg₂ (· * ·) rfl ?_
  unfold tabI
  rw [Matrix.one_apply]
  simp only [Prod.mk.injEq]
  simp only [eq_comm]

/-! ### Probabilities -/

theorem chance_sum {n κ : Type} [Fintype n] [Fintype κ] (E : Matrix n n ℂ) (X : κ → Matrix n n ℂ) :
    chance E (∑ k, X k) = ∑ k, chance E (X k) := by
  unfold chance
  rw [Matrix.mul_sum, Matrix.trace_sum, Complex.re_sum]

theorem chance_add {n : Type} [Fintype n] (E X Y : Matrix n n ℂ) : chance E (X + Y) = chance E X + chance E Y := by
  unfold chance
  rw [Matrix.mul_add, Matrix.trace_add, Complex.add_re]

theorem chance_smul {n : Type} [Fintype n] (E X : Matrix n n ℂ) (c : ℝ) : chance E ((c : ℂ) • X) = c * chance E X := by
  unfold chance
  rw [Matrix.mul_smul, Matrix.trace_smul, smul_eq_mul, Complex.re_ofReal_mul]

theorem twice_smul (U : Matrix (Fin N → ZMod 2) (Fin N → ZMod 2) ℂ) (c : ℂ) (X : TwoCopies ι N) :
    twice U (c • X) = c • twice U X := by
  unfold twice
  rw [Matrix.mul_smul, Matrix.smul_mul]

theorem twice_add (U : Matrix (Fin N → ZMod 2) (Fin N → ZMod 2) ℂ) (X Y : TwoCopies ι N) :
    twice U (X + Y) = twice U X + twice U Y := by
  unfold twice
  rw [Matrix.mul_add, Matrix.add_mul]

theorem twice_trace (U : Matrix (Fin N → ZMod 2) (Fin N → ZMod 2) ℂ) (hU : Uᴴ * U = 1) (X : TwoCopies ι N) :
    (twice U X).trace = X.trace := by
  unfold twice
  have h : ((1 : Matrix ι ι ℂ) ⊗ₖ (U ⊗ₖ U))ᴴ * ((1 : Matrix ι ι ℂ) ⊗ₖ (U ⊗ₖ U)) = 1 := by
    rw [Matrix.conjTranspose_kronecker, Matrix.conjTranspose_kronecker, ← Matrix.mul_kronecker_mul, ← Matrix.mul_kronecker_mul,
      hU, Matrix.conjTranspose_one, Matrix.one_mul, Matrix.one_kronecker_one, Matrix.one_kronecker_one]
  rw [Matrix.trace_mul_comm, ← Matrix.mul_assoc, h, Matrix.one_mul]

theorem chance_continuous (E X : TwoCopies ι N) :
    Continuous fun V : unitaryGroup (Fin N → ZMod 2) ℂ => chance E (twice (V : Matrix (Fin N → ZMod 2) (Fin N → ZMod 2) ℂ) X) := by
  have h : ∀ x y, Continuous fun V : unitaryGroup (Fin N → ZMod 2) ℂ => (V : Matrix (Fin N → ZMod 2) (Fin N → ZMod 2) ℂ) x y := by
    intro x y
    exact Continuous.matrix_elem continuous_subtype_val x y
  have h2 : ∀ s t, Continuous fun V : unitaryGroup (Fin N → ZMod 2) ℂ =>
      twice (V : Matrix (Fin N → ZMod 2) (Fin N → ZMod 2) ℂ) X s t := by
    rintro ⟨i, x, y⟩ ⟨j, x', y'⟩
    simp only [twice_apply]
    refine continuous_finsetSum _ fun a _ => continuous_finsetSum _ fun b _ => continuous_finsetSum _ fun a' _ =>
      continuous_finsetSum _ fun b' _ => ?_
    exact (((h _ _).mul (h _ _)).mul ((continuous_star.comp (h _ _)).mul (continuous_star.comp (h _ _)))).mul continuous_const
  unfold chance Matrix.trace
  simp only [Matrix.diag_apply, Matrix.mul_apply]
  refine Complex.continuous_re.comp ?_
  exact continuous_finsetSum _ fun s _ => continuous_finsetSum _ fun t _ => continuous_const.mul (h2 _ _)

theorem chance_mem {E X : TwoCopies ι N} (hE : IsEffect E) (hX : X.PosSemidef) (V : unitaryGroup (Fin N → ZMod 2) ℂ) :
    0 ≤ chance E (twice (V : Matrix (Fin N → ZMod 2) (Fin N → ZMod 2) ℂ) X) ∧
      chance E (twice (V : Matrix (Fin N → ZMod 2) (Fin N → ZMod 2) ℂ) X) ≤ X.trace.re := by
  have h := twice_posSemidef (V : Matrix (Fin N → ZMod 2) (Fin N → ZMod 2) ℂ) hX
  refine ⟨chance_nonneg hE.nonneg h, (chance_le hE h).trans (le_of_eq ?_)⟩
  rw [twice_trace _ (Matrix.mem_unitaryGroup_iff'.mp V.2)]

variable {μ : Measure (unitaryGroup (Fin N → ZMod 2) ℂ)}

theorem chance_integrable (hμ : UniformUnitaries μ) {E X : TwoCopies ι N} (hE : IsEffect E) (hX : X.PosSemidef) :
    Integrable (fun V : unitaryGroup (Fin N → ZMod 2) ℂ => chance E (twice (V : Matrix (Fin N → ZMod 2) (Fin N → ZMod 2) ℂ) X)) μ := by
  have : IsProbabilityMeasure μ := ⟨hμ.prob⟩
  refine Integrable.of_bound (chance_continuous E X).aestronglyMeasurable X.trace.re (Filter.Eventually.of_forall fun V => ?_)
  obtain ⟨h1, h2⟩ := chance_mem hE hX V
  rw [Real.norm_eq_abs, abs_of_nonneg h1]
  exact h2

theorem haar_mem (hμ : UniformUnitaries μ) {E X : TwoCopies ι N} (hE : IsEffect E) (hX : X.PosSemidef) :
    0 ≤ ∫ V : unitaryGroup (Fin N → ZMod 2) ℂ, chance E (twice (V : Matrix (Fin N → ZMod 2) (Fin N → ZMod 2) ℂ) X) ∂μ ∧
      ∫ V : unitaryGroup (Fin N → ZMod 2) ℂ, chance E (twice (V : Matrix (Fin N → ZMod 2) (Fin N → ZMod 2) ℂ) X) ∂μ ≤ X.trace.re := by
  have : IsProbabilityMeasure μ := ⟨hμ.prob⟩
  refine ⟨integral_nonneg fun V => (chance_mem hE hX V).1, ?_⟩
  calc _ ≤ ∫ _ : unitaryGroup (Fin N → ZMod 2) ℂ, X.trace.re ∂μ :=
        integral_mono (chance_integrable hμ hE hX) (integrable_const _) fun V => (chance_mem hE hX V).2
    _ = X.trace.re := by simp

/-- The uniform average does not change when a unitary acts first. -/
theorem haar_right (hμ : UniformUnitaries μ) (E X : TwoCopies ι N) {W : Matrix (Fin N → ZMod 2) (Fin N → ZMod 2) ℂ}
    (hW : W ∈ unitaryGroup (Fin N → ZMod 2) ℂ) :
    ∫ V : unitaryGroup (Fin N → ZMod 2) ℂ, chance E (twice (V : Matrix (Fin N → ZMod 2) (Fin N → ZMod 2) ℂ) (twice W X)) ∂μ =
      ∫ V : unitaryGroup (Fin N → ZMod 2) ℂ, chance E (twice (V : Matrix (Fin N → ZMod 2) (Fin N → ZMod 2) ℂ) X) ∂μ := by
  have hm : AEMeasurable (fun V : unitaryGroup (Fin N → ZMod 2) ℂ => V * ⟨W, hW⟩) μ :=
    (continuous_id.mul continuous_const).measurable.aemeasurable
  conv_rhs => rw [← hμ.right ⟨W, hW⟩]
  rw [integral_map hm (chance_continuous E X).aestronglyMeasurable]
  simp only [← twice_mul]
  rfl

theorem card_callDraws (T : ℕ) : (Fintype.card (Fin T → RoundDraw N) : ℝ) = (3 ^ N * 2 ^ (N * N)) ^ T := by
  simp [RoundDraw, ← pow_mul]

theorem design_average (T : ℕ) (X : TwoCopies ι N) : roundMat^[T] X =
    (((Fintype.card (Fin T → RoundDraw N) : ℝ)⁻¹ : ℝ) : ℂ) • ∑ δ : Fin T → RoundDraw N, twice (designMat δ) X := by
  have hc : (3 ^ N * 2 ^ (N * N) : ℂ) ^ T ≠ 0 :=
    pow_ne_zero _ (mul_ne_zero (pow_ne_zero _ (by norm_num)) (pow_ne_zero _ (by norm_num)))
  rw [design_twice, smul_smul, card_callDraws]
  push_cast
  rw [inv_mul_cancel₀ hc, one_smul]

theorem chance_average (T : ℕ) (E X : TwoCopies ι N) :
    (∑ δ : Fin T → RoundDraw N, chance E (twice (designMat δ) X)) / Fintype.card (Fin T → RoundDraw N) =
      chance E (roundMat^[T] X) := by
  rw [design_average, chance_smul, chance_sum, div_eq_inv_mul]

theorem haar_rounds (hμ : UniformUnitaries μ) {E X : TwoCopies ι N} (hE : IsEffect E) (hX : X.PosSemidef) (T : ℕ) :
    ∫ V : unitaryGroup (Fin N → ZMod 2) ℂ, chance E (twice (V : Matrix (Fin N → ZMod 2) (Fin N → ZMod 2) ℂ) (roundMat^[T] X)) ∂μ =
      ∫ V : unitaryGroup (Fin N → ZMod 2) ℂ, chance E (twice (V : Matrix (Fin N → ZMod 2) (Fin N → ZMod 2) ℂ) X) ∂μ := by
  have hc : (Fintype.card (Fin T → RoundDraw N) : ℝ) ≠ 0 := by
    rw [card_callDraws]
    positivity
  simp only [design_average, twice_smul, twice_sum, chance_smul, chance_sum]
  rw [integral_const_mul, integral_finsetSum _ fun δ _ => chance_integrable hμ hE (twice_posSemidef _ hX)]
  simp only [haar_right hμ E X (designMat_unitary _)]
  rw [Finset.sum_const, Finset.card_univ, nsmul_eq_mul, inv_mul_cancel_left₀ hc]

theorem rounds_cases (hN : 0 < N) {epsilon : ℝ} (he : 0 < epsilon) :
    1 ≤ epsilon ∨ ∃ l : ℕ, rounds N epsilon = 2 * (l + 1) + 1 ∧ (((2 : ℝ) ^ N) ^ (l + 1))⁻¹ ≤ epsilon := by
  unfold rounds
  set l := ⌈Real.logb 2 (1 / epsilon) / N⌉ with hl
  have hN' : (0 : ℝ) < N := by exact_mod_cast hN
  have hle : Real.logb 2 (1 / epsilon) ≤ l * N := by
    rw [← div_le_iff₀ hN']
    exact Int.le_ceil _
  rcases le_or_gt l 0 with h | h
  · left
    have h1 : Real.logb 2 (1 / epsilon) ≤ 0 := hle.trans (mul_nonpos_of_nonpos_of_nonneg (by exact_mod_cast h) hN'.le)
    have := (Real.logb_nonpos_iff (b := 2) (by norm_num) (by positivity : 0 < 1 / epsilon)).mp h1
    rwa [div_le_one he] at this
  · right
    obtain ⟨m, hm⟩ : ∃ m : ℕ, l = m + 1 := ⟨(l - 1).toNat, by omega⟩
    refine ⟨m, by omega, ?_⟩
    have h1 : 1 / epsilon ≤ (2 ^ N) ^ (m + 1) := by
      have h2 := (Real.logb_le_iff_le_rpow (b := 2) (by norm_num) (by positivity : 0 < 1 / epsilon)).mp hle
      refine h2.trans (le_of_eq ?_)
      rw [hm]
      have : (((m : ℤ) + 1 : ℤ) : ℝ) * (N : ℝ) = ((N * (m + 1) : ℕ) : ℝ) := by push_cast; ring
      rw [this, Real.rpow_natCast, pow_mul]
    rw [inv_le_comm₀ (by positivity) he]
    rwa [one_div] at h1

/-! ### The uniform average -/

theorem symMat_blk (X : TwoCopies ι N) (c : ℂ) (i j : ι) : symMat X c i j =
    ∑ w, sumA (blk X i j) w + c * ∑ w, sumB (blk X i j) w := by
  unfold symMat
  rw [Matrix.of_apply]
  simp only [Finset.sum_add_distrib, ← Finset.mul_sum]
  rw [sum_bitPairs fun a b => X (i, (a, b)) (j, (a, b)), sum_bitPairs fun a b => X (i, (a, b)) (j, (b, a))]
  rfl

theorem symMat_round (X : TwoCopies ι N) (c : ℂ) : symMat (roundMat X) c = symMat X c := by
  ext i j
  rw [symMat_blk, symMat_blk, blk_roundMat, total_A, total_B]

theorem symMat_rounds (X : TwoCopies ι N) (c : ℂ) (n : ℕ) : symMat (roundMat^[n] X) c = symMat X c := by
  induction n with
  | zero => rfl
  | succ n ih => rw [Function.iterate_succ_apply', symMat_round, ih]

theorem symMat_add (X Y : TwoCopies ι N) (c : ℂ) : symMat (X + Y) c = symMat X c + symMat Y c := by
  ext i j
  simp only [symMat, Matrix.of_apply, Matrix.add_apply, Finset.sum_add_distrib, mul_add]
  ring

theorem symMat_smul (a : ℂ) (X : TwoCopies ι N) (c : ℂ) : symMat (a • X) c = a • symMat X c := by
  ext i j
  simp only [symMat, Matrix.of_apply, Matrix.smul_apply, smul_eq_mul, Finset.mul_sum]
  apply Finset.sum_congr rfl; intro x _
  apply Finset.sum_congr rfl; intro y _
  ring

theorem symMat_id (P : Matrix ι ι ℂ) (c : ℂ) :
    symMat (P ⊗ₖ (1 : Matrix ((Fin N → ZMod 2) × (Fin N → ZMod 2)) _ ℂ)) c = ((2 ^ N) ^ 2 + c * 2 ^ N : ℂ) • P := by
  ext i j
  simp only [symMat, Matrix.of_apply, Matrix.smul_apply, smul_eq_mul, Matrix.kroneckerMap_apply, Matrix.one_apply,
    Prod.mk.injEq, and_self, if_true, mul_one, Finset.sum_add_distrib, Finset.sum_const, Finset.card_univ, nsmul_eq_mul]
  have h : ∀ a b : Fin N → ZMod 2, (if a = b ∧ b = a then (1 : ℂ) else 0) = if a = b then 1 else 0 := by
    intro a b
    by_cases hab : a = b
    · simp [hab]
    · simp [hab]
  simp only [h, mul_ite, mul_one, mul_zero, Finset.sum_ite_eq, Finset.mem_univ, if_true, Finset.sum_const, Finset.card_univ,
    nsmul_eq_mul, card_bits_c]
  ring

theorem symMat_swap (P : Matrix ι ι ℂ) (c : ℂ) :
    symMat (P ⊗ₖ swapMat N) c = (2 ^ N + c * (2 ^ N) ^ 2 : ℂ) • P := by
  ext i j
  simp only [symMat, Matrix.of_apply, Matrix.smul_apply, smul_eq_mul, Matrix.kroneckerMap_apply, swapMat,
    and_self, if_true, mul_one, Finset.sum_add_distrib, Finset.sum_const, Finset.card_univ, nsmul_eq_mul]
  have h : ∀ a b : Fin N → ZMod 2, (if a = b ∧ b = a then (1 : ℂ) else 0) = if a = b then 1 else 0 := by
    intro a b
    by_cases hab : a = b
    · simp [hab]
    · simp [hab]
  simp only [h, mul_ite, mul_one, mul_zero, Finset.sum_ite_eq, Finset.mem_univ, if_true, Finset.sum_const, Finset.card_univ,
    nsmul_eq_mul, card_bits_c]
  ring

/-- The projection on equal pairs. -/
noncomputable def equalProj (N : ℕ) : Matrix ((Fin N → ZMod 2) × (Fin N → ZMod 2)) ((Fin N → ZMod 2) × (Fin N → ZMod 2)) ℂ :=
  Matrix.diagonal fun s => if s.1 = s.2 then (1 : ℂ) else 0

theorem symMat_equal (P : Matrix ι ι ℂ) (c : ℂ) : symMat (P ⊗ₖ equalProj N) c = ((1 + c) * 2 ^ N : ℂ) • P := by
  ext i j
  simp only [symMat, Matrix.of_apply, Matrix.smul_apply, smul_eq_mul, Matrix.kroneckerMap_apply, equalProj,
    Matrix.diagonal_apply, Prod.mk.injEq, and_self, if_true]
  have h : ∀ a b : Fin N → ZMod 2, (if a = b ∧ b = a then (if a = b then (1 : ℂ) else 0) else 0) = if a = b then 1 else 0 := by
    intro a b
    by_cases hab : a = b
    · simp [hab]
    · simp [hab]
  simp only [h, mul_ite, mul_one, mul_zero, Finset.sum_add_distrib, Finset.sum_ite_eq, Finset.mem_univ, if_true,
    Finset.sum_const, Finset.card_univ, nsmul_eq_mul, card_bits_c]
  ring

theorem symMat_shift (X : TwoCopies ι N) (c : ℂ) : symMat (shiftMat (offMat X)) c = (2 ^ N : ℂ) • symMat (offMat X) c := by
  ext i j
  rw [symMat_blk, Matrix.smul_apply, symMat_off, smul_eq_mul]
  have hA0 : sumA (blk (shiftMat (offMat X)) i j) 0 = 0 := by
    unfold sumA blk
    simp [shift_off]
  have hA : ∀ w ≠ 0, sumA (blk (shiftMat (offMat X)) i j) w = 2 ^ N * sumA (blk X i j) w + 0 := by
    intro w hw
    conv_lhs => unfold sumA
    show ∑ a, shiftMat (offMat X) (i, (a, a + w)) (j, (a, a + w)) = _
    simp only [shift_off, bits_cancel]
    simp [hw, card_bits_c]
  have hB : ∀ w ≠ 0, sumB (blk (shiftMat (offMat X)) i j) w = 2 ^ N * sumB (blk X i j) w + 0 := by
    intro w hw
    conv_lhs => unfold sumB
    show ∑ a, shiftMat (offMat X) (i, (a, a + w)) (j, (a + w, a)) = _
    simp only [shift_off, bits_cancel]
    simp [hw, card_bits_c]
  rw [sum_ne_zero_add _ _ _ _ _ hA hA0, sum_ne_zero_add _ _ _ _ _ hB ((sumB_zero _).trans hA0), sumB_zero]
  ring

/-- The uniform average as an operator. -/
noncomputable def gMat (X : TwoCopies ι N) : TwoCopies ι N :=
  ((2 * 2 ^ N * (2 ^ N + 1) : ℂ)⁻¹ • symMat X 1) ⊗ₖ (1 + swapMat N) +
    ((2 * 2 ^ N * (2 ^ N - 1) : ℂ)⁻¹ • symMat X (-1)) ⊗ₖ (1 - swapMat N)

theorem two_pow_sub_ne (hN : 0 < N) : (2 : ℂ) ^ N - 1 ≠ 0 := by
  have hd : (1 : ℝ) < 2 ^ N := one_lt_pow₀ (by norm_num) hN.ne'
  have h : ((2 : ℝ) ^ N - 1) ≠ 0 := by linarith
  exact_mod_cast h

theorem two_pow_add_ne : (2 : ℂ) ^ N + 1 ≠ 0 := by
  have h : ((2 : ℝ) ^ N + 1) ≠ 0 := by positivity
  exact_mod_cast h

theorem gMat_round (X : TwoCopies ι N) (n : ℕ) : gMat (roundMat^[n] X) = gMat X := by
  unfold gMat
  rw [symMat_rounds, symMat_rounds]

theorem gMat_add (X Y : TwoCopies ι N) : gMat (X + Y) = gMat X + gMat Y := by
  unfold gMat
  rw [symMat_add, symMat_add, smul_add, smul_add, Matrix.add_kronecker, Matrix.add_kronecker]
  abel

theorem gMat_fixed (hN : 0 < N) (P Q : Matrix ι ι ℂ) :
    gMat (P ⊗ₖ 1 + Q ⊗ₖ swapMat N) = P ⊗ₖ 1 + Q ⊗ₖ swapMat N := by
  have h1 := two_pow_ne (N := N)
  have h2 := two_pow_sub_ne hN
  have h3 := two_pow_add_ne (N := N)
  ext ⟨i, s⟩ ⟨j, t⟩
  unfold gMat
  simp only [symMat_add, symMat_id, symMat_swap, Matrix.add_apply, Matrix.smul_apply, Matrix.kroneckerMap_apply,
    Matrix.sub_apply, smul_eq_mul]
  generalize (1 : Matrix ((Fin N → ZMod 2) × (Fin N → ZMod 2)) _ ℂ) s t = a
  generalize swapMat N s t = b
  generalize (2 : ℂ) ^ N = d at *
  field_simp
  ring

theorem swap_sq : swapMat N * swapMat N = 1 := by
  ext ⟨x, y⟩ ⟨x', y'⟩
  rw [Matrix.mul_apply, Fintype.sum_prod_type]
  simp only [swapMat, Matrix.of_apply, ite_and, mul_ite, mul_one, mul_zero, ite_mul, one_mul, zero_mul]
  simp only [Finset.sum_ite_irrel, Finset.sum_const_zero, Finset.sum_ite_eq', Finset.mem_univ, if_true, Matrix.one_apply,
    Prod.mk.injEq, ite_and]
  by_cases hx : x = x' <;> by_cases hy : y = y' <;> simp [hx, hy, eq_comm]

theorem swap_star : (swapMat N)ᴴ = swapMat N := by
  ext ⟨x, y⟩ ⟨x', y'⟩
  simp only [Matrix.conjTranspose_apply, swapMat, Matrix.of_apply, apply_ite star, star_one, star_zero]
  simp only [eq_comm, and_comm]

theorem swap_equal : swapMat N * equalProj N = equalProj N := by
  ext ⟨x, y⟩ ⟨x', y'⟩
  unfold equalProj
  rw [Matrix.mul_diagonal, Matrix.diagonal_apply]
  simp only [swapMat, Matrix.of_apply, Prod.mk.injEq]
  by_cases h : x' = y'
  · subst h
    by_cases hx : x' = x
    · subst hx
      by_cases hy : x' = y
      · simp [hy]
      · simp [hy, Ne.symm hy]
    · simp [hx, Ne.symm hx]
  · have h1 : ¬((x = x' ∧ y = y') ∧ x = y) := by
      rintro ⟨⟨rfl, rfl⟩, h2⟩
      exact h h2
    rw [if_neg h, mul_zero]
    by_cases h2 : x = x' ∧ y = y'
    · rw [if_pos h2, if_neg fun h3 => h1 ⟨h2, h3⟩]
    · rw [if_neg h2]

theorem equal_sq : equalProj N * equalProj N = equalProj N := by
  unfold equalProj
  rw [Matrix.diagonal_mul_diagonal]
  congr 1
  funext s
  split_ifs <;> simp

theorem equal_star : (equalProj N)ᴴ = equalProj N := by
  unfold equalProj
  rw [Matrix.diagonal_conjTranspose]
  congr 1
  funext s
  simp only [Pi.star_apply]
  split_ifs <;> simp

theorem equal_swap : equalProj N * swapMat N = equalProj N := by
  have h := congrArg Matrix.conjTranspose (swap_equal (N := N))
  rwa [Matrix.conjTranspose_mul, equal_star, swap_star] at h

/-- A symmetric idempotent is positive. -/
theorem idempotent_posSemidef {n : Type} [Fintype n] {A : Matrix n n ℂ} (h1 : Aᴴ = A) (h2 : A * A = A) : A.PosSemidef := by
  have := Matrix.posSemidef_conjTranspose_mul_self A
  rwa [h1, h2] at this

theorem half_nonneg : (0 : ℂ) ≤ (1 / 2 : ℂ) := by
  have : (1 / 2 : ℂ) = ((1 / 2 : ℝ) : ℂ) := by push_cast; rfl
  rw [this, Complex.zero_le_real]
  norm_num

theorem half_star : star (1 / 2 : ℂ) = 1 / 2 := by
  rw [star_div₀, star_one]
  congr 1
  exact Complex.conj_ofReal 2

theorem sym_posSemidef : ((1 / 2 : ℂ) • (1 + swapMat N)).PosSemidef := by
  refine idempotent_posSemidef ?_ ?_
  · rw [Matrix.conjTranspose_smul, Matrix.conjTranspose_add, Matrix.conjTranspose_one, swap_star, half_star]
  · rw [Matrix.smul_mul, Matrix.mul_smul, Matrix.add_mul, Matrix.mul_add, Matrix.mul_add, swap_sq, Matrix.one_mul, Matrix.one_mul,
      Matrix.mul_one, smul_smul, add_comm (swapMat N) 1, ← two_smul ℂ (1 + swapMat N), smul_smul]
    norm_num

theorem anti_posSemidef : ((1 / 2 : ℂ) • (1 - swapMat N)).PosSemidef := by
  refine idempotent_posSemidef ?_ ?_
  · rw [Matrix.conjTranspose_smul, Matrix.conjTranspose_sub, Matrix.conjTranspose_one, swap_star, half_star]
  · rw [Matrix.smul_mul, Matrix.mul_smul, Matrix.sub_mul, Matrix.mul_sub, Matrix.mul_sub, swap_sq, Matrix.one_mul, Matrix.one_mul,
      Matrix.mul_one, smul_smul, show (1 - swapMat N - (swapMat N - 1)) = (2 : ℂ) • (1 - swapMat N) by rw [two_smul]; abel,
      smul_smul]
    norm_num

theorem sym_sub_equal_posSemidef : ((1 / 2 : ℂ) • (1 + swapMat N) - equalProj N).PosSemidef := by
  refine idempotent_posSemidef ?_ ?_
  · rw [Matrix.conjTranspose_sub, Matrix.conjTranspose_smul, Matrix.conjTranspose_add, Matrix.conjTranspose_one, swap_star,
      half_star, equal_star]
  · have e1 : ((1 / 2 : ℂ) • (1 + swapMat N)) * ((1 / 2 : ℂ) • (1 + swapMat N)) = (1 / 2 : ℂ) • (1 + swapMat N) := by
      rw [Matrix.smul_mul, Matrix.mul_smul, Matrix.add_mul, Matrix.mul_add, Matrix.mul_add, swap_sq, Matrix.one_mul, Matrix.one_mul,
        Matrix.mul_one, smul_smul, add_comm (swapMat N) 1, ← two_smul ℂ (1 + swapMat N), smul_smul]
      norm_num
    have e2 : ((1 / 2 : ℂ) • (1 + swapMat N)) * equalProj N = equalProj N := by
      rw [Matrix.smul_mul, Matrix.add_mul, Matrix.one_mul, swap_equal, ← two_smul ℂ (equalProj N), smul_smul]
      norm_num
    have e3 : equalProj N * ((1 / 2 : ℂ) • (1 + swapMat N)) = equalProj N := by
      rw [Matrix.mul_smul, Matrix.mul_add, Matrix.mul_one, equal_swap, ← two_smul ℂ (equalProj N), smul_smul]
      norm_num
    rw [Matrix.sub_mul, Matrix.mul_sub, Matrix.mul_sub, e1, e2, e3, equal_sq, sub_self, sub_zero]

theorem real_smul_posSemidef {n : Type} [Fintype n] {A : Matrix n n ℂ} (hA : A.PosSemidef) {a : ℂ} {r : ℝ} (ha : a = r)
    (hr : 0 ≤ r) : (a • A).PosSemidef := by
  rw [ha]
  exact PosSemidef.smul hA (Complex.zero_le_real.mpr hr)

theorem gMat_split (X : TwoCopies ι N) : gMat X =
    ((2 ^ N * (2 ^ N + 1) : ℂ)⁻¹ • symMat X 1) ⊗ₖ ((1 / 2 : ℂ) • (1 + swapMat N)) +
      ((2 ^ N * (2 ^ N - 1) : ℂ)⁻¹ • symMat X (-1)) ⊗ₖ ((1 / 2 : ℂ) • (1 - swapMat N)) := by
  unfold gMat
  rw [Matrix.kronecker_smul, Matrix.kronecker_smul, ← Matrix.smul_kronecker, ← Matrix.smul_kronecker, smul_smul, smul_smul]
  congr 3
  · rw [mul_assoc, mul_inv]
    norm_num
  · rw [mul_assoc, mul_inv]
    norm_num

theorem gMat_posSemidef (hN : 0 < N) {X : TwoCopies ι N} (hX : X.PosSemidef) : (gMat X).PosSemidef := by
  have hd : (1 : ℝ) < 2 ^ N := one_lt_pow₀ (by norm_num) hN.ne'
  have s1 := symMat_posSemidef hX (c := 1) (by norm_num)
  have s2 := symMat_posSemidef hX (c := -1) (by norm_num)
  push_cast at s1 s2
  rw [gMat_split]
  refine PosSemidef.add (PosSemidef.kronecker (real_smul_posSemidef s1 (r := (2 ^ N * (2 ^ N + 1))⁻¹) (by push_cast; rfl)
    (by positivity)) sym_posSemidef) (PosSemidef.kronecker (real_smul_posSemidef s2 (r := (2 ^ N * (2 ^ N - 1))⁻¹)
      (by push_cast; rfl) ?_) anti_posSemidef)
  have : (0 : ℝ) < 2 ^ N - 1 := by linarith
  positivity

theorem trace_swap : (swapMat N).trace = 2 ^ N := by
  unfold Matrix.trace
  rw [Fintype.sum_prod_type]
  have h : ∀ x y : Fin N → ZMod 2, (swapMat N).diag (x, y) = if x = y then 1 else 0 := by
    intro x y
    simp only [Matrix.diag_apply, swapMat, Matrix.of_apply]
    by_cases hab : x = y
    · simp [hab]
    · simp [hab]
  simp only [h, Finset.sum_ite_eq, Finset.mem_univ, if_true, Finset.sum_const, Finset.card_univ, nsmul_eq_mul, card_bits_c, mul_one]

theorem trace_one_pair : (1 : Matrix ((Fin N → ZMod 2) × (Fin N → ZMod 2)) ((Fin N → ZMod 2) × (Fin N → ZMod 2)) ℂ).trace =
    (2 ^ N) ^ 2 := by
  rw [Matrix.trace_one, Fintype.card_prod, Nat.cast_mul, card_bits_c, sq]

theorem symMat_trace (X : TwoCopies ι N) : (symMat X 1).trace + (symMat X (-1)).trace = 2 * X.trace := by
  rw [trace_blk]
  unfold Matrix.trace
  simp only [Matrix.diag_apply, symMat_blk]
  rw [← Finset.sum_add_distrib, Finset.mul_sum]
  apply Finset.sum_congr rfl; intro i _
  ring

theorem gMat_trace (hN : 0 < N) (X : TwoCopies ι N) : (gMat X).trace = X.trace := by
  have h1 := two_pow_ne (N := N)
  have h2 := two_pow_sub_ne hN
  have h3 := two_pow_add_ne (N := N)
  have h := symMat_trace X
  unfold gMat
  rw [Matrix.trace_add, Matrix.trace_kronecker, Matrix.trace_kronecker, Matrix.trace_smul, Matrix.trace_smul, Matrix.trace_add,
    Matrix.trace_sub, trace_swap, trace_one_pair, smul_eq_mul, smul_eq_mul]
  generalize (symMat X 1).trace = a at *
  generalize (symMat X (-1)).trace = b at *
  generalize (2 : ℂ) ^ N = d at *
  generalize X.trace = t at *
  field_simp
  linear_combination h

/-- The uniform average of the probability of an outcome. -/
theorem haar_eq (hN : 0 < N) (hμ : UniformUnitaries μ) {E X : TwoCopies ι N} (hE : IsEffect E) (hX : X.PosSemidef) :
    ∫ V : unitaryGroup (Fin N → ZMod 2) ℂ, chance E (twice (V : Matrix (Fin N → ZMod 2) (Fin N → ZMod 2) ℂ) X) ∂μ =
      chance E (gMat X) := by
  have : IsProbabilityMeasure μ := ⟨hμ.prob⟩
  have hd : (1 : ℝ) < 2 ^ N := one_lt_pow₀ (by norm_num) hN.ne'
  have key : ∀ l : ℕ, |∫ V : unitaryGroup (Fin N → ZMod 2) ℂ, chance E (twice (V : Matrix (Fin N → ZMod 2) (Fin N → ZMod 2) ℂ) X) ∂μ -
      chance E (gMat X)| ≤ ((2 : ℝ) ^ N)⁻¹ ^ (l + 1) * (((2 ^ N + 1) / (2 ^ N - 1)) * X.trace.re) := by
    intro l
    rw [← haar_rounds hμ hE hX (2 * (l + 1) + 1), ← gMat_round X (2 * (l + 1) + 1)]
    obtain ⟨P, Q, h⟩ := oddRounds_mat X l
    have hR := roundMat_posSemidef (restMat_posSemidef hX (l + 1))
    have hfix : ∀ V : unitaryGroup (Fin N → ZMod 2) ℂ,
        chance E (twice (V : Matrix (Fin N → ZMod 2) (Fin N → ZMod 2) ℂ)
          ((P ⊗ₖ 1 + Q ⊗ₖ swapMat N) + roundMat (restMat X (l + 1)))) =
        chance E (P ⊗ₖ 1 + Q ⊗ₖ swapMat N) +
          chance E (twice (V : Matrix (Fin N → ZMod 2) (Fin N → ZMod 2) ℂ) (roundMat (restMat X (l + 1)))) := by
      intro V
      rw [twice_add, chance_add, twice_fixed _ (Matrix.mem_unitaryGroup_iff.mp V.2)]
    rw [h]
    simp only [hfix]
    rw [integral_add (integrable_const _) (chance_integrable hμ hE hR), gMat_add, gMat_fixed hN, chance_add _ _ (gMat _)]
    simp only [integral_const, probReal_univ, one_smul, add_sub_add_left_eq_sub]
    have hG := gMat_posSemidef hN hR
    have b1 := chance_nonneg hE.nonneg hG
    have b2 := chance_le hE hG
    obtain ⟨b3, b4⟩ := haar_mem hμ hE hR
    rw [gMat_trace hN, roundMat_trace] at b2
    rw [roundMat_trace] at b4
    have b5 := restMat_trace_le hN hX (l + 1)
    rw [← inv_pow, mul_assoc] at b5
    rw [abs_le]
    constructor <;> linarith
  have hlim : Filter.Tendsto (fun l : ℕ => ((2 : ℝ) ^ N)⁻¹ ^ (l + 1) * (((2 ^ N + 1) / (2 ^ N - 1)) * X.trace.re))
      Filter.atTop (nhds (0 * (((2 ^ N + 1) / (2 ^ N - 1)) * X.trace.re))) := by
    refine Filter.Tendsto.mul_const _ ?_
    exact (tendsto_pow_atTop_nhds_zero_of_lt_one (by positivity) (inv_lt_one_of_one_lt₀ hd)).comp (Filter.tendsto_add_atTop_nat 1)
  rw [zero_mul] at hlim
  have h0 := ge_of_tendsto' hlim key
  exact sub_eq_zero.mp (abs_eq_zero.mp (le_antisymm h0 (abs_nonneg _)))

/-! ### The error -/

theorem roundMat_add (X Y : TwoCopies ι N) : roundMat (X + Y) = roundMat X + roundMat Y := by
  ext s t
  exact roundTab_add (blk X s.1 t.1) (blk Y s.1 t.1) s.2.1 s.2.2 t.2.1 t.2.2

theorem roundMat_fixed (P Q : Matrix ι ι ℂ) :
    roundMat (P ⊗ₖ 1 + Q ⊗ₖ swapMat N) = P ⊗ₖ 1 + Q ⊗ₖ swapMat N := by
  have hc : (3 ^ N * 2 ^ (N * N) : ℂ) ≠ 0 := mul_ne_zero (pow_ne_zero _ (by norm_num)) (pow_ne_zero _ (by norm_num))
  have h := round_twice (P ⊗ₖ 1 + Q ⊗ₖ swapMat N)
  have h1 : ∀ e : RoundDraw N, twice (roundU (Spec.diagPhase e.1 e.2)) (P ⊗ₖ 1 + Q ⊗ₖ swapMat N) = P ⊗ₖ 1 + Q ⊗ₖ swapMat N :=
    fun e => twice_fixed _ (Matrix.mem_unitaryGroup_iff.mp (roundU_unitary _)) P Q
  simp only [h1] at h
  rw [Finset.sum_const, Finset.card_univ, ← Nat.cast_smul_eq_nsmul ℂ, card_roundDraw] at h
  exact (smul_right_injective _ hc h).symm

theorem roundMat_gMat (X : TwoCopies ι N) : roundMat (gMat X) = gMat X := by
  have h : gMat X = ((2 * 2 ^ N * (2 ^ N + 1) : ℂ)⁻¹ • symMat X 1 + (2 * 2 ^ N * (2 ^ N - 1) : ℂ)⁻¹ • symMat X (-1)) ⊗ₖ 1 +
      ((2 * 2 ^ N * (2 ^ N + 1) : ℂ)⁻¹ • symMat X 1 - (2 * 2 ^ N * (2 ^ N - 1) : ℂ)⁻¹ • symMat X (-1)) ⊗ₖ swapMat N := by
    ext ⟨i, s⟩ ⟨j, t⟩
    unfold gMat
    simp only [Matrix.add_apply, Matrix.kroneckerMap_apply, Matrix.sub_apply]
    ring
  rw [h, roundMat_fixed]

/-- The rest on unequal pairs. -/
noncomputable def restOff (X : TwoCopies ι N) (l : ℕ) : TwoCopies ι N :=
  ((((2 : ℂ) ^ N) ^ l)⁻¹ * ((2 : ℂ) ^ N)⁻¹) • shiftMat (offMat X)

/-- The rest on equal pairs that comes from unequal pairs. -/
noncomputable def restMixed (X : TwoCopies ι N) (l : ℕ) : TwoCopies ι N :=
  ((2 : ℂ) ^ N)⁻¹ • (((leak N l : ℂ) • symMat (offMat X) 1) ⊗ₖ equalProj N)

/-- The rest on equal pairs that comes from equal pairs. -/
noncomputable def restSame (X : TwoCopies ι N) (l : ℕ) : TwoCopies ι N :=
  ((2 : ℂ) ^ N)⁻¹ • (((((2 : ℂ) ^ N) ^ (2 * l))⁻¹ • equalMat X) ⊗ₖ equalProj N)

theorem restMat_parts (X : TwoCopies ι N) (l : ℕ) : restMat X l = restOff X l + restMixed X l + restSame X l := by
  rw [restMat_eq, restOff, restMixed, restSame, add_assoc, ← smul_add, ← Matrix.add_kronecker]
  rfl

theorem inv_pow_real (k : ℕ) : (((2 : ℂ) ^ N) ^ k)⁻¹ = (((((2 : ℝ) ^ N) ^ k)⁻¹ : ℝ) : ℂ) := by push_cast; rfl

theorem inv_real : ((2 : ℂ) ^ N)⁻¹ = ((((2 : ℝ) ^ N)⁻¹ : ℝ) : ℂ) := by push_cast; rfl

theorem restOff_posSemidef {X : TwoCopies ι N} (hX : X.PosSemidef) (l : ℕ) : (restOff X l).PosSemidef :=
  real_smul_posSemidef (shiftMat_posSemidef (offMat_posSemidef hX)) (r := (((2 : ℝ) ^ N) ^ l)⁻¹ * ((2 : ℝ) ^ N)⁻¹)
    (by push_cast; rfl) (by positivity)

theorem equalProj_posSemidef : (equalProj N).PosSemidef := idempotent_posSemidef equal_star equal_sq

theorem restSame_posSemidef {X : TwoCopies ι N} (hX : X.PosSemidef) (l : ℕ) : (restSame X l).PosSemidef := by
  refine real_smul_posSemidef (PosSemidef.kronecker (real_smul_posSemidef (equalMat_posSemidef hX) (inv_pow_real _)
    (by positivity)) equalProj_posSemidef) inv_real (by positivity)

theorem symMat_restOff (X : TwoCopies ι N) (l : ℕ) (c : ℂ) :
    symMat (restOff X l) c = (((2 : ℂ) ^ N) ^ l)⁻¹ • symMat (offMat X) c := by
  have hd := two_pow_ne (N := N)
  rw [restOff, symMat_smul, symMat_shift, smul_smul, mul_assoc, inv_mul_cancel₀ hd, mul_one]

theorem symMat_restMixed (X : TwoCopies ι N) (l : ℕ) (c : ℂ) :
    symMat (restMixed X l) c = ((1 + c) * leak N l) • symMat (offMat X) 1 := by
  have hd := two_pow_ne (N := N)
  rw [restMixed, symMat_smul, symMat_equal, smul_smul, smul_smul]
  congr 1
  field_simp

theorem restOff_trace (X : TwoCopies ι N) (l : ℕ) :
    (restOff X l).trace.re = (((2 : ℝ) ^ N) ^ l)⁻¹ * (X.trace.re - (equalMat X).trace.re) := by
  have h := congrArg Complex.re (symMat_trace (restOff X l))
  rw [symMat_restOff, symMat_restOff, Matrix.trace_smul, Matrix.trace_smul, inv_pow_real, Complex.add_re, smul_eq_mul, smul_eq_mul,
    Complex.re_ofReal_mul, Complex.re_ofReal_mul, ← mul_add] at h
  have h2 := symOff_trace X
  push_cast at h2
  rw [h2] at h
  have h3 : (2 * (restOff X l).trace).re = 2 * (restOff X l).trace.re := by simp
  rw [h3] at h
  linarith

theorem equalProj_trace : (equalProj N).trace = 2 ^ N := by
  unfold equalProj
  rw [Matrix.trace_diagonal, Fintype.sum_prod_type]
  simp only [Finset.sum_ite_eq, Finset.mem_univ, if_true, Finset.sum_const, Finset.card_univ, nsmul_eq_mul, card_bits_c, mul_one]

theorem restSame_trace (X : TwoCopies ι N) (l : ℕ) :
    (restSame X l).trace.re = (((2 : ℝ) ^ N) ^ (2 * l))⁻¹ * (equalMat X).trace.re := by
  have hd := two_pow_ne (N := N)
  rw [restSame, Matrix.trace_smul, Matrix.trace_kronecker, equalProj_trace, Matrix.trace_smul, smul_eq_mul, smul_eq_mul,
    inv_pow_real, mul_comm, mul_assoc, mul_inv_cancel₀ hd, mul_one, Complex.re_ofReal_mul]

/-- What the uniform average takes away from the rest on equal pairs. -/
theorem mixed_posSemidef (hN : 0 < N) {X : TwoCopies ι N} (hX : X.PosSemidef) (l : ℕ) :
    (gMat (restOff X l + restMixed X l) - restMixed X l).PosSemidef := by
  have hd : (1 : ℝ) < 2 ^ N := one_lt_pow₀ (by norm_num) hN.ne'
  have hd1 : (0 : ℝ) < 2 ^ N - 1 := by linarith
  have hc1 := two_pow_ne (N := N)
  have hc2 := two_pow_sub_ne hN
  have hc3 := two_pow_add_ne (N := N)
  have hoff := offMat_posSemidef hX
  have s1 := symMat_posSemidef hoff (c := 1) (by norm_num)
  have s2 := symMat_posSemidef hoff (c := -1) (by norm_num)
  push_cast at s1 s2
  have hl := leak_le hN l
  have hl0 := leak_nonneg (N := N) l
  rw [le_div_iff₀ hd1] at hl
  have h : gMat (restOff X l + restMixed X l) - restMixed X l =
      (((((((2 : ℝ) ^ N) ^ l)⁻¹ + 2 * leak N l) / (2 ^ N * (2 ^ N + 1)) : ℝ) : ℂ) • symMat (offMat X) 1) ⊗ₖ
          ((1 / 2 : ℂ) • (1 + swapMat N) - equalProj N) +
        (((((((2 : ℝ) ^ N) ^ l)⁻¹ - leak N l * (2 ^ N - 1)) / (2 ^ N * (2 ^ N + 1)) : ℝ) : ℂ) • symMat (offMat X) 1) ⊗ₖ equalProj N +
        (((((((2 : ℝ) ^ N) ^ l)⁻¹) / (2 ^ N * (2 ^ N - 1)) : ℝ) : ℂ) • symMat (offMat X) (-1)) ⊗ₖ ((1 / 2 : ℂ) • (1 - swapMat N)) := by
    rw [gMat_split, symMat_add, symMat_add, symMat_restOff, symMat_restOff, symMat_restMixed, symMat_restMixed, restMixed]
    ext ⟨i, s⟩ ⟨j, t⟩
    simp only [Matrix.add_apply, Matrix.kroneckerMap_apply, Matrix.sub_apply, Matrix.smul_apply, smul_eq_mul]
    generalize symMat (offMat X) 1 i j = a
    generalize symMat (offMat X) (-1) i j = b
    generalize (1 : Matrix ((Fin N → ZMod 2) × (Fin N → ZMod 2)) _ ℂ) s t = e
    generalize swapMat N s t = f
    generalize equalProj N s t = g
    push_cast
    generalize (2 : ℂ) ^ N = d at *
    field_simp
    ring
  rw [h]
  refine PosSemidef.add (PosSemidef.add (PosSemidef.kronecker (real_smul_posSemidef s1 rfl (by positivity))
    sym_sub_equal_posSemidef) (PosSemidef.kronecker (real_smul_posSemidef s1 rfl ?_) equalProj_posSemidef))
    (PosSemidef.kronecker (real_smul_posSemidef s2 rfl (by positivity)) anti_posSemidef)
  exact div_nonneg (by linarith) (by positivity)

/-- The error of an odd number of rounds. -/
theorem oddRounds_error (hN : 0 < N) (hμ : UniformUnitaries μ) {E X : TwoCopies ι N} (hE : IsEffect E) (hX : X.PosSemidef)
    (l : ℕ) :
    |chance E (roundMat^[2 * (l + 1) + 1] X) -
      ∫ V : unitaryGroup (Fin N → ZMod 2) ℂ, chance E (twice (V : Matrix (Fin N → ZMod 2) (Fin N → ZMod 2) ℂ) X) ∂μ| ≤
      (((2 : ℝ) ^ N) ^ (l + 1))⁻¹ * X.trace.re := by
  have hd : (1 : ℝ) < 2 ^ N := one_lt_pow₀ (by norm_num) hN.ne'
  rw [haar_eq hN hμ hE hX, ← gMat_round X (2 * (l + 1) + 1)]
  obtain ⟨P, Q, h⟩ := oddRounds_mat X l
  rw [h, gMat_add, gMat_fixed hN]
  have hg : gMat (roundMat (restMat X (l + 1))) = gMat (restMat X (l + 1)) := gMat_round _ 1
  rw [hg, restMat_parts]
  set S := restOff X (l + 1) with hS
  set M := restMixed X (l + 1) with hM
  set C := restSame X (l + 1) with hC
  have pS := restOff_posSemidef hX (l + 1)
  have pC := restSame_posSemidef hX (l + 1)
  have pM := mixed_posSemidef hN hX (l + 1)
  have e1 : gMat (S + M + C) = roundMat (gMat (S + M) - M) + roundMat M + gMat C := by
    rw [← roundMat_add, sub_add_cancel, roundMat_gMat, ← gMat_add]
  rw [e1, roundMat_add, roundMat_add]
  simp only [chance_add E (P ⊗ₖ 1 + Q ⊗ₖ swapMat N), chance_add E (_ + _) (roundMat C), chance_add E (_ + _) (gMat C),
    chance_add E (roundMat _) (roundMat _)]
  have rS := roundMat_posSemidef pS
  have rM := roundMat_posSemidef pM
  have rC := roundMat_posSemidef pC
  have gC := gMat_posSemidef hN pC
  have a1 := chance_nonneg hE.nonneg rS
  have a2 := chance_nonneg hE.nonneg rM
  have a3 := chance_nonneg hE.nonneg rC
  have a4 := chance_nonneg hE.nonneg gC
  have b1 := chance_le hE rS
  have b2 := chance_le hE rM
  have b3 := chance_le hE rC
  have b4 := chance_le hE gC
  rw [roundMat_trace] at b1 b2 b3
  rw [gMat_trace hN] at b4
  rw [Matrix.trace_sub, gMat_trace hN, Matrix.trace_add, add_sub_cancel_right] at b2
  rw [restOff_trace] at b1 b2
  rw [restSame_trace] at b3 b4
  have s3 := trace_re_nonneg (equalMat_posSemidef hX)
  have hD : ((((2 : ℝ) ^ N) ^ (2 * (l + 1)))⁻¹) ≤ (((2 : ℝ) ^ N) ^ (l + 1))⁻¹ := by
    apply inv_anti₀ (by positivity)
    exact pow_le_pow_right₀ hd.le (by omega)
  have h2 := mul_le_mul_of_nonneg_right hD s3
  rw [abs_le]
  constructor <;> linarith

end PyQ
