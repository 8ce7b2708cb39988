import Verif.Lemmas.Mixture
import Verif.Lemmas.EntFid

/-!
# A recovery whose entanglement fidelity is at least `exp (S - I)`
-/

namespace PyQ

open Matrix Polynomial
open scoped ComplexOrder Kronecker

section Finite

variable {κ m R r : Type} [Fintype κ] [Fintype m] [Fintype R] [Fintype r] [DecidableEq κ] [DecidableEq m] [DecidableEq R]
  [DecidableEq r]

/-- The overlap of the square roots of two matrices is at least `exp (-D/2)`. -/
theorem overlap_ge {J V U : Matrix r r ℂ} {p q : r → ℝ} (hJ : Eigen J V p) (hU : U * Uᴴ = 1) (h1 : trace J = 1)
    (hq : ∀ j, 0 ≤ q j) (hs : Supported p q (Uᴴ * V)) :
    Real.exp (-relEnt p q (Uᴴ * V) / 2) ≤ ∑ j, ∑ i, ‖(Uᴴ * V) j i‖ ^ 2 * (Real.sqrt (p i) * Real.sqrt (q j)) := by
  have hc : (Uᴴ * V)ᴴ * (Uᴴ * V) = 1 := by
    rw [conjTranspose_mul, conjTranspose_conjTranspose, Matrix.mul_assoc, ← Matrix.mul_assoc U, hU, Matrix.one_mul,
      hJ.left]
  have hp1 : ∑ i, p i = 1 := by
    have := eigen_trace hJ
    rw [h1] at this
    exact_mod_cast this.symm
  have hw1 : ∑ z : r × r, ‖(Uᴴ * V) z.1 z.2‖ ^ 2 * p z.2 = 1 := by
    rw [Fintype.sum_prod_type, Finset.sum_comm]
    simp only [← Finset.sum_mul, weights_col hc, one_mul, hp1]
  have key := convexOn_exp.map_sum_le (t := (Finset.univ : Finset (r × r)))
    (w := fun z => ‖(Uᴴ * V) z.1 z.2‖ ^ 2 * p z.2) (p := fun z => (Real.log (q z.1) - Real.log (p z.2)) / 2)
    (fun z _ => mul_nonneg (sq_nonneg _) (hJ.nonneg _)) hw1 (fun _ _ => Set.mem_univ _)
  have e1 : ∑ z : r × r, (‖(Uᴴ * V) z.1 z.2‖ ^ 2 * p z.2) • ((Real.log (q z.1) - Real.log (p z.2)) / 2) =
      -relEnt p q (Uᴴ * V) / 2 := by
    unfold relEnt
    rw [Fintype.sum_prod_type, ← Finset.sum_neg_distrib, Finset.sum_div]
    refine Finset.sum_congr rfl fun j _ => ?_
    rw [← Finset.sum_neg_distrib, Finset.sum_div]
    refine Finset.sum_congr rfl fun i _ => ?_
    rw [smul_eq_mul]
    ring
  rw [e1] at key
  refine key.trans (le_of_eq ?_)
  rw [Fintype.sum_prod_type]
  refine Finset.sum_congr rfl fun j _ => Finset.sum_congr rfl fun i _ => ?_
  rw [smul_eq_mul]
  rcases eq_or_lt_of_le (hJ.nonneg i) with h0 | h0
  · simp [← h0]
  rcases eq_or_lt_of_le (hq j) with h2 | h2
  · rw [hs j i h2.symm, ← h2]; simp
  rw [show (Real.log (q j) - Real.log (p i)) / 2 = Real.log (q j) / 2 - Real.log (p i) / 2 by ring, Real.exp_sub,
    ← Real.log_sqrt h2.le, ← Real.log_sqrt h0.le, Real.exp_log (Real.sqrt_pos.mpr h2), Real.exp_log (Real.sqrt_pos.mpr h0)]
  have h3 := Real.sqrt_pos.mpr h0
  have h4 := Real.mul_self_sqrt h0.le
  rw [mul_assoc]
  congr 1
  rw [mul_div_assoc', div_eq_iff h3.ne']
  calc p i * Real.sqrt (q j) = (Real.sqrt (p i) * Real.sqrt (p i)) * Real.sqrt (q j) := by rw [h4]
    _ = _ := by ring

/-- The state of the second part. -/
def secondPart (J : Matrix (R × κ) (R × κ) ℂ) : Matrix κ κ ℂ := fun k k' => ∑ y, J (y, k) (y, k')

theorem trace_firstPart (J : Matrix (R × κ) (R × κ) ℂ) (A : Matrix R R ℂ) :
    trace (J * (A ⊗ₖ (1 : Matrix κ κ ℂ))) = trace (firstPart J * A) := by
  simp only [trace, diag_apply, Matrix.mul_apply, Fintype.sum_prod_type, kroneckerMap_apply, Matrix.one_apply, mul_ite, mul_one,
    mul_zero, firstPart, Finset.sum_mul, Finset.sum_ite_eq', Finset.mem_univ, if_true]
  refine Finset.sum_congr rfl fun y _ => ?_
  rw [Finset.sum_comm]

theorem trace_secondPart (J : Matrix (R × κ) (R × κ) ℂ) (A : Matrix κ κ ℂ) :
    trace (J * ((1 : Matrix R R ℂ) ⊗ₖ A)) = trace (secondPart J * A) := by
  simp only [trace, diag_apply, Matrix.mul_apply, Fintype.sum_prod_type_right, kroneckerMap_apply, Matrix.one_apply, ite_mul, one_mul,
    mul_ite, mul_zero, zero_mul, secondPart, Finset.sum_mul, Finset.sum_ite_eq', Finset.mem_univ, if_true]
  refine Finset.sum_congr rfl fun y _ => ?_
  rw [Finset.sum_comm]

/-- Eigenvectors of a product. -/
theorem eigen_kron {A U : Matrix R R ℂ} {B W : Matrix κ κ ℂ} {u : R → ℝ} {v : κ → ℝ} (hA : Eigen A U u) (hB : Eigen B W v) :
    Eigen (A ⊗ₖ B) (U ⊗ₖ W) (fun z => u z.1 * v z.2) := by
  refine ⟨?_, ?_, ?_, fun z => mul_nonneg (hA.nonneg _) (hB.nonneg _)⟩
  · rw [conjTranspose_kronecker, ← mul_kronecker_mul, hA.left, hB.left, one_kronecker_one]
  · rw [conjTranspose_kronecker, ← mul_kronecker_mul, hA.right, hB.right, one_kronecker_one]
  · have hd : (diagonal fun z : R × κ => ((u z.1 * v z.2 : ℝ) : ℂ)) =
        diagonal (fun i : R => (u i : ℂ)) ⊗ₖ diagonal (fun i : κ => (v i : ℂ)) := by
      rw [diagonal_kronecker_diagonal]; simp
    rw [hd, conjTranspose_kronecker, ← mul_kronecker_mul, ← mul_kronecker_mul, ← hA.eq, ← hB.eq]

omit [Fintype κ] [Fintype m] [Fintype R] [DecidableEq κ] [DecidableEq m] [DecidableEq R] in
theorem trace_mul_single_one (A : Matrix r r ℂ) (i : r) : trace (A * Matrix.single i i (1 : ℂ)) = A i i := by
  rw [trace, Finset.sum_eq_single i]
  · rw [diag_apply, mul_single_apply_same, mul_one]
  · intro j _ hj
    rw [diag_apply, mul_single_apply_of_ne _ _ _ _ _ hj]
  · simp

theorem eigen_diag {A U : Matrix r r ℂ} {u : r → ℝ} (hA : Eigen A U u) (i : r) : trace (A * (U * Matrix.single i i (1 : ℂ) * Uᴴ)) = (u i : ℂ) := by
  rw [← Matrix.mul_assoc, trace_mul_comm, ← Matrix.mul_assoc, ← Matrix.mul_assoc,
    show Uᴴ * A * U = diagonal (fun i => (u i : ℂ)) by
      rw [hA.eq, show Uᴴ * (U * diagonal (fun i => (u i : ℂ)) * Uᴴ) * U =
        (Uᴴ * U) * diagonal (fun i => (u i : ℂ)) * (Uᴴ * U) by simp only [Matrix.mul_assoc], hA.left, Matrix.one_mul,
        Matrix.mul_one]]
  rw [trace_mul_single_one, diagonal_apply_eq]

/-- The relative entropy of a joint state and the product of its parts. -/
theorem relEnt_parts {J V : Matrix (R × κ) (R × κ) ℂ} {p : R × κ → ℝ} (hJ : Eigen J V p) {U : Matrix R R ℂ} {u : R → ℝ}
    (hU : Eigen (firstPart J) U u) {W : Matrix κ κ ℂ} {v : κ → ℝ} (hW : Eigen (secondPart J) W v) :
    relEnt p (fun z => u z.1 * v z.2) ((U ⊗ₖ W)ᴴ * V) =
      ∑ j, Real.negMulLog (u j) + ∑ j, Real.negMulLog (v j) - ∑ i, Real.negMulLog (p i) ∧
    Supported p (fun z => u z.1 * v z.2) ((U ⊗ₖ W)ᴴ * V) := by
  have hUW := (eigen_kron hU hW).right
  have hpsd : J.PosSemidef := by
    rw [hJ.eq]
    exact (PosSemidef.diagonal fun i => by simpa using hJ.nonneg i).mul_mul_conjTranspose_same V
  set t : R × κ → ℝ := fun z => (((U ⊗ₖ W)ᴴ * J * (U ⊗ₖ W)) z z).re with ht
  have t0 : ∀ z, 0 ≤ t z := fun z =>
    (Complex.le_def.mp ((hpsd.conjTranspose_mul_mul_same (U ⊗ₖ W)).diag_nonneg (i := z))).1
  have hu : ∀ y, ∑ k, t (y, k) = u y := by
    intro y
    have e1 : trace ((U ⊗ₖ W)ᴴ * J * (U ⊗ₖ W) * (Matrix.single y y (1 : ℂ) ⊗ₖ (1 : Matrix κ κ ℂ))) =
        ∑ k, ((U ⊗ₖ W)ᴴ * J * (U ⊗ₖ W)) (y, k) (y, k) := by
      rw [trace_firstPart, trace_mul_single_one]
      rfl
    have e2 : trace ((U ⊗ₖ W)ᴴ * J * (U ⊗ₖ W) * (Matrix.single y y (1 : ℂ) ⊗ₖ (1 : Matrix κ κ ℂ))) = (u y : ℂ) := by
      rw [← eigen_diag hU y, ← trace_firstPart, Matrix.mul_assoc, Matrix.mul_assoc, trace_mul_comm, Matrix.mul_assoc]
      congr 2
      rw [conjTranspose_kronecker, ← mul_kronecker_mul, ← mul_kronecker_mul, Matrix.mul_one, hW.right]
    have e3 := congrArg Complex.re (e1.symm.trans e2)
    rwa [Complex.re_sum, Complex.ofReal_re] at e3
  have hv : ∀ k, ∑ y, t (y, k) = v k := by
    intro k
    have e1 : trace ((U ⊗ₖ W)ᴴ * J * (U ⊗ₖ W) * ((1 : Matrix R R ℂ) ⊗ₖ Matrix.single k k (1 : ℂ))) =
        ∑ y, ((U ⊗ₖ W)ᴴ * J * (U ⊗ₖ W)) (y, k) (y, k) := by
      rw [trace_secondPart, trace_mul_single_one]
      rfl
    have e2 : trace ((U ⊗ₖ W)ᴴ * J * (U ⊗ₖ W) * ((1 : Matrix R R ℂ) ⊗ₖ Matrix.single k k (1 : ℂ))) = (v k : ℂ) := by
      rw [← eigen_diag hW k, ← trace_secondPart, Matrix.mul_assoc, Matrix.mul_assoc, trace_mul_comm, Matrix.mul_assoc]
      congr 2
      rw [conjTranspose_kronecker, ← mul_kronecker_mul, ← mul_kronecker_mul, Matrix.mul_one, hU.right]
    have e3 := congrArg Complex.re (e1.symm.trans e2)
    rwa [Complex.re_sum, Complex.ofReal_re] at e3
  have tz : ∀ y k, u y * v k = 0 → t (y, k) = 0 := by
    intro y k h0
    rcases mul_eq_zero.mp h0 with h0 | h0
    · exact (Finset.sum_eq_zero_iff_of_nonneg (fun k _ => t0 (y, k))).mp ((hu y).trans h0) k (Finset.mem_univ k)
    · exact (Finset.sum_eq_zero_iff_of_nonneg (fun y _ => t0 (y, k))).mp ((hv k).trans h0) y (Finset.mem_univ y)
  constructor
  · have e : ∑ z : R × κ, t z * Real.log (u z.1 * v z.2) = -∑ j, Real.negMulLog (u j) - ∑ j, Real.negMulLog (v j) := by
      have e0 : ∀ z : R × κ, t z * Real.log (u z.1 * v z.2) = t z * Real.log (u z.1) + t z * Real.log (v z.2) := by
        rintro ⟨y, k⟩
        by_cases h0 : u y * v k = 0
        · rw [tz y k h0]; simp
        · rw [Real.log_mul (left_ne_zero_of_mul h0) (right_ne_zero_of_mul h0), mul_add]
      simp only [e0, Finset.sum_add_distrib]
      rw [Fintype.sum_prod_type, Fintype.sum_prod_type_right]
      simp only [← Finset.sum_mul, hu, hv, Real.negMulLog, neg_mul, Finset.sum_neg_distrib, neg_neg]
      ring
    rw [relEnt_eq hJ hUW, e]
    ring
  · rintro ⟨y, k⟩ i h0
    have h2 := tz y k h0
    rw [ht] at h2
    simp only [← weights_row hJ] at h2
    exact (Finset.sum_eq_zero_iff_of_nonneg (fun i _ => mul_nonneg (sq_nonneg _) (hJ.nonneg i))).mp h2 i (Finset.mem_univ i)

/-- The matrix with the square roots of the eigenvalues. -/
theorem eigen_sqrt {A V : Matrix r r ℂ} {p : r → ℝ} (hA : Eigen A V p) :
    ∃ P : Matrix r r ℂ, P = V * diagonal (fun i => ((Real.sqrt (p i) : ℝ) : ℂ)) * Vᴴ ∧ Pᴴ = P ∧ P * P = A := by
  refine ⟨_, rfl, ?_, ?_⟩
  · rw [conjTranspose_mul, conjTranspose_mul, conjTranspose_conjTranspose, diagonal_conjTranspose, Matrix.mul_assoc]
    congr 3
    ext i
    simp
  · rw [show V * diagonal (fun i => ((Real.sqrt (p i) : ℝ) : ℂ)) * Vᴴ * (V * diagonal (fun i => ((Real.sqrt (p i) : ℝ) : ℂ)) * Vᴴ) =
      V * (diagonal (fun i => ((Real.sqrt (p i) : ℝ) : ℂ)) * (Vᴴ * V) * diagonal (fun i => ((Real.sqrt (p i) : ℝ) : ℂ))) * Vᴴ by
        simp only [Matrix.mul_assoc], hA.left, Matrix.mul_one, diagonal_mul_diagonal, hA.eq]
    congr 3
    ext i
    rw [← Complex.ofReal_mul, Real.mul_self_sqrt (hA.nonneg i)]

/-- The overlap of two square roots, in eigenbases. -/
theorem trace_sqrt_mul {U V : Matrix r r ℂ} (p q : r → ℝ) :
    trace ((U * diagonal (fun i => ((Real.sqrt (q i) : ℝ) : ℂ)) * Uᴴ) * (V * diagonal (fun i => ((Real.sqrt (p i) : ℝ) : ℂ)) * Vᴴ)) =
      ((∑ j, ∑ i, ‖(Uᴴ * V) j i‖ ^ 2 * (Real.sqrt (p i) * Real.sqrt (q j)) : ℝ) : ℂ) := by
  rw [show (U * diagonal (fun i => ((Real.sqrt (q i) : ℝ) : ℂ)) * Uᴴ) * (V * diagonal (fun i => ((Real.sqrt (p i) : ℝ) : ℂ)) * Vᴴ) =
    U * (diagonal (fun i => ((Real.sqrt (q i) : ℝ) : ℂ)) * (Uᴴ * V) * diagonal (fun i => ((Real.sqrt (p i) : ℝ) : ℂ)) * Vᴴ) by
      simp only [Matrix.mul_assoc], trace_mul_comm, Matrix.mul_assoc _ Vᴴ U, show Vᴴ * U = (Uᴴ * V)ᴴ by
        rw [conjTranspose_mul, conjTranspose_conjTranspose]]
  rw [trace]
  push_cast
  refine Finset.sum_congr rfl fun j _ => ?_
  rw [diag_apply, Matrix.mul_apply]
  refine Finset.sum_congr rfl fun i _ => ?_
  rw [mul_diagonal, diagonal_mul, conjTranspose_apply, Complex.star_def]
  have := Complex.mul_conj ((Uᴴ * V) j i)
  rw [Complex.normSq_eq_norm_sq] at this
  push_cast at this
  rw [← this]
  ring

/-- The polar decomposition: `T W† = √(T T†)` with a matrix `W` for which `W† W` is a projection. -/
theorem exists_polar (T : Matrix r m ℂ) {V : Matrix r r ℂ} {p : r → ℝ} (h : Eigen (T * Tᴴ) V p) :
    ∃ W : Matrix r m ℂ, T * Wᴴ = V * diagonal (fun i => ((Real.sqrt (p i) : ℝ) : ℂ)) * Vᴴ ∧
      (Wᴴ * W) * (Wᴴ * W) = Wᴴ * W := by
  set D : Matrix r r ℂ := diagonal (fun i => (((Real.sqrt (p i))⁻¹ : ℝ) : ℂ)) with hD
  have hDh : Dᴴ = D := by
    rw [hD, diagonal_conjTranspose]
    congr 1
    ext i
    simp
  set Q : Matrix r r ℂ := V * D * Vᴴ with hQ
  have hQh : Qᴴ = Q := by
    rw [hQ, conjTranspose_mul, conjTranspose_mul, conjTranspose_conjTranspose, hDh, Matrix.mul_assoc]
  have h1 : T * Tᴴ * Q = V * diagonal (fun i => ((Real.sqrt (p i) : ℝ) : ℂ)) * Vᴴ := by
    rw [h.eq, hQ, show V * diagonal (fun i => (p i : ℂ)) * Vᴴ * (V * D * Vᴴ) =
      V * (diagonal (fun i => (p i : ℂ)) * (Vᴴ * V) * D) * Vᴴ by simp only [Matrix.mul_assoc], h.left, Matrix.mul_one, hD,
      diagonal_mul_diagonal]
    congr 3
    ext i
    rw [← Complex.ofReal_mul, ← div_eq_mul_inv, Real.div_sqrt]
  have h2 : Q * (T * Tᴴ * Q) * Q = Q := by
    rw [h1, hQ, show V * D * Vᴴ * (V * diagonal (fun i => ((Real.sqrt (p i) : ℝ) : ℂ)) * Vᴴ) * (V * D * Vᴴ) =
      V * (D * (Vᴴ * V) * diagonal (fun i => ((Real.sqrt (p i) : ℝ) : ℂ)) * (Vᴴ * V) * D) * Vᴴ by
        simp only [Matrix.mul_assoc], h.left, Matrix.mul_one, Matrix.mul_one, hD, diagonal_mul_diagonal, diagonal_mul_diagonal]
    congr 3
    ext i
    rw [← Complex.ofReal_mul, ← Complex.ofReal_mul]
    by_cases h0 : Real.sqrt (p i) = 0
    · simp [h0]
    · rw [inv_mul_cancel₀ h0, one_mul]
  refine ⟨Q * T, ?_, ?_⟩
  · rw [conjTranspose_mul, hQh, ← Matrix.mul_assoc, h1]
  · rw [conjTranspose_mul, hQh]
    calc Tᴴ * Q * (Q * T) * (Tᴴ * Q * (Q * T)) = Tᴴ * Q * (Q * (T * Tᴴ * Q) * Q) * T := by simp only [Matrix.mul_assoc]
      _ = Tᴴ * Q * (Q * T) := by rw [h2]; simp only [Matrix.mul_assoc]

/-- **A recovery exists**: for trace preserving operators `K` and every density matrix some trace preserving `B` has at least the
entanglement fidelity `exp (I - S)`. -/
theorem exists_recovery (K : κ → Matrix m R ℂ) (hK : Spec.TracePreserving K) {ρ : Matrix R R ℂ} (hρ : ρ.PosSemidef)
    (h1 : trace ρ = 1) :
    ∃ B : κ ⊕ m → Matrix R m ℂ, Spec.TracePreserving B ∧
      Real.exp (krausInfo K ρ - specSum Real.negMulLog ρ) ≤ ∑ j, ∑ k, ‖trace (B j * K k * ρ)‖ ^ 2 := by
  obtain ⟨U, u, hU, hu⟩ := exists_eigen hρ.transpose
  obtain ⟨y0⟩ : Nonempty R := by
    by_contra hcon
    rw [not_nonempty_iff] at hcon
    rw [trace, Finset.univ_eq_empty, Finset.sum_empty] at h1
    exact zero_ne_one h1
  obtain ⟨St, hSt, hSh, hSS⟩ := eigen_sqrt hU
  set S : Matrix R R ℂ := Stᵀ with hS
  have hρS : ρ = S * S := by
    rw [hS, ← transpose_mul, hSS, transpose_transpose]
  have hSH : Sᴴ = S := by
    ext i j
    have := congrFun (congrFun hSh j) i
    rw [conjTranspose_apply] at this
    rw [hS, conjTranspose_apply, transpose_apply, transpose_apply, this]
  set T : Matrix (R × κ) m ℂ := Matrix.of fun z b => (K z.2 * S) b z.1 with hT
  set J : Matrix (R × κ) (R × κ) ℂ := T * Tᴴ with hJdef
  have hJ : J.PosSemidef := posSemidef_self_mul_conjTranspose T
  have hJapp : ∀ y k y' k', J (y, k) (y', k') = (S * ((K k')ᴴ * K k) * S) y' y := by
    intro y k y' k'
    rw [hJdef, Matrix.mul_apply, show S * ((K k')ᴴ * K k) * S = (K k' * S)ᴴ * (K k * S) by
      rw [conjTranspose_mul, hSH]; simp only [Matrix.mul_assoc], Matrix.mul_apply]
    refine Finset.sum_congr rfl fun b _ => ?_
    simp only [hT, of_apply, conjTranspose_apply]
    ring
  have hfirst : firstPart J = ρᵀ := by
    ext y y'
    unfold firstPart
    simp only [hJapp]
    rw [← Matrix.sum_apply, ← Matrix.sum_mul, ← Matrix.mul_sum, hK, Matrix.mul_one, ← hρS, transpose_apply]
  have hsecond : secondPart J = Spec.entropyExchange K ρ := by
    ext k k'
    unfold secondPart Spec.entropyExchange
    simp only [hJapp]
    change trace (S * ((K k')ᴴ * K k) * S) = _
    rw [trace_mul_comm, ← Matrix.mul_assoc, ← hρS, ← Matrix.mul_assoc, trace_mul_comm, ← Matrix.mul_assoc]
  have hex := Spec.exchange_posSemidef K hρ
  have hout := Spec.applyKraus_posSemidef K hρ
  obtain ⟨V, p, hV, hp⟩ := exists_eigen hJ
  obtain ⟨U₂, v, hU₂, hv⟩ := exists_eigen hex
  have hJ1 : trace J = 1 := by
    have : trace J = trace (firstPart J) := by
      have := trace_firstPart J (1 : Matrix R R ℂ)
      rwa [one_kronecker_one, Matrix.mul_one, Matrix.mul_one] at this
    rw [this, hfirst, trace_transpose, h1]
  -- the entropies
  have s1 : specSum Real.negMulLog ρ = ∑ j, Real.negMulLog (u j) :=
    specSum_eq hρ (by rw [← charpoly_transpose]; exact hu) Real.negMulLog_zero
  have s2 : specSum Real.negMulLog (Spec.entropyExchange K ρ) = ∑ j, Real.negMulLog (v j) :=
    specSum_eq hex hv Real.negMulLog_zero
  have hTT : (Spec.applyKraus K ρ) = (Tᴴ * T)ᵀ := by
    ext b b'
    rw [transpose_apply, Matrix.mul_apply, Fintype.sum_prod_type_right]
    unfold Spec.applyKraus
    rw [Matrix.sum_apply]
    refine Finset.sum_congr rfl fun k _ => ?_
    rw [show K k * ρ * (K k)ᴴ = (K k * S) * (K k * S)ᴴ by
      rw [conjTranspose_mul, hSH, hρS]; simp only [Matrix.mul_assoc], Matrix.mul_apply]
    refine Finset.sum_congr rfl fun y _ => ?_
    simp only [hT, of_apply, conjTranspose_apply]
    ring
  have s3 : specSum Real.negMulLog (Spec.applyKraus K ρ) = ∑ j, Real.negMulLog (p j) := by
    obtain ⟨-, w, -, hw⟩ := exists_eigen hout
    rw [specSum_eq hout hw Real.negMulLog_zero]
    refine sum_eq_of_charpoly (p := Fintype.card (R × κ)) (q := Fintype.card m) hw hp ?_ _ Real.negMulLog_zero
    rw [hTT, charpoly_transpose]
    exact charpoly_mul_comm' Tᴴ T
  obtain ⟨hD, hsup⟩ := relEnt_parts hV (by rw [hfirst]; exact hU) (by rw [hsecond]; exact hU₂)
  have hov := overlap_ge hV (eigen_kron hU hU₂).right hJ1 (fun z => mul_nonneg (hU.nonneg _) (hU₂.nonneg _)) hsup
  obtain ⟨Q, hQ, hQh, hQQ⟩ := eigen_sqrt hU₂
  obtain ⟨W, hW1, hW2⟩ := exists_polar T hV
  set P : Matrix (R × κ) (R × κ) ℂ := V * diagonal (fun i => ((Real.sqrt (p i) : ℝ) : ℂ)) * Vᴴ with hP
  set E : Matrix m m ℂ := 1 - Wᴴ * W with hE
  have hEE : E * Eᴴ = E := by
    have hEh : Eᴴ = E := by
      rw [hE, conjTranspose_sub, conjTranspose_one, conjTranspose_mul, conjTranspose_conjTranspose]
    rw [hEh, hE, Matrix.sub_mul, Matrix.mul_sub, Matrix.mul_sub, Matrix.one_mul, Matrix.mul_one, Matrix.one_mul, hW2]
    abel
  let B : κ ⊕ m → Matrix R m ℂ := Sum.elim (fun k => Matrix.of fun y b => star (W (y, k) b))
    (fun c => Matrix.of fun y b => if y = y0 then E b c else 0)
  refine ⟨B, ?_, ?_⟩
  · unfold Spec.TracePreserving
    rw [Fintype.sum_sum_type]
    have a1 : ∑ k, (B (Sum.inl k))ᴴ * B (Sum.inl k) = (Wᴴ * W)ᵀ := by
      ext b b'
      rw [Matrix.sum_apply, transpose_apply, Matrix.mul_apply, Fintype.sum_prod_type_right]
      refine Finset.sum_congr rfl fun k _ => ?_
      rw [Matrix.mul_apply]
      refine Finset.sum_congr rfl fun y _ => ?_
      simp only [B, Sum.elim_inl, conjTranspose_apply, of_apply, star_star]
      ring
    have a2 : ∑ c, (B (Sum.inr c))ᴴ * B (Sum.inr c) = Eᵀ := by
      ext b b'
      rw [Matrix.sum_apply, transpose_apply]
      conv_rhs => rw [← hEE]
      rw [Matrix.mul_apply]
      refine Finset.sum_congr rfl fun c _ => ?_
      rw [Matrix.mul_apply, Finset.sum_eq_single y0]
      · simp only [B, Sum.elim_inr, conjTranspose_apply, of_apply, if_true]
        ring
      · intro y _ hy
        simp [B, hy]
      · simp
    rw [a1, a2, ← transpose_add, hE, add_sub_cancel, transpose_one]
  · have hG : ∀ k' k, trace (B (Sum.inl k') * K k * ρ) = ∑ y', ∑ y, S y y' * P (y, k) (y', k') := by
      intro k' k
      rw [hρS, show B (Sum.inl k') * K k * (S * S) = B (Sum.inl k') * (K k * S) * S by simp only [Matrix.mul_assoc], trace]
      refine Finset.sum_congr rfl fun y' _ => ?_
      rw [diag_apply, Matrix.mul_apply]
      refine Finset.sum_congr rfl fun y _ => ?_
      rw [mul_comm, ← hW1, Matrix.mul_apply, Matrix.mul_apply]
      congr 1
      refine Finset.sum_congr rfl fun b _ => ?_
      simp only [B, Sum.elim_inl, of_apply, conjTranspose_apply, hT]
      ring
    have hA : ∑ z : κ × κ, Q z.1 z.2 * trace (B (Sum.inl z.1) * K z.2 * ρ) = trace ((St ⊗ₖ Q) * P) := by
      rw [trace, Fintype.sum_prod_type]
      simp only [diag_apply, Matrix.mul_apply, hG, kroneckerMap_apply]
      rw [Fintype.sum_prod_type_right]
      refine Finset.sum_congr rfl fun k' _ => ?_
      simp only [Finset.mul_sum]
      rw [Finset.sum_comm]
      refine Finset.sum_congr rfl fun y' _ => ?_
      rw [Fintype.sum_prod_type_right]
      refine Finset.sum_congr rfl fun k _ => Finset.sum_congr rfl fun y _ => ?_
      rw [hS, transpose_apply]
      ring
    have hkron : St ⊗ₖ Q = (U ⊗ₖ U₂) * diagonal (fun z : R × κ => ((Real.sqrt (u z.1 * v z.2) : ℝ) : ℂ)) * (U ⊗ₖ U₂)ᴴ := by
      have hd : (diagonal fun z : R × κ => ((Real.sqrt (u z.1 * v z.2) : ℝ) : ℂ)) =
          diagonal (fun i : R => ((Real.sqrt (u i) : ℝ) : ℂ)) ⊗ₖ diagonal (fun i : κ => ((Real.sqrt (v i) : ℝ) : ℂ)) := by
        rw [diagonal_kronecker_diagonal]
        congr 1
        ext z
        rw [Real.sqrt_mul (hU.nonneg _), Complex.ofReal_mul]
      rw [hd, conjTranspose_kronecker, ← mul_kronecker_mul, ← mul_kronecker_mul, ← hSt, ← hQ]
    rw [hkron, hP, trace_sqrt_mul] at hA
    set a : ℝ := ∑ j, ∑ i, ‖((U ⊗ₖ U₂)ᴴ * V) j i‖ ^ 2 * (Real.sqrt (p i) * Real.sqrt (u j.1 * v j.2)) with ha
    have a0 : 0 < a := lt_of_lt_of_le (Real.exp_pos _) hov
    have hQn : ∑ z : κ × κ, ‖star (Q z.1 z.2)‖ ^ 2 = 1 := by
      have e := trace_normSq Q
      rw [hQh, hQQ, Spec.exchange_trace, Spec.applyKraus_trace _ hK, h1, Complex.one_re] at e
      rw [Fintype.sum_prod_type]
      simp only [norm_star]
      exact e.symm
    have hcs := cauchy_norm (fun z : κ × κ => star (Q z.1 z.2)) (fun z => trace (B (Sum.inl z.1) * K z.2 * ρ))
    simp only [star_star] at hcs
    rw [hA, hQn, Real.sqrt_one, one_mul, Complex.norm_real, Real.norm_of_nonneg a0.le] at hcs
    have hF0 : 0 ≤ ∑ z : κ × κ, ‖trace (B (Sum.inl z.1) * K z.2 * ρ)‖ ^ 2 := Finset.sum_nonneg fun _ _ => sq_nonneg _
    have hsq : a ^ 2 ≤ ∑ z : κ × κ, ‖trace (B (Sum.inl z.1) * K z.2 * ρ)‖ ^ 2 := by
      rw [← Real.sq_sqrt hF0]
      exact pow_le_pow_left₀ a0.le hcs 2
    have hexp : Real.exp (krausInfo K ρ - specSum Real.negMulLog ρ) ≤ a ^ 2 := by
      have e : krausInfo K ρ - specSum Real.negMulLog ρ =
          -relEnt p (fun z => u z.1 * v z.2) ((U ⊗ₖ U₂)ᴴ * V) / 2 + -relEnt p (fun z => u z.1 * v z.2) ((U ⊗ₖ U₂)ᴴ * V) / 2 := by
        rw [hD]
        unfold krausInfo
        rw [s1, s2, s3]
        ring
      rw [e, Real.exp_add, sq]
      exact mul_le_mul hov hov (Real.exp_pos _).le a0.le
    refine hexp.trans (hsq.trans ?_)
    rw [Fintype.sum_prod_type, Fintype.sum_sum_type]
    exact le_add_of_nonneg_right (Finset.sum_nonneg fun _ _ => Finset.sum_nonneg fun _ _ => sq_nonneg _)

end Finite

end PyQ
