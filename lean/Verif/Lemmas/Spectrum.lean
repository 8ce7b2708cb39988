import Verif.Lemmas.Entropy
import Mathlib.Analysis.SpecialFunctions.Log.NegMulLog
import Mathlib.Analysis.Convex.Jensen

/-! Entropies of the three parts of a pure state. -/

namespace PyQ

open Matrix Polynomial
open scoped ComplexOrder

section Finite

variable {ι E B R : Type} [Fintype ι] [Fintype E] [Fintype B] [Fintype R]
  [DecidableEq ι] [DecidableEq E] [DecidableEq B] [DecidableEq R]

/-- The eigenvalues of two matrices agree up to zeros: sums of `f` with `f 0 = 0` agree. -/
theorem sum_eq_of_charpoly {A : Matrix E E ℂ} {A' : Matrix B B ℂ} {w : E → ℝ} {w' : B → ℝ} {p q : ℕ}
    (hA : A.charpoly = ∏ i, (X - C ((w i : ℝ) : ℂ))) (hA' : A'.charpoly = ∏ i, (X - C ((w' i : ℝ) : ℂ)))
    (h : (X : ℂ[X]) ^ p * A.charpoly = X ^ q * A'.charpoly) (f : ℝ → ℝ) (hf : f 0 = 0) :
    ∑ i, f (w i) = ∑ i, f (w' i) := by
  rw [hA, hA'] at h
  have hne : ∀ {κ : Type} [Fintype κ] (w : κ → ℝ), (∏ i, (X - C ((w i : ℝ) : ℂ))) ≠ 0 := by
    intro κ _ w
    exact Finset.prod_ne_zero_iff.mpr fun i _ => X_sub_C_ne_zero _
  have hroots : ∀ {κ : Type} [Fintype κ] (w : κ → ℝ),
      (∏ i, (X - C ((w i : ℝ) : ℂ))).roots = Finset.univ.val.map fun i => ((w i : ℝ) : ℂ) := by
    intro κ _ w
    rw [Polynomial.roots_prod _ _ (hne w)]
    simp only [roots_X_sub_C, Multiset.bind_singleton]
  have hr := congrArg Polynomial.roots h
  rw [roots_mul (mul_ne_zero (pow_ne_zero _ X_ne_zero) (hne _)),
    roots_mul (mul_ne_zero (pow_ne_zero _ X_ne_zero) (hne _)), hroots, hroots, roots_X_pow, roots_X_pow] at hr
  have hs := congrArg (fun s => (s.map fun z : ℂ => f z.re).sum) hr
  simp only [Multiset.map_add, Multiset.sum_add, Multiset.map_nsmul, Multiset.sum_nsmul, Multiset.map_singleton,
    Multiset.sum_singleton, Complex.zero_re, hf, smul_zero, zero_add, Multiset.map_map,
    Function.comp_def, Complex.ofReal_re] at hs
  exact hs

/-- A Hermitian matrix is diagonalised by a unitary. -/
theorem hermitian_diag (A : Matrix ι ι ℂ) (hA : A.IsHermitian) :
    ∃ (w : ι → ℝ) (V : Matrix ι ι ℂ), Vᴴ * V = 1 ∧ V * Vᴴ = 1 ∧ A * V = V * diagonal (fun i => (w i : ℂ)) ∧
      A.charpoly = ∏ i, (X - C ((w i : ℝ) : ℂ)) := by
  let U : Matrix ι ι ℂ := hA.eigenvectorUnitary
  have hU : Uᴴ * U = 1 := Unitary.coe_star_mul_self hA.eigenvectorUnitary
  have hU' : U * Uᴴ = 1 := mul_eq_one_comm.mp hU
  have hAU : A * U = U * diagonal fun i => (hA.eigenvalues i : ℂ) := by
    ext i j
    have h := congrFun (hA.mulVec_eigenvectorBasis j) i
    rw [Matrix.mul_apply, mul_diagonal]
    change ∑ k, A i k * (hA.eigenvectorBasis j) k = (hA.eigenvectorBasis j) i * _
    change ∑ k, A i k * (hA.eigenvectorBasis j) k = _ at h
    rw [h, mul_comm]
    rfl
  refine ⟨hA.eigenvalues, U, hU, hU', hAU, ?_⟩
  have : A = U * diagonal (fun i => (hA.eigenvalues i : ℂ)) * Uᴴ := by
    rw [← hAU, Matrix.mul_assoc, hU', Matrix.mul_one]
  refine (congrArg charpoly this).trans ?_
  rw [Matrix.charpoly_mul_comm, ← Matrix.mul_assoc, hU, Matrix.one_mul, charpoly_diagonal]

/-- The entropy of the spectrum is at most the entropy of the diagonal. -/
theorem schur_entropy (A : Matrix ι ι ℂ) (hA : A.PosSemidef) (w : ι → ℝ)
    (hw : A.charpoly = ∏ i, (X - C ((w i : ℝ) : ℂ))) :
    ∑ i, Real.negMulLog (w i) ≤ ∑ i, Real.negMulLog ((A i i).re) := by
  obtain ⟨v, V, hV, hV', hAV, hv⟩ := hermitian_diag A hA.isHermitian
  rw [sum_eq_of_charpoly (p := 0) (q := 0) hw hv rfl Real.negMulLog Real.negMulLog_zero]
  have hD : diagonal (fun i => ((v i : ℝ) : ℂ)) = Vᴴ * A * V := by
    rw [Matrix.mul_assoc, hAV, ← Matrix.mul_assoc, hV, Matrix.one_mul]
  have hv0 : ∀ i, 0 ≤ v i := by
    have hP : (diagonal (fun i => ((v i : ℝ) : ℂ))).PosSemidef := by
      rw [hD]; exact hA.conjTranspose_mul_mul_same V
    rw [posSemidef_diagonal_iff] at hP
    intro i; exact_mod_cast hP i
  have hdec : A = V * diagonal (fun i => ((v i : ℝ) : ℂ)) * Vᴴ := by
    rw [← hAV, Matrix.mul_assoc, hV', Matrix.mul_one]
  have hdiag : ∀ i, (A i i).re = ∑ j, Complex.normSq (V i j) * v j := by
    intro i
    rw [hdec, Matrix.mul_apply, Complex.re_sum]
    refine Finset.sum_congr rfl fun j _ => ?_
    rw [mul_diagonal, conjTranspose_apply, mul_right_comm]
    change (V i j * (starRingEnd ℂ) (V i j) * _).re = _
    rw [Complex.mul_conj, ← Complex.ofReal_mul, Complex.ofReal_re]
  have hrow : ∀ i, ∑ j, Complex.normSq (V i j) = 1 := by
    intro i
    have := congrFun (congrFun hV' i) i
    rw [Matrix.mul_apply, Matrix.one_apply_eq] at this
    have h2 := congrArg Complex.re this
    rw [Complex.re_sum, Complex.one_re] at h2
    rw [← h2]
    refine Finset.sum_congr rfl fun j _ => ?_
    rw [conjTranspose_apply]
    change _ = (V i j * (starRingEnd ℂ) (V i j)).re
    rw [Complex.mul_conj, Complex.ofReal_re]
  have hcol : ∀ j, ∑ i, Complex.normSq (V i j) = 1 := by
    intro j
    have := congrFun (congrFun hV j) j
    rw [Matrix.mul_apply, Matrix.one_apply_eq] at this
    have h2 := congrArg Complex.re this
    rw [Complex.re_sum, Complex.one_re] at h2
    rw [← h2]
    refine Finset.sum_congr rfl fun i _ => ?_
    rw [conjTranspose_apply, mul_comm]
    change _ = (V i j * (starRingEnd ℂ) (V i j)).re
    rw [Complex.mul_conj, Complex.ofReal_re]
  calc ∑ j, Real.negMulLog (v j) = ∑ j, ∑ i, Complex.normSq (V i j) * Real.negMulLog (v j) := by
        refine Finset.sum_congr rfl fun j _ => ?_
        rw [← Finset.sum_mul, hcol, one_mul]
    _ = ∑ i, ∑ j, Complex.normSq (V i j) * Real.negMulLog (v j) := Finset.sum_comm
    _ ≤ ∑ i, Real.negMulLog ((A i i).re) := by
        refine Finset.sum_le_sum fun i _ => ?_
        rw [hdiag]
        have := Real.concaveOn_negMulLog.le_map_sum (t := Finset.univ) (w := fun j => Complex.normSq (V i j)) (p := v)
          (fun j _ => Complex.normSq_nonneg _) (hrow i) (fun j _ => hv0 j)
        simpa only [smul_eq_mul] using this

/-- Subadditivity of the Shannon entropy. -/
theorem shannon_subadd (t : E → R → ℝ) (ht : ∀ i m, 0 ≤ t i m) (q : E → ℝ) (p : R → ℝ) (hq : ∀ i, ∑ m, t i m = q i)
    (hp : ∀ m, ∑ i, t i m = p m) (h1 : ∑ m, p m = 1) :
    ∑ i, ∑ m, Real.negMulLog (t i m) ≤ ∑ i, Real.negMulLog (q i) + ∑ m, Real.negMulLog (p m) := by
  have hq0 : ∀ i, 0 ≤ q i := fun i => by rw [← hq]; exact Finset.sum_nonneg fun m _ => ht i m
  have hp0 : ∀ m, 0 ≤ p m := fun m => by rw [← hp]; exact Finset.sum_nonneg fun i _ => ht i m
  have hq1 : ∑ i, q i = 1 := by
    rw [← h1]; simp only [← hq, ← hp]; exact Finset.sum_comm
  have key : ∀ i m, Real.negMulLog (t i m) ≤ -(t i m * Real.log (q i)) - t i m * Real.log (p m) + (q i * p m - t i m) := by
    intro i m
    rcases eq_or_lt_of_le (ht i m) with h0 | h0
    · rw [← h0]; simp; exact mul_nonneg (hq0 i) (hp0 m)
    · have hqi : 0 < q i := by
        rw [← hq]; exact lt_of_lt_of_le h0 (Finset.single_le_sum (fun m _ => ht i m) (Finset.mem_univ m))
      have hpm : 0 < p m := by
        rw [← hp]; exact lt_of_lt_of_le h0 (Finset.single_le_sum (f := fun i => t i m) (fun i _ => ht i m) (Finset.mem_univ i))
      have hl := Real.log_le_sub_one_of_pos (x := q i * p m / t i m) (by positivity)
      rw [Real.log_div (by positivity) h0.ne', Real.log_mul hqi.ne' hpm.ne'] at hl
      have := mul_le_mul_of_nonneg_left hl h0.le
      rw [mul_sub (t i m) (_ / _) 1, mul_div_cancel₀ _ h0.ne'] at this
      unfold Real.negMulLog
      nlinarith
  have hsum : ∑ i, ∑ m, Real.negMulLog (t i m) ≤
      ∑ i, ∑ m, (-(t i m * Real.log (q i)) - t i m * Real.log (p m) + (q i * p m - t i m)) :=
    Finset.sum_le_sum fun i _ => Finset.sum_le_sum fun m _ => key i m
  refine hsum.trans (le_of_eq ?_)
  simp only [Finset.sum_add_distrib, Finset.sum_sub_distrib, Finset.sum_neg_distrib]
  have e1 : ∑ i, ∑ m, t i m * Real.log (q i) = ∑ i, q i * Real.log (q i) := by
    refine Finset.sum_congr rfl fun i _ => ?_
    rw [← Finset.sum_mul, hq]
  have e2 : ∑ i, ∑ m, t i m * Real.log (p m) = ∑ m, p m * Real.log (p m) := by
    rw [Finset.sum_comm]
    refine Finset.sum_congr rfl fun m _ => ?_
    rw [← Finset.sum_mul, hp]
  have e3 : ∑ i, ∑ m, q i * p m = 1 := by
    simp only [← Finset.mul_sum, h1, mul_one, hq1]
  have e4 : ∑ i, ∑ m, t i m = 1 := by simp only [hq, hq1]
  rw [e1, e2, e3, e4]
  unfold Real.negMulLog
  simp only [neg_mul, Finset.sum_neg_distrib]
  ring

theorem sum_reorder (f : R → B → E → E → ℂ) :
    ∑ m, ∑ b, ∑ i', ∑ i, f m b i' i = ∑ i', ∑ i, ∑ b, ∑ m, f m b i' i := by
  calc ∑ m, ∑ b, ∑ i', ∑ i, f m b i' i = ∑ b, ∑ m, ∑ i', ∑ i, f m b i' i := Finset.sum_comm
    _ = ∑ b, ∑ i', ∑ m, ∑ i, f m b i' i := Finset.sum_congr rfl fun b _ => Finset.sum_comm
    _ = ∑ b, ∑ i', ∑ i, ∑ m, f m b i' i :=
        Finset.sum_congr rfl fun b _ => Finset.sum_congr rfl fun i' _ => Finset.sum_comm
    _ = ∑ i', ∑ b, ∑ i, ∑ m, f m b i' i := Finset.sum_comm
    _ = ∑ i', ∑ i, ∑ b, ∑ m, f m b i' i := Finset.sum_congr rfl fun i' _ => Finset.sum_comm

/-- For a pure state of three parts, the entropy of one part is at most the sum of the entropies of the other two.  The
state of the third part is diagonal here. -/
theorem pure_subadd (T : E → B → R → ℂ) (p : R → ℝ) (h1 : ∑ m, p m = 1)
    (hR : ∀ m, ∑ i, ∑ b, T i b m * star (T i b m) = (p m : ℂ))
    (q : E → ℝ) (hE : (Matrix.of fun i i' => ∑ b, ∑ m, T i b m * star (T i' b m)).charpoly =
      ∏ i, (X - C ((q i : ℝ) : ℂ)))
    (w : B → ℝ) (hB : (Matrix.of fun b b' => ∑ i, ∑ m, T i b m * star (T i b' m)).charpoly =
      ∏ b, (X - C ((w b : ℝ) : ℂ))) :
    ∑ b, Real.negMulLog (w b) ≤ ∑ i, Real.negMulLog (q i) + ∑ m, Real.negMulLog (p m) := by
  set ρE : Matrix E E ℂ := Matrix.of fun i i' => ∑ b, ∑ m, T i b m * star (T i' b m) with hρE
  have hherm : ρE.IsHermitian := by
    ext i i'
    rw [conjTranspose_apply]
    simp only [hρE, Matrix.of_apply, star_sum, star_mul', star_star]
    exact Finset.sum_congr rfl fun b _ => Finset.sum_congr rfl fun m _ => mul_comm _ _
  obtain ⟨v, V, hV, hV', hAV, hv⟩ := hermitian_diag ρE hherm
  rw [sum_eq_of_charpoly (p := 0) (q := 0) hE hv rfl Real.negMulLog Real.negMulLog_zero]
  -- the rotated state
  let N : Matrix (E × R) B ℂ := fun jm b => ∑ i, star (V i jm.1) * T i b jm.2
  have hVV : ∀ i i', ∑ j, V i j * star (V i' j) = if i = i' then 1 else 0 := by
    intro i i'
    have := congrFun (congrFun hV' i) i'
    rw [Matrix.mul_apply, Matrix.one_apply] at this
    exact this
  have hrot : ∀ (x y : E → ℂ), ∑ j, (∑ i, star (V i j) * x i) * star (∑ i, star (V i j) * y i) = ∑ i, x i * star (y i) := by
    intro x y
    calc ∑ j, (∑ i, star (V i j) * x i) * star (∑ i, star (V i j) * y i)
        = ∑ j, ∑ i, ∑ i', (x i * star (y i')) * (V i' j * star (V i j)) := by
          refine Finset.sum_congr rfl fun j _ => ?_
          rw [star_sum, Finset.sum_mul_sum]
          refine Finset.sum_congr rfl fun i _ => Finset.sum_congr rfl fun i' _ => ?_
          rw [star_mul', star_star]; ring
      _ = ∑ i, ∑ i', (x i * star (y i')) * ∑ j, V i' j * star (V i j) := by
          rw [Finset.sum_comm]
          refine Finset.sum_congr rfl fun i _ => ?_
          rw [Finset.sum_comm]
          refine Finset.sum_congr rfl fun i' _ => ?_
          rw [Finset.mul_sum]
      _ = ∑ i, x i * star (y i) := by
          refine Finset.sum_congr rfl fun i _ => ?_
          simp only [hVV]
          simp
  have hNN : Nᴴ * N = (Matrix.of fun b b' => ∑ i, ∑ m, T i b m * star (T i b' m))ᵀ := by
    ext b b'
    rw [Matrix.mul_apply, Fintype.sum_prod_type_right, transpose_apply, Matrix.of_apply]
    refine Eq.trans ?_ Finset.sum_comm
    refine Finset.sum_congr rfl fun m _ => ?_
    rw [← hrot (fun i => T i b' m) (fun i => T i b m)]
    refine Finset.sum_congr rfl fun j _ => ?_
    rw [conjTranspose_apply, mul_comm]
  have hPSD : (N * Nᴴ).PosSemidef := posSemidef_self_mul_conjTranspose N
  obtain ⟨u, -, -, -, -, hu⟩ := hermitian_diag (N * Nᴴ) hPSD.isHermitian
  have hs : ∑ b, Real.negMulLog (w b) = ∑ a, Real.negMulLog (u a) := by
    refine sum_eq_of_charpoly (p := Fintype.card (E × R)) (q := Fintype.card B) hB hu ?_ _ Real.negMulLog_zero
    rw [← charpoly_transpose, ← hNN]
    exact charpoly_mul_comm' Nᴴ N
  rw [hs]
  refine (schur_entropy _ hPSD u hu).trans ?_
  rw [Fintype.sum_prod_type]
  have hdiag : ∀ j m, (N * Nᴴ) (j, m) (j, m) = ∑ b, N (j, m) b * star (N (j, m) b) := by
    intro j m
    rw [Matrix.mul_apply]; rfl
  have ht : ∀ j m, 0 ≤ ((N * Nᴴ) (j, m) (j, m)).re := by
    intro j m
    have := hPSD.diag_nonneg (i := (j, m))
    exact (Complex.le_def.mp this).1
  refine shannon_subadd (fun j m => ((N * Nᴴ) (j, m) (j, m)).re) ht v p ?_ ?_ h1
  · intro j
    rw [← Complex.re_sum]
    have : ∑ m, (N * Nᴴ) (j, m) (j, m) = (Vᴴ * ρE * V) j j := by
      simp only [hdiag]
      rw [Matrix.mul_apply]
      simp only [Matrix.mul_apply, conjTranspose_apply, hρE, Matrix.of_apply]
      calc ∑ m, ∑ b, N (j, m) b * star (N (j, m) b)
          = ∑ m, ∑ b, ∑ i', ∑ i, star (V i j) * (T i b m * star (T i' b m)) * V i' j := by
            refine Finset.sum_congr rfl fun m _ => Finset.sum_congr rfl fun b _ => ?_
            simp only [N]
            rw [star_sum, Finset.sum_mul_sum, Finset.sum_comm]
            refine Finset.sum_congr rfl fun i _ => Finset.sum_congr rfl fun i' _ => ?_
            rw [star_mul', star_star]; ring
        _ = ∑ i', ∑ i, ∑ b, ∑ m, star (V i j) * (T i b m * star (T i' b m)) * V i' j := by
            exact sum_reorder _
        _ = _ := by
            refine Finset.sum_congr rfl fun i' _ => ?_
            rw [Finset.sum_mul]
            refine Finset.sum_congr rfl fun i _ => ?_
            simp only [Finset.mul_sum, Finset.sum_mul]
    rw [this, Matrix.mul_assoc, hAV, ← Matrix.mul_assoc, hV, Matrix.one_mul, diagonal_apply_eq, Complex.ofReal_re]
  · intro m
    rw [← Complex.re_sum]
    have : ∑ j, (N * Nᴴ) (j, m) (j, m) = (p m : ℂ) := by
      simp only [hdiag]
      rw [Finset.sum_comm, ← hR m]
      refine Eq.trans ?_ Finset.sum_comm
      refine Finset.sum_congr rfl fun b _ => ?_
      exact hrot (fun i => T i b m) (fun i => T i b m)
    rw [this, Complex.ofReal_re]

end Finite

end PyQ
