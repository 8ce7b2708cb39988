import Verif.Lemmas.LinAlg
import Verif.Lemmas.Choi
import Verif.Lemmas.KrausCompose
import Mathlib.Algebra.Polynomial.Roots

/-!
# Entropies depend on the non-zero eigenvalues only
-/

namespace PyQ

open Matrix Polynomial
open scoped ComplexOrder

/-- One term of the entropy. -/
noncomputable def entropyTerm (cut x : ℝ) : ℝ := if cut < |x| then x * Real.logb 2 x else 0

theorem entropyOne_eq (eig : Eigvalsh) (cut : ℝ) (M : Arr ℂ) (n : ℕ) (h : M.rows = n) :
    entropyOne eig cut M = -∑ i : Fin n, entropyTerm cut (eig M i) := by
  unfold entropyOne entropyTerm
  rw [h, Finset.sum_range]

theorem entropyTerm_zero {cut : ℝ} (h : 0 ≤ cut) : entropyTerm cut 0 = 0 := by
  unfold entropyTerm
  rw [if_neg (by rw [abs_zero]; exact not_lt.mpr h)]

theorem roots_prod_real {n : ℕ} (w : Fin n → ℝ) :
    (∏ i, (X - C ((w i : ℝ) : ℂ))).roots = Finset.univ.val.map fun i => ((w i : ℝ) : ℂ) := by
  rw [Polynomial.roots_prod]
  · simp only [roots_X_sub_C, Multiset.bind_singleton]
  · exact Finset.prod_ne_zero_iff.mpr fun i _ => X_sub_C_ne_zero _

/-- Two Hermitian matrices with the same non-zero eigenvalues have the same entropy. -/
theorem entropy_eq_of_charpoly {eig : Eigvalsh} (heig : eig.Correct) {cut : ℝ} (hcut : 0 ≤ cut) {A B : Arr ℂ}
    {n m p q : ℕ} (hA1 : A.rows = n) (hA2 : A.cols = n) (hB1 : B.rows = m) (hB2 : B.cols = m)
    (hA : (A.mat n n).IsHermitian) (hB : (B.mat m m).IsHermitian)
    (h : (X : ℂ[X]) ^ p * (A.mat n n).charpoly = X ^ q * (B.mat m m).charpoly) :
    entropyOne eig cut A = entropyOne eig cut B := by
  rw [heig A n hA1 hA2 hA, heig B m hB1 hB2 hB] at h
  have hr := congrArg Polynomial.roots h
  have hne : ∀ {k : ℕ} (w : Fin k → ℝ), (∏ i, (X - C ((w i : ℝ) : ℂ))) ≠ 0 := by
    intro k w
    exact Finset.prod_ne_zero_iff.mpr fun i _ => X_sub_C_ne_zero _
  rw [roots_mul (mul_ne_zero (pow_ne_zero _ X_ne_zero) (hne _)),
    roots_mul (mul_ne_zero (pow_ne_zero _ X_ne_zero) (hne _)), roots_prod_real, roots_prod_real,
    roots_X_pow, roots_X_pow] at hr
  have hs := congrArg (fun s => (s.map fun z : ℂ => entropyTerm cut z.re).sum) hr
  simp only [Multiset.map_add, Multiset.sum_add, Multiset.map_nsmul, Multiset.sum_nsmul, Multiset.map_singleton,
    Multiset.sum_singleton, Complex.zero_re, entropyTerm_zero hcut, smul_zero, zero_add, Multiset.map_map,
    Function.comp_def, Complex.ofReal_re] at hs
  rw [entropyOne_eq eig cut A n hA1, entropyOne_eq eig cut B m hB1]
  exact congrArg Neg.neg hs

/-- Entropies of equal arrays are equal. -/
theorem entropy_same {eig : Eigvalsh} (heig : eig.Correct) {cut : ℝ} (hcut : 0 ≤ cut) {A B : Arr ℂ} {n : ℕ}
    (hA1 : A.rows = n) (hA2 : A.cols = n) (hB1 : B.rows = n) (hB2 : B.cols = n)
    (hA : (A.mat n n).IsHermitian) (h : A.mat n n = B.mat n n) :
    entropyOne eig cut A = entropyOne eig cut B :=
  entropy_eq_of_charpoly heig hcut (p := 0) (q := 0) hA1 hA2 hB1 hB2 hA (h ▸ hA) (by rw [h])

theorem entropyList_one (eig : Eigvalsh) (cut : ℝ) (M : Arr ℂ) (h : M.rows = M.cols) :
    entropyList eig cut [M] = .ok (entropyOne eig cut M) := by
  unfold entropyList
  rw [if_pos]
  · simp
  · intro N hN
    simp only [List.mem_cons, List.not_mem_nil, or_false] at hN
    subst hN
    refine ⟨h, fun P hP => ?_⟩
    simp only [List.mem_cons, List.not_mem_nil, or_false] at hP
    rw [hP]

theorem entropyCut_nonneg : 0 ≤ entropyCut := by unfold entropyCut; norm_num

/-! ### Densities -/

/-- The eigenvalues of a positive semidefinite matrix are non-negative and add up to the trace. -/
theorem eigvals_density {eig : Eigvalsh} (heig : eig.Correct) {A : Arr ℂ} {n : ℕ} (h1 : A.rows = n)
    (h2 : A.cols = n) (hA : (A.mat n n).PosSemidef) :
    (∀ i : Fin n, 0 ≤ eig A i) ∧ ((∑ i : Fin n, eig A i : ℝ) : ℂ) = trace (A.mat n n) := by
  have hc := heig A n h1 h2 hA.isHermitian
  obtain ⟨w, V, -, hV, hAV⟩ := hermitian_decomp _ hA.isHermitian
  have hc2 := charpoly_of_decomp _ V w hV hAV
  have hV' : V * Vᴴ = 1 := mul_eq_one_comm.mp hV
  have hD : diagonal (fun i => ((w i : ℝ) : ℂ)) = Vᴴ * A.mat n n * V := by
    rw [Matrix.mul_assoc, hAV, ← Matrix.mul_assoc, hV, Matrix.one_mul]
  have hw : ∀ i, 0 ≤ w i := by
    have hP : (diagonal (fun i => ((w i : ℝ) : ℂ))).PosSemidef := by
      rw [hD]
      exact hA.conjTranspose_mul_mul_same V
    rw [posSemidef_diagonal_iff] at hP
    intro i
    exact_mod_cast hP i
  have hr := congrArg Polynomial.roots (hc.symm.trans hc2)
  rw [roots_prod_real, roots_prod_real] at hr
  constructor
  · intro i
    have : ((eig A i : ℝ) : ℂ) ∈ (Finset.univ.val.map fun i : Fin n => ((w i : ℝ) : ℂ)) := by
      rw [← hr]
      exact Multiset.mem_map_of_mem _ (Finset.mem_univ_val i)
    obtain ⟨j, -, hj⟩ := Multiset.mem_map.mp this
    have : w j = eig A i := by exact_mod_cast hj
    rw [← this]
    exact hw j
  · have hs := congrArg Multiset.sum hr
    have e1 : ((∑ i : Fin n, eig A i : ℝ) : ℂ) = ∑ i : Fin n, ((w i : ℝ) : ℂ) := by
      rw [Complex.ofReal_sum]
      exact hs
    rw [e1, ← trace_diagonal, hD, Matrix.mul_assoc, trace_mul_comm, Matrix.mul_assoc, hV', Matrix.mul_one]

/-- `x log x ≤ 0` on `[0, 1]`, so every kept term has the right sign. -/
theorem entropyTerm_nonpos {cut x : ℝ} (h0 : 0 ≤ x) (h1 : x ≤ 1) : entropyTerm cut x ≤ 0 := by
  unfold entropyTerm
  split_ifs
  · exact mul_nonpos_of_nonneg_of_nonpos h0 (Real.logb_nonpos (by norm_num) h0 h1)
  · exact le_rfl

theorem entropyTerm_ge {cut x : ℝ} (h0 : 0 ≤ x) (h1 : x ≤ 1) : x * Real.logb 2 x ≤ entropyTerm cut x := by
  unfold entropyTerm
  split_ifs
  · exact le_rfl
  · exact mul_nonpos_of_nonneg_of_nonpos h0 (Real.logb_nonpos (by norm_num) h0 h1)

end PyQ
