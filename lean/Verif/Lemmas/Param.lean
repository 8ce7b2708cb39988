import Verif.Lemmas.ParamStd
import Verif.Lemmas.LinAlg
import Mathlib.LinearAlgebra.Matrix.Rank
import Mathlib.Analysis.Matrix.LDL
import Mathlib.LinearAlgebra.Matrix.Block

/-!
# Lemmas about `OverParam` and `CholeskyParam`
-/

namespace PyQ

open Matrix
open scoped ComplexOrder

theorem complexPairs_ok (v : List ℝ) (m : ℕ) (h : v.length = 2 * m) :
    ∃ c, complexPairs v = .ok c ∧ c.length = m ∧
      ∀ k < m, c.getD k 0 = pyComplex (v.getD (2 * k) 0) (v.getD (2 * k + 1) 0) := by
  induction m generalizing v with
  | zero =>
    have : v = [] := List.length_eq_zero_iff.mp (by omega)
    subst this
    exact ⟨[], rfl, rfl, fun k hk => by omega⟩
  | succ m ih =>
    match v, h with
    | x :: y :: rest, h =>
      obtain ⟨c, h1, h2, h3⟩ := ih rest (by simpa using by simp at h; omega)
      refine ⟨pyComplex x y :: c, ?_, by simp [h2], ?_⟩
      · simp only [complexPairs, h1]
        rfl
      · intro k hk
        cases k with
        | zero => simp
        | succ k =>
          have := h3 k (by omega)
          rw [show 2 * (k + 1) = 2 * k + 2 by ring, show 2 * k + 2 + 1 = 2 * k + 1 + 2 by ring]
          simpa only [List.getD_cons_succ] using this

theorem complexPairs_error (v : List ℝ) (m : ℕ) (h : v.length = 2 * m + 1) :
    complexPairs v = .error .index := by
  induction m generalizing v with
  | zero =>
    obtain ⟨x, rfl⟩ := List.length_eq_one_iff.mp (by simpa using h)
    rfl
  | succ m ih =>
    match v, h with
    | x :: y :: rest, h =>
      simp only [complexPairs, ih rest (by simp at h; omega)]
      rfl

/-- The entry of `a` that is not zero makes the trace of `a a†` positive. -/
theorem gram_trace {n r : ℕ} (A : Matrix (Fin n) (Fin r) ℂ) :
    trace (A * Aᴴ) = ((∑ i, ∑ j, ‖A i j‖ ^ 2 : ℝ) : ℂ) := by
  rw [trace]
  push_cast
  apply Finset.sum_congr rfl; intro i _
  rw [diag_apply, Matrix.mul_apply]
  apply Finset.sum_congr rfl; intro j _
  rw [conjTranspose_apply, ← Complex.mul_conj']
  rfl

theorem gram_trace_zero {n r : ℕ} (A : Matrix (Fin n) (Fin r) ℂ) : trace (A * Aᴴ) = 0 ↔ A = 0 := by
  rw [gram_trace, Complex.ofReal_eq_zero, Finset.sum_eq_zero_iff_of_nonneg (fun _ _ => Finset.sum_nonneg
    fun _ _ => by positivity)]
  constructor
  · intro h
    ext i j
    have := (Finset.sum_eq_zero_iff_of_nonneg (fun _ _ => by positivity)).mp (h i (Finset.mem_univ _)) j
      (Finset.mem_univ _)
    simpa using this
  · rintro rfl i _
    simp

theorem normalizedGram_spec (a : Arr ℂ) :
    normalizedGram a = if a.mat a.rows a.cols = 0 then .error .unmodelled
      else .ok ⟨a.rows, a.rows, fun i j => (∑ t ∈ Finset.range a.cols, a.get i t * star (a.get j t)) /
        ∑ i ∈ Finset.range a.rows, ∑ t ∈ Finset.range a.cols, a.get i t * star (a.get i t)⟩ := by
  have ht : trace (a.mat a.rows a.cols * (a.mat a.rows a.cols)ᴴ) =
      ∑ i ∈ Finset.range a.rows, ∑ t ∈ Finset.range a.cols, a.get i t * star (a.get i t) := by
    rw [Finset.sum_range, trace]
    apply Finset.sum_congr rfl; intro i _
    rw [diag_apply, Matrix.mul_apply, Finset.sum_range]
    rfl
  unfold normalizedGram Arr.mul
  simp only
  by_cases h : a.mat a.rows a.cols = 0
  · rw [if_pos h, if_pos]
    rw [← ht, gram_trace_zero]
    exact h
  · rw [if_neg h, if_neg]
    rw [← ht, gram_trace_zero]
    exact h

/-- `a a† / tr (a a†)` is a density matrix of rank at most the number of columns of `a`. -/
theorem normalizedGram_ok (a : Arr ℂ) (n r : ℕ) (h1 : a.rows = n) (h2 : a.cols = r) (h : a.mat n r ≠ 0) :
    ∃ ρ, normalizedGram a = .ok ρ ∧ ρ.rows = n ∧ ρ.cols = n ∧
      ρ.mat n n = (trace (a.mat n r * (a.mat n r)ᴴ))⁻¹ • (a.mat n r * (a.mat n r)ᴴ) := by
  subst h1 h2
  rw [normalizedGram_spec, if_neg h]
  refine ⟨_, rfl, rfl, rfl, ?_⟩
  ext i j
  rw [Matrix.smul_apply, smul_eq_mul, Matrix.mul_apply, trace, Arr.mat_apply]
  simp only
  rw [div_eq_inv_mul, Finset.sum_range, Finset.sum_range]
  congr 2
  apply Finset.sum_congr rfl; intro k _
  rw [diag_apply, Matrix.mul_apply, Finset.sum_range]
  rfl

theorem normalized_density {n r : ℕ} (A : Matrix (Fin n) (Fin r) ℂ) (h : A ≠ 0) :
    ((trace (A * Aᴴ))⁻¹ • (A * Aᴴ)).PosSemidef ∧ trace ((trace (A * Aᴴ))⁻¹ • (A * Aᴴ)) = 1 ∧
      ((trace (A * Aᴴ))⁻¹ • (A * Aᴴ)).rank ≤ r := by
  have hne : trace (A * Aᴴ) ≠ 0 := fun h0 => h ((gram_trace_zero A).mp h0)
  refine ⟨?_, ?_, ?_⟩
  · apply PosSemidef.smul (posSemidef_self_mul_conjTranspose A)
    rw [gram_trace, ← Complex.ofReal_inv]
    exact_mod_cast inv_nonneg.mpr (Finset.sum_nonneg fun _ _ => Finset.sum_nonneg fun _ _ => by positivity)
  · rw [trace_smul, smul_eq_mul, inv_mul_cancel₀ hne]
  · rw [← Matrix.smul_mul]
    refine (rank_mul_le_right _ _).trans ?_
    refine (rank_le_card_height (Aᴴ)).trans ?_
    simp

/-! ### Lower triangle -/

namespace CholeskyParam

theorem mem_tril (n r i j : ℕ) : (i, j) ∈ trilIndices n r ↔ i < n ∧ j < i ∧ j < r := by
  simp only [trilIndices, List.mem_flatMap, List.mem_range, List.mem_map, Prod.mk.injEq, lt_min_iff]
  constructor
  · rintro ⟨a, h1, b, ⟨h2, h3⟩, rfl, rfl⟩
    exact ⟨h1, h2, h3⟩
  · rintro ⟨h1, h2, h3⟩
    exact ⟨i, h1, j, ⟨h2, h3⟩, rfl, rfl⟩

theorem tril_nodup (n r : ℕ) : (trilIndices n r).Nodup := by
  unfold trilIndices
  rw [List.nodup_flatMap]
  refine ⟨fun i _ => ?_, ?_⟩
  · exact List.Nodup.map (fun a b h => (Prod.mk.inj h).2) List.nodup_range
  · refine List.Pairwise.imp ?_ (List.nodup_range (n := n))
    intro a b hab x hx hy
    simp only [List.mem_map] at hx hy
    obtain ⟨_, _, rfl⟩ := hx
    obtain ⟨_, _, h⟩ := hy
    exact hab (Prod.mk.inj h).1.symm

theorem tril_succ (n r : ℕ) :
    trilIndices (n + 1) r = trilIndices n r ++ (List.range (min n r)).map fun j => (n, j) := by
  unfold trilIndices
  rw [List.range_succ, List.flatMap_append]
  simp

theorem tril_length_full (n : ℕ) (r : ℕ) (h : n ≤ r) : 2 * (trilIndices n r).length + n = n * n := by
  induction n with
  | zero => rfl
  | succ n ih =>
    rw [tril_succ, List.length_append, List.length_map, List.length_range, min_eq_left (by omega)]
    have := ih (by omega)
    nlinarith

/-- The number of positions below the diagonal is what `numb_variables` expects. -/
theorem tril_length (n r : ℕ) (h : r ≤ n) :
    ((2 * (trilIndices n r).length + r : ℕ) : ℤ) = numbVariables n r := by
  unfold numbVariables
  induction n, h using Nat.le_induction with
  | base =>
    have := tril_length_full r r le_rfl
    rw [this]
    push_cast
    ring
  | succ n hn ih =>
    rw [tril_succ, List.length_append, List.length_map, List.length_range, min_eq_right hn]
    push_cast at ih ⊢
    linarith

/-- There is a routine that meets the contract of `np.linalg.cholesky`. -/
theorem exists_factor {n : ℕ} (A : Matrix (Fin n) (Fin n) ℂ) (hA : A.PosDef) :
    ∃ L : Matrix (Fin n) (Fin n) ℂ, L * Lᴴ = A ∧ (∀ i j, i < j → L i j = 0) ∧
      ∀ i, 0 < (L i i).re ∧ (L i i).im = 0 := by
  classical
  let M := LDL.lowerInv hA
  let P := LDL.lower hA
  let D := LDL.diag hA
  have hPD : P * D * Pᴴ = A := LDL.lower_conj_diag hA
  have hMP : M * P = 1 := Matrix.mul_inv_of_invertible M
  have hPM : P * M = 1 := Matrix.inv_mul_of_invertible M
  have hDD : D = diagonal (LDL.diagEntries hA) := rfl
  have hDpos : D.PosDef := by
    have : D = M * A * Mᴴ := LDL.diag_eq_lowerInv_conj hA
    rw [this]
    apply hA.mul_mul_conjTranspose_same
    intro x y hxy
    have := congrArg (fun z => z ᵥ* P) hxy
    simpa only [vecMul_vecMul, hMP, vecMul_one] using this
  have hd : ∀ i, ∃ d : ℝ, 0 < d ∧ LDL.diagEntries hA i = d := by
    intro i
    have h1 := hDpos.diag_pos (i := i)
    rw [hDD, diagonal_apply_eq] at h1
    obtain ⟨h2, h3⟩ := Complex.pos_iff.mp h1
    exact ⟨_, h2, Complex.ext (by simp) (by simp [← h3])⟩
  choose d hd0 hd1 using hd
  have hMtri : M.BlockTriangular OrderDual.toDual := fun i j hij => LDL.lowerInv_triangular hA hij
  haveI : Invertible M := LDL.invertibleLowerInv hA
  have hPtri : P.BlockTriangular OrderDual.toDual := blockTriangular_inv_of_blockTriangular hMtri
  have hdet : P.det ≠ 0 := by
    intro h0
    have := congrArg det hMP
    rw [det_mul, h0, mul_zero, det_one] at this
    exact zero_ne_one this
  rw [det_of_lowerTriangular P hPtri, Finset.prod_ne_zero_iff] at hdet
  have hP0 : ∀ i, P i i ≠ 0 := fun i => hdet i (Finset.mem_univ i)
  have hn0 : ∀ i, ((‖P i i‖ : ℝ) : ℂ) ≠ 0 := fun i => by
    exact_mod_cast norm_ne_zero_iff.mpr (hP0 i)
  let φ : Fin n → ℂ := fun i => (Real.sqrt (d i) : ℂ) * (star (P i i) / (‖P i i‖ : ℂ))
  have hφ : ∀ i, φ i * star (φ i) = d i := by
    intro i
    have h1 : ((Real.sqrt (d i) : ℝ) : ℂ) * (Real.sqrt (d i) : ℝ) = d i := by
      rw [← Complex.ofReal_mul, Real.mul_self_sqrt (hd0 i).le]
    have h2 : star (P i i) * P i i = ((‖P i i‖ : ℝ) : ℂ) * (‖P i i‖ : ℝ) := by
      rw [mul_comm, Complex.star_def, Complex.mul_conj', sq]
    have h3 : star (φ i) = (Real.sqrt (d i) : ℂ) * (P i i / (‖P i i‖ : ℂ)) := by
      simp only [φ, star_mul', star_div₀, star_star, Complex.star_def, Complex.conj_ofReal, Complex.conj_conj]
    rw [h3]
    calc φ i * ((Real.sqrt (d i) : ℂ) * (P i i / (‖P i i‖ : ℂ)))
        = ((Real.sqrt (d i) : ℝ) : ℂ) * (Real.sqrt (d i) : ℝ) * ((star (P i i) * P i i) /
            ((‖P i i‖ : ℂ) * (‖P i i‖ : ℂ))) := by simp only [φ]; ring
      _ = d i := by rw [h1, h2, div_self (mul_ne_zero (hn0 i) (hn0 i)), mul_one]
  refine ⟨P * diagonal φ, ?_, ?_, ?_⟩
  · rw [conjTranspose_mul, diagonal_conjTranspose, ← Matrix.mul_assoc, Matrix.mul_assoc P, diagonal_mul_diagonal]
    have : (fun i => φ i * (star φ) i) = LDL.diagEntries hA := by
      funext i
      rw [Pi.star_apply, hφ, hd1]
    rw [this]
    exact hPD
  · intro i j hij
    rw [mul_diagonal, hPtri hij, zero_mul]
  · intro i
    have : (P * diagonal φ) i i = ((Real.sqrt (d i) * ‖P i i‖ : ℝ) : ℂ) := by
      rw [mul_diagonal]
      have h2 : P i i * star (P i i) = ((‖P i i‖ : ℝ) : ℂ) * (‖P i i‖ : ℝ) := by
        rw [Complex.star_def, Complex.mul_conj', sq]
      push_cast
      calc P i i * φ i = (Real.sqrt (d i) : ℂ) * ((P i i * star (P i i)) / (‖P i i‖ : ℂ)) := by
            simp only [φ]; ring
        _ = _ := by rw [h2, mul_div_assoc, div_self (hn0 i), mul_one]
    rw [this]
    exact ⟨by
      rw [Complex.ofReal_re]
      exact mul_pos (Real.sqrt_pos.mpr (hd0 i)) (norm_pos_iff.mpr (hP0 i)), Complex.ofReal_im _⟩

theorem exists_cholesky : ∃ chol : Cholesky, chol.Correct := by
  classical
  refine ⟨fun A => if h : (A.mat A.rows A.rows).PosDef then .ok (Arr.ofMat (exists_factor _ h).choose)
    else .error .linalg, ?_⟩
  intro A n hr hc _
  subst hr
  refine ⟨fun h => ?_, fun h => by simp only [dif_neg h]⟩
  simp only [dif_pos h]
  obtain ⟨h1, h2, h3⟩ := (exists_factor _ h).choose_spec
  have he : ∀ (i j : ℕ) (hi : i < A.rows) (hj : j < A.rows),
      (Arr.ofMat (exists_factor _ h).choose).get i j = (exists_factor _ h).choose ⟨i, hi⟩ ⟨j, hj⟩ := by
    intro i j hi hj
    simp only [Arr.ofMat, dif_pos (And.intro hi hj)]
  refine ⟨_, rfl, rfl, rfl, ?_, ?_, ?_⟩
  · rw [Arr.ofMat_mat]; exact h1
  · intro i hi j hj hij
    rw [he i j hi hj]
    exact h2 _ _ hij
  · intro i hi
    rw [he i i hi hi]
    exact h3 _

end CholeskyParam

end PyQ
