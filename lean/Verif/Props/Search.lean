import Verif.Lemmas.Trapezoid
import Verif.Props.Start
import Verif.Props.OptimizeState

/-!
# C92: the vectors within the bounds describe exactly the states of the given rank
-/

namespace PyQ

open Matrix
open scoped ComplexOrder

/-- Every number of the vector lies in its interval. -/
def Spec.Within (v : List ℝ) (b : List (ℝ × ℝ)) : Prop := List.Forall₂ (fun x p => p.1 ≤ x ∧ x ≤ p.2) v b

/-! ### Factors -/

/-- A positive semidefinite matrix of rank at most `r` is `A A†` for a matrix with `r` columns. -/
theorem exists_low_factor {n r : ℕ} (hr : r ≤ n) {ρ : Matrix (Fin n) (Fin n) ℂ} (hρ : ρ.PosSemidef) (hrank : ρ.rank ≤ r) :
    ∃ A : Matrix (Fin n) (Fin r) ℂ, A * Aᴴ = ρ := by
  obtain ⟨eigh, heigh⟩ := exists_eigh
  let rho : Arr ℂ := ⟨n, n, fun i j => if h : i < n ∧ j < n then ρ ⟨i, h.1⟩ ⟨j, h.2⟩ else 0⟩
  have hm : rho.mat n n = ρ := by
    ext i j
    rw [Arr.mat_apply]
    simp only [rho]
    rw [dif_pos ⟨i.2, j.2⟩]
  obtain ⟨-, -, v3, v4, v5⟩ := heigh rho n rfl rfl (by rw [hm]; exact hρ.isHermitian)
  set w := (eigh rho).1 with hw'
  set V := (eigh rho).2.mat n n with hV
  rw [hm] at v5
  have v6 : V * Vᴴ = 1 := mul_eq_one_comm.mp v4
  have hA : ρ = V * diagonal (fun i : Fin n => ((w i : ℝ) : ℂ)) * Vᴴ := by
    rw [← v5, Matrix.mul_assoc, v6, Matrix.mul_one]
  have hw : ∀ i : Fin n, 0 ≤ w i := by
    have hD : diagonal (fun i : Fin n => ((w i : ℝ) : ℂ)) = Vᴴ * ρ * V := by
      rw [hA, Matrix.mul_assoc, Matrix.mul_assoc, Matrix.mul_assoc, v4, Matrix.mul_one, ← Matrix.mul_assoc, v4,
        Matrix.one_mul]
    have hP : (diagonal (fun i : Fin n => ((w i : ℝ) : ℂ))).PosSemidef := by
      rw [hD]
      exact hρ.conjTranspose_mul_mul_same V
    rw [posSemidef_diagonal_iff] at hP
    intro i
    exact_mod_cast hP i
  have hz := eigs_zero hr w V _ v4 v3 hw hA hrank
  clear_value w V
  obtain ⟨m, rfl⟩ := Nat.exists_eq_add_of_le' hr
  refine ⟨Matrix.of fun i j => V i (Fin.natAdd m j) * (Real.sqrt (w (m + j)) : ℂ), ?_⟩
  rw [hA]
  ext i j
  rw [Matrix.mul_apply, Matrix.mul_apply, Fin.sum_univ_add]
  simp only [mul_diagonal, conjTranspose_apply, Matrix.of_apply]
  have h1 : ∀ k : Fin m, w (Fin.castAdd r k) = 0 := fun k => hz _ (by
    rw [Fin.val_castAdd]; have := k.2; omega)
  simp only [h1, Complex.ofReal_zero, mul_zero, zero_mul, Finset.sum_const_zero, zero_add]
  refine Finset.sum_congr rfl fun k _ => ?_
  simp only [Fin.val_natAdd, star_mul', Complex.star_def, Complex.conj_ofReal]
  have hs : ((Real.sqrt (w (m + k)) : ℝ) : ℂ) * (Real.sqrt (w (m + k)) : ℝ) = (w (m + k) : ℝ) := by
    rw [← Complex.ofReal_mul, Real.mul_self_sqrt (show 0 ≤ w (m + k) from hw (Fin.natAdd m k))]
  rw [← hs]
  ring

theorem entry_le_one {n r : ℕ} {A : Matrix (Fin n) (Fin r) ℂ} (h : trace (A * Aᴴ) = 1) (i : Fin n) (j : Fin r) :
    ‖A i j‖ ≤ 1 := by
  rw [gram_trace] at h
  have h1 : ∑ i, ∑ j, ‖A i j‖ ^ 2 = 1 := by exact_mod_cast h
  have h2 : ‖A i j‖ ^ 2 ≤ 1 := by
    rw [← h1]
    refine le_trans ?_ (Finset.single_le_sum (f := fun i => ∑ j, ‖A i j‖ ^ 2)
      (fun _ _ => Finset.sum_nonneg fun _ _ => by positivity) (Finset.mem_univ i))
    exact Finset.single_le_sum (f := fun j => ‖A i j‖ ^ 2) (fun _ _ => by positivity) (Finset.mem_univ j)
  have h3 := norm_nonneg (A i j)
  nlinarith

/-- The entries of a matrix as a function on all pairs of numbers. -/
noncomputable def entryAt {n r : ℕ} (A : Matrix (Fin n) (Fin r) ℂ) (i j : ℕ) : ℂ :=
  if h : i < n ∧ j < r then A ⟨i, h.1⟩ ⟨j, h.2⟩ else 0

theorem entryAt_fin {n r : ℕ} (A : Matrix (Fin n) (Fin r) ℂ) (i : Fin n) (j : Fin r) : entryAt A i j = A i j := by
  unfold entryAt
  rw [dif_pos ⟨i.2, j.2⟩]

theorem entryAt_le {n r : ℕ} {A : Matrix (Fin n) (Fin r) ℂ} (h : trace (A * Aᴴ) = 1) (i j : ℕ) : ‖entryAt A i j‖ ≤ 1 := by
  unfold entryAt
  split_ifs with hij
  · exact entry_le_one h _ _
  · simp

theorem parts_le {z : ℂ} (h : ‖z‖ ≤ 1) : (-1 ≤ z.re ∧ z.re ≤ 1) ∧ -1 ≤ z.im ∧ z.im ≤ 1 :=
  ⟨abs_le.mp ((Complex.abs_re_le_norm z).trans h), abs_le.mp ((Complex.abs_im_le_norm z).trans h)⟩

theorem flatMap_pair_length (f g : ℕ → ℝ) (m : ℕ) : ((List.range m).flatMap fun t => [f t, g t]).length = 2 * m := by
  simp [List.length_flatMap, Nat.mul_comm]

/-! ### `OverParam` -/

theorem overFactor_entries {n r : ℕ} (A : Matrix (Fin n) (Fin r) ℂ) :
    Spec.overFactor ((List.range (n * r)).flatMap fun t =>
      [(entryAt A (t / r) (t % r)).re, (entryAt A (t / r) (t % r)).im]) n r = A := by
  ext i j
  have hk : (i : ℕ) * r + j < n * r := by nlinarith [i.2, j.2]
  have hr : 0 < r := lt_of_le_of_lt (Nat.zero_le _) j.2
  obtain ⟨h1, h2⟩ := flatMap_pair_getD (fun t => (entryAt A (t / r) (t % r)).re)
    (fun t => (entryAt A (t / r) (t % r)).im) (n * r) _ hk
  simp only [Spec.overFactor, h1, h2]
  have e1 : ((i : ℕ) * r + j) / r = i := by
    rw [Nat.mul_comm, Nat.mul_add_div hr, Nat.div_eq_of_lt j.2, Nat.add_zero]
  have e2 : ((i : ℕ) * r + j) % r = j := by
    rw [Nat.mul_comm, Nat.mul_add_mod, Nat.mod_eq_of_lt j.2]
  rw [e1, e2, entryAt_fin]

/-- C92 for `OverParam`: the matrices that `rho_from_vec(v, nsize, rank)` returns for the vectors `v` within
`bounds(nsize, rank)` are exactly the density matrices of rank at most `rank`. -/
theorem C92_over (nsize rank : ℕ) (hr : rank ≤ nsize) (rho : Arr ℂ) (h1 : rho.rows = nsize) (h2 : rho.cols = nsize) :
    (∃ v ρ, Spec.Within v (OverParam.bounds nsize rank) ∧ OverParam.rhoFromVec v nsize (some rank) = .ok ρ ∧
      Arr.Same ρ rho) ↔ Spec.DensityOfRank (rho.mat nsize nsize) rank := by
  constructor
  · rintro ⟨v, ρ, -, h3, h4⟩
    obtain ⟨-, -, hd⟩ := over_density h3
    rw [Arr.same_iff_mat] at h4
    obtain ⟨s1, s2, s3⟩ := h4
    rw [s1, s2, h1, h2] at s3
    rw [← s3]
    exact hd
  · rintro ⟨hpos, htr, hrank⟩
    obtain ⟨A, hA⟩ := exists_low_factor hr hpos hrank
    have htA : trace (A * Aᴴ) = 1 := by rw [hA, htr]
    set v := (List.range (nsize * rank)).flatMap fun t =>
      [(entryAt A (t / rank) (t % rank)).re, (entryAt A (t / rank) (t % rank)).im] with hv
    have hl : v.length = 2 * rank * nsize := by rw [hv, flatMap_pair_length]; ring
    have hf : Spec.overFactor v nsize rank = A := overFactor_entries A
    have h0 : Spec.overFactor v nsize rank ≠ 0 := by
      rw [hf]
      rintro rfl
      simp at htA
    obtain ⟨ρ, o1, o2, o3, o4⟩ := over_ok v nsize rank hl h0
    refine ⟨v, ρ, ?_, ?_, ?_⟩
    · unfold Spec.Within OverParam.bounds
      rw [forall₂_replicate]
      refine ⟨by rw [hl]; rfl, fun x hx => ?_⟩
      obtain ⟨t, -, hx⟩ := List.mem_flatMap.mp hx
      have hb := parts_le (entryAt_le htA (t / rank) (t % rank))
      simp only [List.mem_cons, List.not_mem_nil, or_false] at hx
      rcases hx with rfl | rfl
      · exact hb.1
      · exact hb.2
    · rw [OverParam.rhoFromVec_some, pyAssert, pyAssert]
      rw [if_pos hr, if_pos hl]
      exact o1
    · rw [Arr.same_iff_mat]
      refine ⟨o2.trans h1.symm, o3.trans h2.symm, ?_⟩
      rw [o2, o3, o4, hf, htA, hA, inv_one, one_smul]

/-! ### `CholeskyParam` -/

/-- The vector of a lower trapezoidal matrix. -/
noncomputable def trapezoidVec {n r : ℕ} (L : Matrix (Fin n) (Fin r) ℂ) : List ℝ :=
  (List.range r).map (fun i => (entryAt L i i).re) ++
    (List.range (CholeskyParam.trilIndices n r).length).flatMap fun t =>
      [(entryAt L ((CholeskyParam.trilIndices n r).getD t (0, 0)).1 ((CholeskyParam.trilIndices n r).getD t (0, 0)).2).re,
       (entryAt L ((CholeskyParam.trilIndices n r).getD t (0, 0)).1 ((CholeskyParam.trilIndices n r).getD t (0, 0)).2).im]

theorem trapezoidVec_length {n r : ℕ} (L : Matrix (Fin n) (Fin r) ℂ) :
    (trapezoidVec L).length = r + 2 * (CholeskyParam.trilIndices n r).length := by
  unfold trapezoidVec
  rw [List.length_append, flatMap_pair_length, List.length_map, List.length_range]

theorem factor_trapezoidVec {n r : ℕ} (L : Matrix (Fin n) (Fin r) ℂ)
    (hup : ∀ (i : Fin n) (j : Fin r), (i : ℕ) < j → L i j = 0)
    (hdiag : ∀ (i : Fin n) (j : Fin r), (i : ℕ) = j → 0 ≤ (L i j).re ∧ (L i j).im = 0) (c : List ℂ)
    (hc : c.length = (CholeskyParam.trilIndices n r).length)
    (hcv : ∀ k < c.length, c.getD k 0 =
      pyComplex ((trapezoidVec L).getD (r + 2 * k) 0) ((trapezoidVec L).getD (r + 2 * k + 1) 0)) :
    (CholeskyParam.factor (trapezoidVec L) c n r).mat n r = L := by
  ext i j
  rw [Arr.mat_apply]
  simp only [CholeskyParam.factor]
  rcases lt_trichotomy (i : ℕ) j with h | h | h
  · rw [if_neg (by omega), if_neg, hup i j h]
    rw [CholeskyParam.mem_tril]
    omega
  · rw [if_pos h]
    have hd := hdiag i j h
    have hj := j.2
    have : (trapezoidVec L).getD i 0 = (L i j).re := by
      unfold trapezoidVec
      rw [List.getD_append _ _ _ _ (by rw [List.length_map, List.length_range, h]; exact hj),
        List.getD_eq_getElem _ _ (by rw [List.length_map, List.length_range, h]; exact hj), List.getElem_map,
        List.getElem_range]
      rw [show entryAt L i i = entryAt L i j by rw [← h], entryAt_fin]
    rw [this]
    exact Complex.ext rfl (by rw [Complex.ofReal_im, hd.2])
  · have hmem : ((i : ℕ), (j : ℕ)) ∈ CholeskyParam.trilIndices n r :=
      (CholeskyParam.mem_tril n r i j).mpr ⟨i.2, h, j.2⟩
    rw [if_neg (by omega), if_pos hmem]
    set k := (CholeskyParam.trilIndices n r).idxOf ((i : ℕ), (j : ℕ)) with hk
    have hk' : k < (CholeskyParam.trilIndices n r).length := List.idxOf_lt_length_of_mem hmem
    have hget : (CholeskyParam.trilIndices n r).getD k (0, 0) = ((i : ℕ), (j : ℕ)) := by
      rw [List.getD_eq_getElem _ _ hk']
      exact List.getElem_idxOf hk'
    rw [hcv k (hc ▸ hk')]
    obtain ⟨e1, e2⟩ := flatMap_pair_getD
      (fun t => (entryAt L ((CholeskyParam.trilIndices n r).getD t (0, 0)).1
        ((CholeskyParam.trilIndices n r).getD t (0, 0)).2).re)
      (fun t => (entryAt L ((CholeskyParam.trilIndices n r).getD t (0, 0)).1
        ((CholeskyParam.trilIndices n r).getD t (0, 0)).2).im) _ k hk'
    simp only [hget, entryAt_fin] at e1 e2
    have hshift : ∀ t, (trapezoidVec L).getD (r + t) 0 =
        ((List.range (CholeskyParam.trilIndices n r).length).flatMap fun t =>
          [(entryAt L ((CholeskyParam.trilIndices n r).getD t (0, 0)).1
              ((CholeskyParam.trilIndices n r).getD t (0, 0)).2).re,
           (entryAt L ((CholeskyParam.trilIndices n r).getD t (0, 0)).1
              ((CholeskyParam.trilIndices n r).getD t (0, 0)).2).im]).getD t 0 := by
      intro t
      unfold trapezoidVec
      rw [List.getD_append_right _ _ _ _ (by simp)]
      congr 1
      simp
    rw [hshift, Nat.add_assoc, hshift, e1, e2]
    rfl

/-- C92 for `CholeskyParam`: the matrices that `rho_from_vec(v, nsize, rank)` returns for the vectors `v` within
`bounds(nsize, rank)` are exactly the density matrices of rank at most `rank`. -/
theorem C92_cholesky (nsize rank : ℕ) (h : 1 ≤ rank ∧ rank ≤ nsize) (rho : Arr ℂ) (h1 : rho.rows = nsize)
    (h2 : rho.cols = nsize) :
    (∃ v ρ, Spec.Within v (CholeskyParam.bounds nsize rank (-1) 1) ∧
      CholeskyParam.rhoFromVec v nsize (some rank) = .ok ρ ∧ Arr.Same ρ rho) ↔
      Spec.DensityOfRank (rho.mat nsize nsize) rank := by
  constructor
  · rintro ⟨v, ρ, -, h3, h4⟩
    obtain ⟨-, -, hd⟩ := cholesky_density h3
    rw [Arr.same_iff_mat] at h4
    obtain ⟨s1, s2, s3⟩ := h4
    rw [s1, s2, h1, h2] at s3
    rw [← s3]
    exact hd
  · rintro ⟨hpos, htr, hrank⟩
    obtain ⟨A, hA⟩ := exists_low_factor h.2 hpos hrank
    obtain ⟨L, hL, hup, hdiag⟩ := exists_trapezoid nsize rank A
    have htL : trace (L * Lᴴ) = 1 := by rw [hL, hA, htr]
    have htril := CholeskyParam.tril_length nsize rank h.2
    have hl : ((trapezoidVec L).length : ℤ) = CholeskyParam.numbVariables nsize rank := by
      rw [trapezoidVec_length, ← htril]; push_cast; ring
    obtain ⟨c, -, c2, c3, c4⟩ := CholeskyParam.rhoFromVec_eq (trapezoidVec L) nsize rank h hl (some rank) rfl
    have hf := factor_trapezoidVec L hup hdiag c c2 c3
    have h0 : (CholeskyParam.factor (trapezoidVec L) c nsize rank).mat nsize rank ≠ 0 := by
      rw [hf]
      rintro rfl
      simp at htL
    obtain ⟨ρ, o1, o2, o3, o4⟩ := normalizedGram_ok _ nsize rank rfl rfl h0
    refine ⟨trapezoidVec L, ρ, ?_, c4.trans o1, ?_⟩
    · unfold Spec.Within CholeskyParam.bounds trapezoidVec
      refine List.rel_append ?_ ?_
      · rw [forall₂_replicate]
        refine ⟨by simp, fun x hx => ?_⟩
        obtain ⟨i, hi, rfl⟩ := List.mem_map.mp hx
        rw [List.mem_range] at hi
        have hb := parts_le (entryAt_le htL i i)
        refine ⟨?_, hb.1.2⟩
        have := (hdiag ⟨i, by omega⟩ ⟨i, hi⟩ rfl).1
        rwa [← entryAt_fin L] at this
      · rw [forall₂_replicate]
        refine ⟨by rw [flatMap_pair_length]; omega, fun x hx => ?_⟩
        obtain ⟨t, -, hx⟩ := List.mem_flatMap.mp hx
        have hb := parts_le (entryAt_le htL ((CholeskyParam.trilIndices nsize rank).getD t (0, 0)).1
          ((CholeskyParam.trilIndices nsize rank).getD t (0, 0)).2)
        simp only [List.mem_cons, List.not_mem_nil, or_false] at hx
        rcases hx with rfl | rfl
        · exact hb.1
        · exact hb.2
    · rw [Arr.same_iff_mat]
      refine ⟨o2.trans h1.symm, o3.trans h2.symm, ?_⟩
      rw [o2, o3, o4, hf, htL, hL, hA, inv_one, one_smul]

/-! ### `StandardBasis` -/

theorem density_entry_le {n : ℕ} {ρ : Matrix (Fin n) (Fin n) ℂ} (h : Spec.IsDensity ρ) (i j : Fin n) : ‖ρ i j‖ ≤ 1 := by
  obtain ⟨A, hA⟩ := exists_low_factor le_rfl h.1 (by simpa using ρ.rank_le_width)
  have ht : trace (A * Aᴴ) = 1 := by rw [hA, h.2]
  rw [gram_trace] at ht
  have h1 : ∑ i, ∑ k, ‖A i k‖ ^ 2 = 1 := by exact_mod_cast ht
  have hrow : ∀ i, ∑ k, ‖A i k‖ ^ 2 ≤ 1 := by
    intro i
    rw [← h1]
    exact Finset.single_le_sum (f := fun i => ∑ k, ‖A i k‖ ^ 2)
      (fun _ _ => Finset.sum_nonneg fun _ _ => by positivity) (Finset.mem_univ i)
  rw [← hA, mul_apply]
  refine (norm_sum_le _ _).trans ?_
  have h2 : ∀ k, ‖A i k * Aᴴ k j‖ ≤ (‖A i k‖ ^ 2 + ‖A j k‖ ^ 2) / 2 := by
    intro k
    rw [norm_mul, conjTranspose_apply, norm_star]
    nlinarith [sq_nonneg (‖A i k‖ - ‖A j k‖)]
  refine (Finset.sum_le_sum fun k _ => h2 k).trans ?_
  rw [← Finset.sum_div, Finset.sum_add_distrib]
  linarith [hrow i, hrow j]

/-- C92 for `StandardBasis`: the vector that `vec_from_rho` returns for a density matrix lies within
`bounds(d)`, and `rho_from_vec` returns the density matrix again.  So no state is outside the region searched. -/
theorem C92_standard (d : ℕ) (rho : Arr ℂ) (h1 : rho.rows = d) (h2 : rho.cols = d)
    (hd : Spec.IsDensity (rho.mat d d)) :
    ∃ v ρ, StandardBasis.vecFromRho rho d = .ok v ∧ Spec.Within v (StandardBasis.bounds d) ∧
      StandardBasis.rhoFromVec v d = .ok ρ ∧ Arr.Same ρ rho := by
  obtain ⟨v, ρ, hv, hr, hs⟩ := (C37_standard d).1 rho h1 h2 hd.1.isHermitian
  obtain ⟨v', hv', hl, k1, k2⟩ := StandardBasis.vecFromRho_ok rho d h1 h2
  rw [hv] at hv'
  injection hv' with hv'
  subst hv'
  refine ⟨v, ρ, hv, ?_, hr, hs⟩
  unfold Spec.Within StandardBasis.bounds StandardBasis.numbVariables
  rw [forall₂_replicate]
  refine ⟨hl, fun x hx => ?_⟩
  obtain ⟨k, hk, rfl⟩ := List.getElem_of_mem hx
  have hle : ∀ p q, p < d → q < d → ‖rho.get p q‖ ≤ 1 := fun p q hp hq =>
    density_entry_le hd ⟨p, hp⟩ ⟨q, hq⟩
  rw [← List.getD_eq_getElem v 0 hk]
  obtain ⟨p, q, hpq, hq, rfl | ⟨hlt, rfl⟩⟩ := StandardBasis.pos_surj d k (hl ▸ hk)
  · rw [k1 p q hpq hq]
    exact (parts_le (hle p q (by omega) hq)).1
  · rw [k2 p q hlt hq]
    exact (parts_le (hle p q (by omega) hq)).2

theorem mixedState_rank : Spec.DensityOfRank (mixedState.mat 2 2) 2 :=
  ⟨mixedState_density.1, mixedState_density.2, by simpa using (mixedState.mat 2 2).rank_le_width⟩

/-- The maximally mixed qubit is found by all three parameterisations. -/
example : (∃ v ρ, Spec.Within v (OverParam.bounds 2 2) ∧ OverParam.rhoFromVec v 2 (some 2) = .ok ρ ∧
      Arr.Same ρ mixedState) ∧
    (∃ v ρ, Spec.Within v (CholeskyParam.bounds 2 2 (-1) 1) ∧ CholeskyParam.rhoFromVec v 2 (some 2) = .ok ρ ∧
      Arr.Same ρ mixedState) ∧
    ∃ v ρ, StandardBasis.vecFromRho mixedState 2 = .ok v ∧ Spec.Within v (StandardBasis.bounds 2) ∧
      StandardBasis.rhoFromVec v 2 = .ok ρ ∧ Arr.Same ρ mixedState :=
  ⟨(C92_over 2 2 le_rfl mixedState rfl rfl).mpr mixedState_rank,
    (C92_cholesky 2 2 ⟨by decide, le_rfl⟩ mixedState rfl rfl).mpr mixedState_rank,
    C92_standard 2 mixedState rfl rfl mixedState_density⟩

/-- With one column the maximally mixed qubit is not found. -/
example : ¬ ∃ v ρ, Spec.Within v (OverParam.bounds 2 1) ∧ OverParam.rhoFromVec v 2 (some 1) = .ok ρ ∧
    Arr.Same ρ mixedState := by
  rw [C92_over 2 1 (by decide) mixedState rfl rfl]
  rintro ⟨-, -, h⟩
  have hd : mixedState.mat 2 2 = (1 / 2 : ℂ) • (1 : Matrix (Fin 2) (Fin 2) ℂ) := by
    ext i j
    simp only [mixedState, Arr.mat_apply, Matrix.smul_apply, Matrix.one_apply, Fin.ext_iff, smul_eq_mul]
    split_ifs <;> simp
  have hu : IsUnit (mixedState.mat 2 2) := by
    rw [hd]
    exact (isUnit_one).smul (Units.mk0 (1 / 2 : ℂ) (by norm_num))
  rw [rank_of_isUnit _ hu] at h
  simp at h

end PyQ
