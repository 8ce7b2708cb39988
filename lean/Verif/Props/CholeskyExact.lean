import Verif.Props.ParamCholesky
import Mathlib.LinearAlgebra.Matrix.Trace
import Mathlib.Data.Matrix.Basis

/-! # C37: which states survive the round trip of `CholeskyParam` -/

namespace PyQ

open Matrix
open scoped ComplexOrder

namespace Spec

/-- The positions strictly below the diagonal, row by row. -/
def lowerPositions (n : ℕ) : List (ℕ × ℕ) := (List.range n).flatMap fun i => (List.range i).map fun j => (i, j)

/-- The entries strictly below the diagonal: all real parts, then all imaginary parts. -/
noncomputable def lowerNumbers (L : Arr ℂ) (n : ℕ) : List ℝ :=
  (lowerPositions n).map (fun p => (L.get p.1 p.2).re) ++ (lowerPositions n).map fun p => (L.get p.1 p.2).im

/-- Reading the list in pairs gives the same complex numbers as reading its two halves side by side. -/
def PairsLikeHalves (w : List ℝ) : Prop :=
  ∀ k, 2 * k + 1 < w.length → w.getD (2 * k) 0 = w.getD k 0 ∧ w.getD (2 * k + 1) 0 = w.getD (w.length / 2 + k) 0

end Spec

theorem lowerPositions_eq (n : ℕ) : Spec.lowerPositions n = CholeskyParam.trilIndices n n := by
  unfold Spec.lowerPositions CholeskyParam.trilIndices
  rw [List.flatMap_def, List.flatMap_def]
  congr 1
  refine List.map_congr_left fun i hi => ?_
  rw [min_eq_left (List.mem_range.mp hi).le]

theorem pos_real_eq {x y : ℂ} (hx : 0 < x.re ∧ x.im = 0) (hy : 0 < y.re ∧ y.im = 0) (h : x * star x = y * star y) : x = y := by
  have h1 := congrArg Complex.re h
  simp only [Complex.star_def, Complex.mul_re, Complex.conj_re, Complex.conj_im, hx.2, hy.2, mul_zero, sub_zero, neg_zero] at h1
  exact Complex.ext ((mul_self_inj hx.1.le hy.1.le).mp h1) (hx.2.trans hy.2.symm)

/-- Two lower triangular factors of one matrix with positive diagonals are equal. -/
theorem lower_unique {n : ℕ} {L M : Matrix (Fin n) (Fin n) ℂ} (hL : ∀ i j, i < j → L i j = 0) (hM : ∀ i j, i < j → M i j = 0)
    (hdL : ∀ i, 0 < (L i i).re ∧ (L i i).im = 0) (hdM : ∀ i, 0 < (M i i).re ∧ (M i i).im = 0) (h : L * Lᴴ = M * Mᴴ) : L = M := by
  have key : ∀ m : ℕ, ∀ j : Fin n, j.val = m → ∀ i, L i j = M i j := by
    intro m
    induction m using Nat.strong_induction_on with
    | _ m ih =>
      intro j hj
      have h3 : ∀ i, L i j * star (L j j) = M i j * star (M j j) := by
        intro i
        have h1 := congrFun (congrFun h i) j
        rw [Matrix.mul_apply, Matrix.mul_apply] at h1
        simp only [conjTranspose_apply] at h1
        rw [← Finset.add_sum_erase _ _ (Finset.mem_univ j), ← Finset.add_sum_erase _ (fun k => M i k * star (M j k)) (Finset.mem_univ j)] at h1
        have h2 : ∑ k ∈ Finset.univ.erase j, L i k * star (L j k) = ∑ k ∈ Finset.univ.erase j, M i k * star (M j k) := by
          refine Finset.sum_congr rfl fun k hk => ?_
          rcases lt_or_gt_of_ne (Finset.ne_of_mem_erase hk) with hlt | hgt
          · rw [ih k.val (hj ▸ hlt) k rfl i, ih k.val (hj ▸ hlt) k rfl j]
          · rw [hL j k hgt, hM j k hgt, star_zero, mul_zero, mul_zero]
        rw [h2] at h1
        exact add_right_cancel h1
      have hd := pos_real_eq (hdL j) (hdM j) (h3 j)
      intro i
      have h4 := h3 i
      rw [← hd] at h4
      refine mul_right_cancel₀ (star_ne_zero.mpr fun h0 => ?_) h4
      have := (hdL j).1
      rw [h0] at this
      simp at this
  ext i j
  exact key j.val j rfl i

/-- **C37 (exact)**.  For every positive definite density matrix of every size, `rho_from_vec(vec_from_rho(rho))` is a density matrix,
and it is `rho` exactly if reading the numbers below the diagonal of its Cholesky factor (all real parts, then all imaginary parts) in
pairs gives the same complex numbers as reading the two halves side by side. -/
theorem C37_cholesky_exact (chol : CholeskyParam.Cholesky) (hchol : chol.Correct) (rho : Arr ℂ) (n : ℕ)
    (h1 : rho.rows = n) (h2 : rho.cols = n) (hn : 1 ≤ n) (hpos : (rho.mat n n).PosDef) (htr : trace (rho.mat n n) = 1) :
    ∃ L v ρ, chol rho = .ok L ∧ CholeskyParam.vecFromRho chol rho n none = .ok v ∧ CholeskyParam.rhoFromVec v n none = .ok ρ ∧
      ρ.rows = n ∧ ρ.cols = n ∧ Spec.DensityOfRank (ρ.mat n n) n ∧ (Arr.Same ρ rho ↔ Spec.PairsLikeHalves (Spec.lowerNumbers L n)) := by
  obtain ⟨L, l1, l2, l3, l4, l5, l6⟩ := (hchol rho n h1 h2 hpos.isHermitian).1 hpos
  set v := (List.range n).map (fun i => (L.get i i).re) ++ Spec.lowerNumbers L n with hv
  set N := (CholeskyParam.trilIndices n n).length with hN
  have hw : (Spec.lowerNumbers L n).length = 2 * N := by
    unfold Spec.lowerNumbers
    rw [lowerPositions_eq]
    simp only [List.length_append, List.length_map]
    omega
  have hlen : (v.length : ℤ) = CholeskyParam.numbVariables n n := by
    rw [← CholeskyParam.tril_length n n le_rfl, hv, List.length_append, hw]
    simp only [List.length_map, List.length_range]
    push_cast
    ring
  have hvec : CholeskyParam.vecFromRho chol rho n none = .ok v := by
    unfold CholeskyParam.vecFromRho pyAssert
    simp only [Option.getD_none]
    rw [if_pos ⟨hn, le_rfl⟩, l1]
    simp only [bind, Except.bind, pure, Except.pure]
    rw [hv, l2, Spec.lowerNumbers, lowerPositions_eq, List.append_assoc]
  obtain ⟨c, -, c2, c3, c4⟩ := CholeskyParam.rhoFromVec_eq v n n ⟨hn, le_rfl⟩ hlen none rfl
  have hvd : ∀ k < n, v.getD k 0 = (L.get k k).re := by
    intro k hk
    rw [hv, List.getD_eq_getElem?_getD, List.getElem?_append_left (by simpa using hk), List.getElem?_map, List.getElem?_range hk]
    rfl
  have hvw : ∀ m, v.getD (n + m) 0 = (Spec.lowerNumbers L n).getD m 0 := by
    intro m
    rw [hv, List.getD_eq_getElem?_getD, List.getElem?_append_right (by simp)]
    simp [List.getD_eq_getElem?_getD]
  have hre : ∀ k < n, ((L.get k k).re : ℂ) = L.get k k := fun k hk => Complex.ext (by simp) (by simp [(l6 k hk).2])
  set M := CholeskyParam.factor v c n n with hM
  have hMd : ∀ k < n, M.get k k = L.get k k := by
    intro k hk
    rw [hM]
    unfold CholeskyParam.factor
    simp only [if_true]
    rw [hvd k hk, hre k hk]
  have hMu : ∀ i j, i < j → M.get i j = 0 := by
    intro i j hij
    rw [hM]
    unfold CholeskyParam.factor
    simp only
    rw [if_neg (by omega), if_neg (by rw [CholeskyParam.mem_tril]; omega)]
  have hLpos : ∀ i < n, L.get i i ≠ 0 := fun i hi h0 => by
    have := (l6 i hi).1
    rw [h0] at this
    simp at this
  have hfac0 : M.mat n n ≠ 0 := by
    intro h0
    have h := congrFun (congrFun h0 ⟨0, hn⟩) ⟨0, hn⟩
    rw [Arr.mat_apply] at h
    exact hLpos 0 hn ((hMd 0 hn).symm.trans h)
  obtain ⟨ρ, o1, o2, o3, o4⟩ := normalizedGram_ok M n n rfl rfl hfac0
  refine ⟨L, v, ρ, l1, hvec, c4.trans o1, o2, o3, by rw [o4]; exact normalized_density _ hfac0, ?_⟩
  -- the two factors agree exactly under the condition on the numbers
  have hiff : M.mat n n = L.mat n n ↔ Spec.PairsLikeHalves (Spec.lowerNumbers L n) := by
    have hnum : ∀ k (hk : k < N), (Spec.lowerNumbers L n).getD k 0 = (L.get ((CholeskyParam.trilIndices n n)[k]).1 ((CholeskyParam.trilIndices n n)[k]).2).re ∧
        (Spec.lowerNumbers L n).getD (N + k) 0 = (L.get ((CholeskyParam.trilIndices n n)[k]).1 ((CholeskyParam.trilIndices n n)[k]).2).im := by
      intro k hk
      unfold Spec.lowerNumbers
      rw [lowerPositions_eq]
      constructor
      · rw [List.getD_eq_getElem?_getD, List.getElem?_append_left (by simpa using hk), List.getElem?_map, List.getElem?_eq_getElem hk]
        rfl
      · rw [List.getD_eq_getElem?_getD, List.getElem?_append_right (by simp [hN]), List.length_map, ← hN, Nat.add_sub_cancel_left, List.getElem?_map,
          List.getElem?_eq_getElem hk]
        rfl
    have hfacnum : ∀ k (hk : k < N), M.get ((CholeskyParam.trilIndices n n)[k]).1 ((CholeskyParam.trilIndices n n)[k]).2 =
        pyComplex ((Spec.lowerNumbers L n).getD (2 * k) 0) ((Spec.lowerNumbers L n).getD (2 * k + 1) 0) := by
      intro k hk
      obtain ⟨i, j, hij⟩ : ∃ i j, (CholeskyParam.trilIndices n n)[k] = (i, j) := ⟨_, _, rfl⟩
      have hmem : (i, j) ∈ CholeskyParam.trilIndices n n := hij ▸ List.getElem_mem hk
      obtain ⟨m1, m2, m3⟩ := (CholeskyParam.mem_tril n n i j).mp hmem
      have hidx : (CholeskyParam.trilIndices n n).idxOf (i, j) = k := by
        rw [← hij, (CholeskyParam.tril_nodup n n).idxOf_getElem]
      rw [hij, hM]
      unfold CholeskyParam.factor
      simp only
      rw [if_neg (show i ≠ j by omega), if_pos hmem, hidx, c3 k (by rw [c2]; exact hk), hvw, Nat.add_assoc, hvw]
    constructor
    · intro h k hk
      have hkN : k < N := by omega
      obtain ⟨i, j, hij⟩ : ∃ i j, (CholeskyParam.trilIndices n n)[k] = (i, j) := ⟨_, _, rfl⟩
      obtain ⟨m1, m2, m3⟩ := (CholeskyParam.mem_tril n n i j).mp (hij ▸ List.getElem_mem hkN)
      have e := congrFun (congrFun h ⟨i, m1⟩) ⟨j, m3⟩
      rw [Arr.mat_apply, Arr.mat_apply] at e
      have e1 := hfacnum k hkN
      obtain ⟨e2, e3⟩ := hnum k hkN
      rw [hij] at e1 e2 e3
      simp only at e e1 e2 e3
      rw [e] at e1
      rw [e1] at e2 e3
      rw [show (Spec.lowerNumbers L n).length / 2 = N by omega, e2, e3]
      exact ⟨rfl, rfl⟩
    · intro h
      ext i j
      rw [Arr.mat_apply, Arr.mat_apply]
      rcases lt_trichotomy (i : ℕ) j with hij | hij | hij
      · rw [hMu _ _ hij, l5 i i.2 j j.2 hij]
      · rw [← hij, hMd i i.2]
      · have hmem : ((i : ℕ), (j : ℕ)) ∈ CholeskyParam.trilIndices n n := (CholeskyParam.mem_tril n n i j).mpr ⟨i.2, hij, j.2⟩
        obtain ⟨k, hk, hkij⟩ := List.getElem_of_mem hmem
        have e1 := hfacnum k hk
        obtain ⟨e2, e3⟩ := hnum k hk
        rw [hkij] at e1 e2 e3
        simp only at e1 e2 e3
        obtain ⟨e4, e5⟩ := h k (by omega)
        rw [show (Spec.lowerNumbers L n).length / 2 = N by omega] at e5
        rw [e1, e4, e5, e2, e3]
        rfl
  rw [← hiff, Arr.same_iff_mat, o2, o3, h1, h2, o4]
  constructor
  · rintro ⟨-, -, h⟩
    -- the corner shows that the trace is one
    have hrow : ∀ (A : Arr ℂ), (∀ i j, i < j → j < n → A.get i j = 0) → (A.mat n n * (A.mat n n)ᴴ) ⟨0, hn⟩ ⟨0, hn⟩ = A.get 0 0 * star (A.get 0 0) := by
      intro A hA
      rw [Matrix.mul_apply, Finset.sum_eq_single ⟨0, hn⟩]
      · rfl
      · intro k _ hk
        have hk0 : 0 < k.val := Nat.pos_of_ne_zero fun h => hk (Fin.ext h)
        rw [Arr.mat_apply, hA 0 k hk0 k.2, zero_mul]
      · simp
    have hcorner := congrFun (congrFun h ⟨0, hn⟩) ⟨0, hn⟩
    rw [← l4, Matrix.smul_apply, hrow M fun i j hij _ => hMu i j hij, hrow L fun i j hij hj => l5 i (by omega) j hj hij, hMd 0 hn, smul_eq_mul] at hcorner
    have hne : L.get 0 0 * star (L.get 0 0) ≠ 0 := mul_ne_zero (hLpos 0 hn) (star_ne_zero.mpr (hLpos 0 hn))
    have ht := mul_right_cancel₀ hne (hcorner.trans (one_mul _).symm)
    rw [ht, one_smul, ← l4] at h
    exact lower_unique (fun i j hij => hMu i j hij) (fun i j hij => l5 i i.2 j j.2 hij)
      (fun i => by rw [Arr.mat_apply, hMd i i.2]; exact l6 i i.2) (fun i => l6 i i.2) h
  · intro h
    refine ⟨rfl, rfl, ?_⟩
    rw [h, l4, htr]
    simp

theorem fin_ten (m : ℕ) : (1 : Fin (m + 3)) ≠ 0 := fun h => by
  have h : 1 = 0 := congrArg Fin.val h
  cases h

theorem fin_twenty (m : ℕ) : (2 : Fin (m + 3)) ≠ 0 := fun h => by
  have h : 2 = 0 := congrArg Fin.val h
  cases h

theorem fin_twentyone (m : ℕ) : (2 : Fin (m + 3)) ≠ 1 := fun h => by
  have h : 2 = 1 := congrArg Fin.val h
  cases h

/-- `S + 1` for the matrix `S` with the imaginary unit in the second row and first column, times its adjoint, with trace one. -/
noncomputable def shuffled (m : ℕ) : Matrix (Fin (m + 3)) (Fin (m + 3)) ℂ :=
  ((1 / (m + 4 : ℝ) : ℝ) : ℂ) • ((1 + Matrix.single 1 0 Complex.I) * (1 + Matrix.single 1 0 Complex.I)ᴴ)

theorem shuffled_mul (m : ℕ) : (1 + Matrix.single 1 0 Complex.I : Matrix (Fin (m + 3)) (Fin (m + 3)) ℂ) * (1 + Matrix.single 1 0 Complex.I)ᴴ =
    1 + Matrix.single 1 0 Complex.I + Matrix.single 0 1 (-Complex.I) + Matrix.single 1 1 1 := by
  rw [conjTranspose_add, conjTranspose_one, conjTranspose_single, mul_add, mul_one, add_mul, one_mul, Matrix.single_mul_single_same]
  simp only [Complex.star_def, Complex.conj_I, mul_neg, Complex.I_mul_I, neg_neg]
  abel

theorem shuffled_posDef (m : ℕ) : (shuffled m).PosDef := by
  unfold shuffled
  refine PosDef.smul (PosDef.mul_conjTranspose_self _ ?_) (by
    have : (0 : ℝ) < 1 / (m + 4 : ℝ) := by positivity
    exact_mod_cast this)
  have hBP : (1 + Matrix.single 1 0 Complex.I : Matrix (Fin (m + 3)) (Fin (m + 3)) ℂ) * (1 - Matrix.single 1 0 Complex.I) = 1 := by
    rw [mul_sub, mul_one, add_mul, one_mul, Matrix.single_mul_single_of_ne _ _ _ _ (fin_ten m).symm]
    abel
  intro x y hxy
  have := congrArg (fun z => z ᵥ* (1 - Matrix.single 1 0 Complex.I : Matrix (Fin (m + 3)) (Fin (m + 3)) ℂ)) hxy
  simpa only [vecMul_vecMul, hBP, vecMul_one] using this

theorem shuffled_trace (m : ℕ) : trace (shuffled m) = 1 := by
  unfold shuffled
  rw [shuffled_mul, trace_smul]
  simp only [trace_add, trace_one, Fintype.card_fin]
  rw [Matrix.trace_single_eq_of_ne _ _ _ (fin_ten m), Matrix.trace_single_eq_of_ne _ _ _ (fin_ten m).symm, Matrix.trace_single_eq_same]
  push_cast
  rw [smul_eq_mul]
  have : (m + 4 : ℂ) ≠ 0 := by exact_mod_cast (by positivity : (m + 4 : ℝ) ≠ 0)
  field_simp
  ring

theorem lowerPositions_start (m : ℕ) : ∃ rest, Spec.lowerPositions (m + 3) = (1, 0) :: (2, 0) :: rest := by
  induction m with
  | zero => exact ⟨[(2, 1)], rfl⟩
  | succ m ih =>
    obtain ⟨rest, h⟩ := ih
    refine ⟨rest ++ (List.range (m + 3)).map fun j => (m + 3, j), ?_⟩
    have : Spec.lowerPositions (m + 1 + 3) = Spec.lowerPositions (m + 3) ++ (List.range (m + 3)).map fun j => (m + 3, j) := by
      unfold Spec.lowerPositions
      rw [show m + 1 + 3 = (m + 3) + 1 by omega, List.range_succ, List.flatMap_append]
      simp
    rw [this, h]
    rfl

/-- C37 is false for `CholeskyParam` at every size from three on, for every Cholesky routine. -/
theorem C37_cholesky_sizes_refuted (chol : CholeskyParam.Cholesky) (hchol : chol.Correct) (n : ℕ) (hn : 3 ≤ n) :
    ∃ rho : Arr ℂ, rho.rows = n ∧ rho.cols = n ∧ (rho.mat n n).PosDef ∧ trace (rho.mat n n) = 1 ∧
      ∃ v ρ, CholeskyParam.vecFromRho chol rho n none = .ok v ∧ CholeskyParam.rhoFromVec v n none = .ok ρ ∧ ¬ Arr.Same ρ rho := by
  obtain ⟨m, rfl⟩ : ∃ m, n = m + 3 := ⟨n - 3, by omega⟩
  have hm : (Arr.ofMat (shuffled m)).mat (m + 3) (m + 3) = shuffled m := Arr.ofMat_mat _
  have hp : ((Arr.ofMat (shuffled m)).mat (m + 3) (m + 3)).PosDef := by rw [hm]; exact shuffled_posDef m
  have ht : trace ((Arr.ofMat (shuffled m)).mat (m + 3) (m + 3)) = 1 := by rw [hm]; exact shuffled_trace m
  refine ⟨Arr.ofMat (shuffled m), rfl, rfl, hp, ht, ?_⟩
  obtain ⟨L, v, ρ, r1, r2, r3, -, -, -, r4⟩ := C37_cholesky_exact chol hchol _ (m + 3) rfl rfl (by omega) hp ht
  refine ⟨v, ρ, r2, r3, fun hsame => ?_⟩
  obtain ⟨L', l1, -, -, l4, l5, l6⟩ := (hchol (Arr.ofMat (shuffled m)) (m + 3) rfl rfl hp.isHermitian).1 hp
  rw [l1] at r1
  injection r1 with r1
  subst r1
  rw [hm] at l4
  -- the first column of the factor
  have hcol : ∀ i : Fin (m + 3), L'.get i 0 * star (L'.get 0 0) = shuffled m i 0 := by
    intro i
    rw [← l4, Matrix.mul_apply, Finset.sum_eq_single 0]
    · rfl
    · intro k _ hk
      have hk0 : 0 < k.val := Nat.pos_of_ne_zero fun h => hk (Fin.ext h)
      rw [conjTranspose_apply, Arr.mat_apply (i := 0), show L'.get ((0 : Fin (m + 3)) : ℕ) k = 0 from l5 0 (by omega) k k.2 hk0, star_zero, mul_zero]
    · simp
  have ht0 : (0 : ℝ) < 1 / (m + 4 : ℝ) := by positivity
  obtain ⟨p0, i0⟩ := l6 0 (by omega)
  have e1 := hcol 1
  have e2 := hcol 2
  unfold shuffled at e1 e2
  rw [shuffled_mul] at e1 e2
  have n1 := fin_ten m
  have n2 := fin_twenty m
  have n3 := fin_twentyone m
  simp only [Matrix.smul_apply, Matrix.add_apply, Matrix.one_apply, Matrix.single_apply, smul_eq_mul] at e1 e2
  simp [n1, n2, n1.symm, n2.symm, n3.symm] at e1 e2
  have e3 : L'.get 2 0 = 0 := by
    rw [Nat.mod_eq_of_lt (by omega)] at e2
    refine e2.resolve_right fun h => ?_
    rw [h] at p0
    simp at p0
  have e4 : (L'.get 1 0).im ≠ 0 := by
    intro h
    have h3 := congrArg Complex.im e1
    rw [Complex.mul_im, Complex.conj_re, Complex.conj_im, i0, h] at h3
    have h4 : (((m : ℂ) + 4)⁻¹ * Complex.I).im = ((m : ℝ) + 4)⁻¹ := by
      have : ((m : ℂ) + 4)⁻¹ = ((((m : ℝ) + 4)⁻¹ : ℝ) : ℂ) := by push_cast; rfl
      rw [this, Complex.im_ofReal_mul, Complex.I_im, mul_one]
    rw [h4] at h3
    have h5 : (0 : ℝ) < ((m : ℝ) + 4)⁻¹ := by positivity
    simp at h3
    linarith
  obtain ⟨rest, hrest⟩ := lowerPositions_start m
  have h6 := (r4.mp hsame 0 (by unfold Spec.lowerNumbers; rw [hrest]; simp)).2
  have h7 : (Spec.lowerNumbers L' (m + 3)).length / 2 = rest.length + 2 := by
    unfold Spec.lowerNumbers
    rw [hrest]
    simp only [List.length_append, List.length_map, List.length_cons]
    omega
  rw [h7] at h6
  unfold Spec.lowerNumbers at h6
  rw [hrest, add_zero, List.getD_eq_getElem?_getD, List.getD_eq_getElem?_getD, List.getElem?_append_left (by simp), List.getElem?_append_right (by simp)] at h6
  simp [e3] at h6
  exact e4 h6.symm

/-- Diagonal states of every size survive: the numbers below the diagonal are zero. -/
theorem C37_cholesky_diagonal (chol : CholeskyParam.Cholesky) (hchol : chol.Correct) (n : ℕ) (hn : 1 ≤ n) (p : Fin n → ℝ)
    (hp : ∀ i, 0 < p i) (h1 : ∑ i, p i = 1) :
    ∃ v ρ, CholeskyParam.vecFromRho chol (Arr.ofMat (diagonal fun i => (p i : ℂ))) n none = .ok v ∧
      CholeskyParam.rhoFromVec v n none = .ok ρ ∧ Arr.Same ρ (Arr.ofMat (diagonal fun i => (p i : ℂ))) := by
  have hm : (Arr.ofMat (diagonal fun i => (p i : ℂ))).mat n n = diagonal fun i => (p i : ℂ) := Arr.ofMat_mat _
  have hpd : ((Arr.ofMat (diagonal fun i => (p i : ℂ))).mat n n).PosDef := by
    rw [hm]
    exact PosDef.diagonal fun i => by exact_mod_cast hp i
  have htr : trace ((Arr.ofMat (diagonal fun i => (p i : ℂ))).mat n n) = 1 := by
    rw [hm, trace_diagonal]
    exact_mod_cast h1
  obtain ⟨L, v, ρ, r1, r2, r3, -, -, -, r4⟩ := C37_cholesky_exact chol hchol _ n rfl rfl hn hpd htr
  refine ⟨v, ρ, r2, r3, r4.mpr ?_⟩
  obtain ⟨L', l1, -, -, l4, l5, l6⟩ := (hchol (Arr.ofMat (diagonal fun i => (p i : ℂ))) n rfl rfl hpd.isHermitian).1 hpd
  rw [l1] at r1
  injection r1 with r1
  subst r1
  set D : Matrix (Fin n) (Fin n) ℂ := diagonal fun i => ((Real.sqrt (p i) : ℝ) : ℂ) with hD
  have hDD : D * Dᴴ = diagonal fun i => (p i : ℂ) := by
    rw [hD, diagonal_conjTranspose, diagonal_mul_diagonal]
    congr 1
    funext i
    rw [Pi.star_apply, Complex.star_def, Complex.conj_ofReal, ← Complex.ofReal_mul, Real.mul_self_sqrt (hp i).le]
  have hL : L'.mat n n = D := by
    refine lower_unique (fun i j hij => l5 i i.2 j j.2 hij) (fun i j hij => diagonal_apply_ne _ hij.ne) (fun i => l6 i i.2) (fun i => ?_)
      (by rw [l4, hDD, hm])
    rw [hD, diagonal_apply_eq]
    exact ⟨by simpa using hp i, by simp⟩
  have hzero : ∀ x ∈ Spec.lowerNumbers L' n, x = 0 := by
    intro x hx
    have hpos : ∀ q ∈ Spec.lowerPositions n, L'.get q.1 q.2 = 0 := by
      rintro ⟨i, j⟩ hq
      rw [lowerPositions_eq, CholeskyParam.mem_tril] at hq
      have := congrFun (congrFun hL ⟨i, hq.1⟩) ⟨j, hq.2.2⟩
      rw [hD, diagonal_apply_ne _ (by simp only [ne_eq, Fin.mk.injEq]; omega)] at this
      exact this
    unfold Spec.lowerNumbers at hx
    rw [List.mem_append, List.mem_map, List.mem_map] at hx
    rcases hx with ⟨q, hq, rfl⟩ | ⟨q, hq, rfl⟩ <;> rw [hpos q hq] <;> rfl
  have hget : ∀ k, (Spec.lowerNumbers L' n).getD k 0 = 0 := by
    intro k
    rw [List.getD_eq_getElem?_getD]
    rcases h : (Spec.lowerNumbers L' n)[k]? with _ | x
    · rfl
    · exact hzero x (List.mem_of_getElem? h)
  intro k _
  simp only [hget, and_self]

/-- A Cholesky routine exists, so both theorems apply: at size four some states survive and some do not. -/
example : ∃ chol : CholeskyParam.Cholesky, chol.Correct ∧
    (∃ v ρ, CholeskyParam.vecFromRho chol (Arr.ofMat (diagonal fun _ : Fin 4 => ((1 / 4 : ℝ) : ℂ))) 4 none = .ok v ∧
      CholeskyParam.rhoFromVec v 4 none = .ok ρ ∧ Arr.Same ρ (Arr.ofMat (diagonal fun _ : Fin 4 => ((1 / 4 : ℝ) : ℂ)))) ∧
    ∃ rho v ρ, CholeskyParam.vecFromRho chol rho 4 none = .ok v ∧ CholeskyParam.rhoFromVec v 4 none = .ok ρ ∧ ¬ Arr.Same ρ rho := by
  obtain ⟨chol, hc⟩ := CholeskyParam.exists_cholesky
  obtain ⟨rho, -, -, -, -, v, ρ, h⟩ := C37_cholesky_sizes_refuted chol hc 4 (by norm_num)
  exact ⟨chol, hc, C37_cholesky_diagonal chol hc 4 (by norm_num) (fun _ => 1 / 4) (fun _ => by norm_num) (by norm_num), rho, v, ρ, h⟩

end PyQ
