import Verif.Props.Param

/-!
# C36, C37 for `CholeskyParam`, and C38
-/

namespace PyQ

open Matrix
open scoped ComplexOrder

namespace CholeskyParam

theorem rhoFromVec_eq (vec : List ℝ) (n r : ℕ) (h : 1 ≤ r ∧ r ≤ n)
    (hl : (vec.length : ℤ) = numbVariables n r) (rank : Option ℕ) (hrank : rank.getD n = r) :
    ∃ c, complexPairs (vec.drop r) = .ok c ∧ c.length = (trilIndices n r).length ∧
      (∀ k < c.length, c.getD k 0 = pyComplex (vec.getD (r + 2 * k) 0) (vec.getD (r + 2 * k + 1) 0)) ∧
      rhoFromVec vec n rank = normalizedGram (factor vec c n r) := by
  have hlen := tril_length n r h.2
  have hv : vec.length = 2 * (trilIndices n r).length + r := by
    have : (vec.length : ℤ) = ((2 * (trilIndices n r).length + r : ℕ) : ℤ) := hl.trans hlen.symm
    exact_mod_cast this
  obtain ⟨c, c1, c2, c3⟩ := complexPairs_ok (vec.drop r) (trilIndices n r).length (by
    rw [List.length_drop]; omega)
  refine ⟨c, c1, c2, ?_, ?_⟩
  · intro k hk
    rw [c3 k (c2 ▸ hk)]
    simp only [List.getD_eq_getElem?_getD, List.getElem?_drop, Nat.add_assoc]
  · unfold rhoFromVec
    simp only [hrank]
    unfold pyAssert
    rw [if_pos h, if_pos hl, c1]
    simp only [bind, Except.bind]
    rw [if_pos c2]

theorem factor_ne_zero (vec : List ℝ) (n r : ℕ) (h : r ≤ n) (c : List ℂ) (hl : (vec.length : ℤ) = numbVariables n r)
    (hc : c.length = (trilIndices n r).length)
    (hcv : ∀ k < c.length, c.getD k 0 = pyComplex (vec.getD (r + 2 * k) 0) (vec.getD (r + 2 * k + 1) 0))
    (hne : ∃ x ∈ vec, x ≠ 0) : (factor vec c n r).mat n r ≠ 0 := by
  have hv : vec.length = 2 * (trilIndices n r).length + r := by
    have : (vec.length : ℤ) = ((2 * (trilIndices n r).length + r : ℕ) : ℤ) := hl.trans (tril_length n r h).symm
    exact_mod_cast this
  obtain ⟨x, hx, hx0⟩ := hne
  obtain ⟨k, hk, rfl⟩ := List.getElem_of_mem hx
  have hget : vec.getD k 0 = vec[k] := by
    rw [List.getD_eq_getElem?_getD, List.getElem?_eq_getElem hk]
    rfl
  intro h0
  rcases Nat.lt_or_ge k r with hkr | hkr
  · have h1 := congrFun (congrFun h0 ⟨k, by omega⟩) ⟨k, hkr⟩
    rw [Arr.mat_apply, factor, Matrix.zero_apply] at h1
    simp only [if_true, hget] at h1
    exact hx0 (by exact_mod_cast h1)
  · have ht : (k - r) / 2 < (trilIndices n r).length := by omega
    obtain ⟨i, j, hij⟩ : ∃ i j, (trilIndices n r)[(k - r) / 2] = (i, j) := ⟨_, _, rfl⟩
    have hmem : (i, j) ∈ trilIndices n r := hij ▸ List.getElem_mem ht
    obtain ⟨m1, m2, m3⟩ := (mem_tril n r i j).mp hmem
    have hidx : (trilIndices n r).idxOf (i, j) = (k - r) / 2 := by
      rw [← hij, (tril_nodup n r).idxOf_getElem]
    have h1 := congrFun (congrFun h0 ⟨i, m1⟩) ⟨j, m3⟩
    rw [Arr.mat_apply, factor, Matrix.zero_apply] at h1
    simp only [if_neg (show i ≠ j by omega), if_pos hmem, hidx] at h1
    rw [hcv _ (hc ▸ ht)] at h1
    obtain ⟨h3, h4⟩ := Complex.ext_iff.mp h1
    simp only [pyComplex, Complex.zero_re, Complex.zero_im] at h3 h4
    rcases Nat.mod_two_eq_zero_or_one (k - r) with h | h
    · rw [show r + 2 * ((k - r) / 2) = k by omega, hget] at h3
      exact hx0 h3
    · rw [show r + 2 * ((k - r) / 2) + 1 = k by omega, hget] at h4
      exact hx0 h4

end CholeskyParam

/-- C36.  `CholeskyParam.rho_from_vec` returns a density matrix of rank at most `rank` (by default the size),
for every vector of the right length that is not zero. -/
theorem C36_cholesky (vec : List ℝ) (nsize r : ℕ) (rank : Option ℕ) (hrank : rank.getD nsize = r)
    (h : 1 ≤ r ∧ r ≤ nsize) (hl : (vec.length : ℤ) = CholeskyParam.numbVariables nsize r)
    (hne : ∃ x ∈ vec, x ≠ 0) :
    ∃ ρ, CholeskyParam.rhoFromVec vec nsize rank = .ok ρ ∧ ρ.rows = nsize ∧ ρ.cols = nsize ∧
      Spec.DensityOfRank (ρ.mat nsize nsize) r := by
  obtain ⟨c, -, c2, c3, c4⟩ := CholeskyParam.rhoFromVec_eq vec nsize r h hl rank hrank
  have h0 := CholeskyParam.factor_ne_zero vec nsize r h.2 c hl c2 c3 hne
  obtain ⟨ρ, o1, o2, o3, o4⟩ := normalizedGram_ok _ nsize r rfl rfl h0
  refine ⟨ρ, c4.trans o1, o2, o3, ?_⟩
  rw [o4]
  exact normalized_density _ h0

/-- C36, errors of `CholeskyParam.rho_from_vec`: `AssertionError` for a rank outside `1 … nsize` and for a
vector of the wrong length. -/
theorem C36_cholesky_errors (vec : List ℝ) (nsize : ℕ) (rank : Option ℕ)
    (h : ¬ (1 ≤ rank.getD nsize ∧ rank.getD nsize ≤ nsize) ∨
      (vec.length : ℤ) ≠ CholeskyParam.numbVariables nsize (rank.getD nsize)) :
    CholeskyParam.rhoFromVec vec nsize rank = .error .assertion := by
  unfold CholeskyParam.rhoFromVec pyAssert
  simp only
  by_cases h1 : 1 ≤ rank.getD nsize ∧ rank.getD nsize ≤ nsize
  · rw [if_pos h1, if_neg (by tauto)]
    rfl
  · rw [if_neg h1]
    rfl

example : ∃ ρ, CholeskyParam.rhoFromVec [1, 1, 2, 3] 2 none = .ok ρ ∧ Spec.DensityOfRank (ρ.mat 2 2) 2 := by
  obtain ⟨ρ, h1, -, -, h2⟩ := C36_cholesky [1, 1, 2, 3] 2 2 none rfl (by decide) (by decide) ⟨1, by simp, one_ne_zero⟩
  exact ⟨ρ, h1, h2⟩

/-! ### Round trips -/

/-- C37, for `CholeskyParam` and sizes one and two: `rho_from_vec(vec_from_rho(rho))` is `rho` for every
positive definite density matrix.  Missing: larger sizes (`C37_cholesky_refuted`), where the real and
imaginary parts are stored in the wrong order, and matrices of lower rank (`C37_cholesky_low_rank_refuted`). -/
theorem C37_cholesky_partial (chol : CholeskyParam.Cholesky) (hchol : chol.Correct) (rho : Arr ℂ) (n : ℕ)
    (h1 : rho.rows = n) (h2 : rho.cols = n) (hn : 1 ≤ n) (hn2 : n ≤ 2) (hpos : (rho.mat n n).PosDef)
    (htr : trace (rho.mat n n) = 1) :
    ∃ v ρ, CholeskyParam.vecFromRho chol rho n none = .ok v ∧ CholeskyParam.rhoFromVec v n none = .ok ρ ∧
      Arr.Same ρ rho := by
  obtain ⟨L, l1, l2, l3, l4, l5, l6⟩ := (hchol rho n h1 h2 hpos.isHermitian).1 hpos
  set v := (List.range n).map (fun i => (L.get i i).re) ++
    (CholeskyParam.trilIndices n n).map (fun p => (L.get p.1 p.2).re) ++
    (CholeskyParam.trilIndices n n).map (fun p => (L.get p.1 p.2).im) with hv
  have hlen : (v.length : ℤ) = CholeskyParam.numbVariables n n := by
    rw [← CholeskyParam.tril_length n n le_rfl, hv]
    simp only [List.length_append, List.length_map, List.length_range]
    push_cast
    ring
  obtain ⟨c, -, c2, c3, c4⟩ := CholeskyParam.rhoFromVec_eq v n n ⟨hn, le_rfl⟩ hlen none rfl
  have hfac : (CholeskyParam.factor v c n n).mat n n = L.mat n n := by
    ext i j
    rw [Arr.mat_apply, Arr.mat_apply]
    have hre : ∀ k < n, ((L.get k k).re : ℂ) = L.get k k := by
      intro k hk
      exact Complex.ext (by simp) (by simp [(l6 k hk).2])
    have hvd : ∀ k < n, v.getD k 0 = (L.get k k).re := by
      intro k hk
      rw [hv, List.append_assoc, List.getD_eq_getElem?_getD, List.getElem?_append_left (by simpa using hk),
        List.getElem?_map, List.getElem?_range hk]
      rfl
    unfold CholeskyParam.factor
    simp only
    rcases lt_trichotomy (i : ℕ) j with hij | hij | hij
    · rw [if_neg (by omega), if_neg (by rw [CholeskyParam.mem_tril]; omega), l5 i i.2 j j.2 hij]
    · rw [if_pos hij, hvd i i.2, hre i i.2, ← hij]
    · have hi := i.2
      have hn' : n = 2 := by omega
      have hi1 : (i : ℕ) = 1 := by omega
      have hj0 : (j : ℕ) = 0 := by omega
      rw [if_neg (by omega), if_pos (by rw [CholeskyParam.mem_tril]; omega), hi1, hj0]
      subst hn'
      have ht : CholeskyParam.trilIndices 2 2 = [(1, 0)] := by decide
      rw [ht] at c2 hv ⊢
      have := c3 0 (by rw [c2]; decide)
      rw [show List.idxOf (1, 0) [((1 : ℕ), (0 : ℕ))] = 0 by decide, this, hv]
      rfl
  have hL0 : (CholeskyParam.factor v c n n).mat n n ≠ 0 := by
    rw [hfac]
    intro h0
    rw [h0, Matrix.zero_mul] at l4
    rw [← l4, trace_zero] at htr
    exact zero_ne_one htr
  obtain ⟨ρ, o1, o2, o3, o4⟩ := normalizedGram_ok (CholeskyParam.factor v c n n) n n rfl rfl hL0
  refine ⟨v, ρ, ?_, c4.trans o1, ?_⟩
  · unfold CholeskyParam.vecFromRho pyAssert
    simp only [Option.getD_none]
    rw [if_pos ⟨hn, le_rfl⟩, l1]
    simp only [bind, Except.bind, pure, Except.pure]
    rw [hv, l2]
  · rw [Arr.same_iff_mat]
    refine ⟨o2.trans h1.symm, o3.trans h2.symm, ?_⟩
    rw [o2, o3, o4, hfac, l4, htr]
    simp

/-- C37 is false for `CholeskyParam` with `rank < nsize`, for every Hermitian `rho`: either
`vec_from_rho(rho, nsize, rank)` raises `LinAlgError` (in particular if `rho` does have rank below `nsize`)
or `rho_from_vec` raises `AssertionError` on the vector. -/
theorem C37_cholesky_low_rank_refuted (chol : CholeskyParam.Cholesky) (hchol : chol.Correct) (rho : Arr ℂ)
    (n r : ℕ) (h1 : rho.rows = n) (h2 : rho.cols = n) (hr : 1 ≤ r) (hrn : r < n)
    (hH : (rho.mat n n).IsHermitian) :
    (¬ (rho.mat n n).PosDef ∧ CholeskyParam.vecFromRho chol rho n (some r) = .error .linalg) ∨
    ∃ v, CholeskyParam.vecFromRho chol rho n (some r) = .ok v ∧
      CholeskyParam.rhoFromVec v n (some r) = .error .assertion := by
  by_cases hpos : (rho.mat n n).PosDef
  · right
    obtain ⟨L, l1, l2, -⟩ := (hchol rho n h1 h2 hH).1 hpos
    refine ⟨(List.range L.rows).map (fun i => (L.get i i).re) ++
      (CholeskyParam.trilIndices n r).map (fun p => (L.get p.1 p.2).re) ++
      (CholeskyParam.trilIndices n r).map (fun p => (L.get p.1 p.2).im), ?_, ?_⟩
    · unfold CholeskyParam.vecFromRho pyAssert
      simp only [Option.getD_some]
      rw [if_pos ⟨hr, hrn.le⟩, l1]
      rfl
    · apply C36_cholesky_errors
      right
      simp only [Option.getD_some]
      rw [← CholeskyParam.tril_length n r hrn.le, l2]
      simp only [List.length_append, List.length_map, List.length_range]
      push_cast
      omega
  · left
    refine ⟨hpos, ?_⟩
    unfold CholeskyParam.vecFromRho pyAssert
    simp only [Option.getD_some]
    rw [if_pos ⟨hr, hrn.le⟩, (hchol rho n h1 h2 hH).2 hpos]
    rfl

/-- A positive definite density matrix of size three. -/
noncomputable def cholState : Arr ℂ :=
  ⟨3, 3, fun i j => (!![1 / 4, -Complex.I / 4, 0; Complex.I / 4, 1 / 2, 0; 0, 0, 1 / 4] :
    Matrix (Fin 3) (Fin 3) ℂ) (Fin.ofNat 3 i) (Fin.ofNat 3 j)⟩

theorem cholState_mat : cholState.mat 3 3 =
    !![1 / 4, -Complex.I / 4, 0; Complex.I / 4, 1 / 2, 0; 0, 0, 1 / 4] := by
  ext i j
  fin_cases i <;> fin_cases j <;> rfl

theorem cholState_trace : trace (cholState.mat 3 3) = 1 := by
  rw [cholState_mat, trace, Fin.sum_univ_three]
  simp
  norm_num

theorem cholState_posDef : (cholState.mat 3 3).PosDef := by
  set B : Matrix (Fin 3) (Fin 3) ℂ := !![1 / 2, 0, 0; Complex.I / 2, 1 / 2, 0; 0, 0, 1 / 2] with hB
  have hBB : cholState.mat 3 3 = B * Bᴴ := by
    rw [cholState_mat, hB]
    ext i j
    fin_cases i <;> fin_cases j <;>
      simp [Matrix.mul_apply, Fin.sum_univ_three, map_ofNat] <;> apply Complex.ext <;> simp <;> norm_num
  set P : Matrix (Fin 3) (Fin 3) ℂ := !![2, 0, 0; -2 * Complex.I, 2, 0; 0, 0, 2] with hP
  have hBP : B * P = 1 := by
    rw [hB, hP]
    ext i j
    fin_cases i <;> fin_cases j <;>
      simp [Matrix.mul_apply, Fin.sum_univ_three] <;> apply Complex.ext <;> simp
  rw [hBB]
  apply PosDef.mul_conjTranspose_self
  intro x y hxy
  have := congrArg (fun z => z ᵥ* P) hxy
  simpa only [vecMul_vecMul, hBP, vecMul_one] using this

/-- C37 is false for `CholeskyParam` at size three, for every Cholesky routine: there is a positive definite
density matrix that `rho_from_vec(vec_from_rho(rho))` does not return. -/
theorem C37_cholesky_refuted (chol : CholeskyParam.Cholesky) (hchol : chol.Correct) :
    (cholState.mat 3 3).PosDef ∧ trace (cholState.mat 3 3) = 1 ∧
    ∃ v ρ, CholeskyParam.vecFromRho chol cholState 3 none = .ok v ∧
      CholeskyParam.rhoFromVec v 3 none = .ok ρ ∧ ¬ Arr.Same ρ cholState := by
  refine ⟨cholState_posDef, cholState_trace, ?_⟩
  obtain ⟨L, l1, l2, l3, l4, l5, l6⟩ := (hchol cholState 3 rfl rfl cholState_posDef.isHermitian).1 cholState_posDef
  have ht : CholeskyParam.trilIndices 3 3 = [(1, 0), (2, 0), (2, 1)] := by decide
  set v : List ℝ := [(L.get 0 0).re, (L.get 1 1).re, (L.get 2 2).re, (L.get 1 0).re, (L.get 2 0).re, (L.get 2 1).re,
    (L.get 1 0).im, (L.get 2 0).im, (L.get 2 1).im] with hv
  have hvec : CholeskyParam.vecFromRho chol cholState 3 none = .ok v := by
    unfold CholeskyParam.vecFromRho pyAssert
    simp only [Option.getD_none]
    rw [if_pos (by decide), l1]
    simp only [bind, Except.bind, pure, Except.pure]
    rw [ht, l2]
    rfl
  obtain ⟨c, -, c2, c3, c4⟩ := CholeskyParam.rhoFromVec_eq v 3 3 (by decide) (show ((9 : ℕ) : ℤ) = CholeskyParam.numbVariables ((3 : ℕ) : ℤ) ((3 : ℕ) : ℤ) by decide) none rfl
  have hfac : (CholeskyParam.factor v c 3 3).mat 3 3 ≠ 0 := by
    intro h0
    have := congrFun (congrFun h0 0) 0
    rw [Arr.mat_apply, Matrix.zero_apply] at this
    have h3 : ((L.get 0 0).re : ℂ) = 0 := this
    have := (l6 0 (by decide)).1
    have h4 : (L.get 0 0).re = 0 := by exact_mod_cast h3
    linarith
  obtain ⟨ρ, o1, o2, o3, o4⟩ := normalizedGram_ok (CholeskyParam.factor v c 3 3) 3 3 rfl rfl hfac
  refine ⟨v, ρ, hvec, c4.trans o1, ?_⟩
  -- the first column of `L`
  have e01 : L.get 0 1 = 0 := l5 0 (by decide) 1 (by decide) (by decide)
  have e02 : L.get 0 2 = 0 := l5 0 (by decide) 2 (by decide) (by decide)
  have hrow : ∀ i : Fin 3, L.get i 0 * star (L.get 0 0) = cholState.mat 3 3 i 0 := by
    intro i
    have := congrFun (congrFun l4 i) 0
    rw [Matrix.mul_apply, Fin.sum_univ_three] at this
    simp only [conjTranspose_apply, Arr.mat_apply] at this
    have e01' : L.get ((0 : Fin 3) : ℕ) ((1 : Fin 3) : ℕ) = 0 := e01
    have e02' : L.get ((0 : Fin 3) : ℕ) ((2 : Fin 3) : ℕ) = 0 := e02
    rw [e01', e02', star_zero, mul_zero, mul_zero, add_zero, add_zero] at this
    exact this
  obtain ⟨p00, i00⟩ := l6 0 (by decide)
  have hre0 : (L.get 1 0).re = 0 := by
    have h := congrArg Complex.re (hrow 1)
    rw [cholState_mat] at h
    simp at h
    change (L.get 1 0).re * (L.get 0 0).re + (L.get 1 0).im * (L.get 0 0).im = 0 at h
    rw [i00, mul_zero, add_zero] at h
    rcases mul_eq_zero.mp h with h | h
    · exact h
    · linarith
  have hc20 : (L.get 2 0).re = 0 := by
    have h := congrArg Complex.re (hrow 2)
    rw [cholState_mat] at h
    simp at h
    change (L.get 2 0).re * (L.get 0 0).re + (L.get 2 0).im * (L.get 0 0).im = 0 at h
    rw [i00, mul_zero, add_zero] at h
    rcases mul_eq_zero.mp h with h | h
    · exact h
    · linarith
  have hf : ∀ i j : Fin 3, (CholeskyParam.factor v c 3 3).mat 3 3 i j =
      (CholeskyParam.factor v c 3 3).get i j := fun _ _ => rfl
  have f10 : (CholeskyParam.factor v c 3 3).get 1 0 = 0 := by
    have h3 : (CholeskyParam.factor v c 3 3).get 1 0 = c.getD 0 0 := by
      unfold CholeskyParam.factor
      simp only
      rw [if_neg (by decide), if_pos (by rw [ht]; decide), ht]
      rfl
    rw [h3, c3 0 (by rw [c2, ht]; decide)]
    change pyComplex (L.get 1 0).re (L.get 2 0).re = 0
    rw [hre0, hc20]
    rfl
  have f01 : (CholeskyParam.factor v c 3 3).get 0 1 = 0 := by
    unfold CholeskyParam.factor
    simp only
    rw [if_neg (by decide), if_neg (by rw [ht]; decide)]
  have f02 : (CholeskyParam.factor v c 3 3).get 0 2 = 0 := by
    unfold CholeskyParam.factor
    simp only
    rw [if_neg (by decide), if_neg (by rw [ht]; decide)]
  have hρ10 : ρ.get 1 0 = 0 := by
    have h3 := congrFun (congrFun o4 1) 0
    rw [Arr.mat_apply, Matrix.smul_apply, Matrix.mul_apply, Fin.sum_univ_three] at h3
    simp only [conjTranspose_apply, hf] at h3
    refine Eq.trans h3 ?_
    change _ • ((CholeskyParam.factor v c 3 3).get 1 0 * star ((CholeskyParam.factor v c 3 3).get 0 0) +
      (CholeskyParam.factor v c 3 3).get 1 1 * star ((CholeskyParam.factor v c 3 3).get 0 1) +
      (CholeskyParam.factor v c 3 3).get 1 2 * star ((CholeskyParam.factor v c 3 3).get 0 2)) = 0
    rw [f10, f01, f02]
    simp
  intro hsame
  have := hsame.2.2 1 (by rw [o2]; decide) 0 (by rw [o3]; decide)
  rw [hρ10] at this
  have h4 : cholState.get 1 0 = Complex.I / 4 := by
    change cholState.mat 3 3 1 0 = _
    rw [cholState_mat]
    rfl
  rw [h4] at this
  have := congrArg Complex.im this
  norm_num at this

/-- The hypotheses about the routine are met by some routine. -/
example : ∃ chol : CholeskyParam.Cholesky, chol.Correct ∧
    ∃ v ρ, CholeskyParam.vecFromRho chol cholState 3 none = .ok v ∧
      CholeskyParam.rhoFromVec v 3 none = .ok ρ ∧ ¬ Arr.Same ρ cholState := by
  obtain ⟨chol, hc⟩ := CholeskyParam.exists_cholesky
  exact ⟨chol, hc, (C37_cholesky_refuted chol hc).2.2⟩

/-! ### C38 -/

/-- C38 for `StandardBasis`: `bounds` has `numb_variables` entries, which is the length that `rho_from_vec`
accepts and `vec_from_rho` returns. -/
theorem C38_standard (d : ℕ) :
    (StandardBasis.bounds d).length = StandardBasis.numbVariables d ∧
    (∀ v : List ℝ, (∃ ρ, StandardBasis.rhoFromVec v d = .ok ρ) ↔ v.length = StandardBasis.numbVariables d) ∧
    ∀ (rho : Arr ℂ) v, StandardBasis.vecFromRho rho d = .ok v → v.length = StandardBasis.numbVariables d := by
  refine ⟨by simp [StandardBasis.bounds], ?_, ?_⟩
  · intro v
    constructor
    · rintro ⟨ρ, h⟩
      by_contra hne
      rw [(C36_standard v d).2 (by rw [← sq]; exact hne)] at h
      simp at h
    · intro h
      obtain ⟨ρ, h1, -⟩ := (C36_standard v d).1 (by rw [h, StandardBasis.numbVariables, sq])
      exact ⟨ρ, h1⟩
  · intro rho v h
    unfold StandardBasis.vecFromRho pyAssert at h
    split_ifs at h with hs
    · simp only [bind, Except.bind, pure, Except.pure] at h
      injection h with h
      subst h
      simp [StandardBasis.numbVariables]
    · simp [bind, Except.bind] at h

/-- C38 for `OverParam`. -/
theorem C38_over (normal uniform : ℕ → ℝ) (eigh : Eigh) (rho : Arr ℂ) (nsize rank : ℕ) :
    (OverParam.bounds nsize rank).length = OverParam.numbVariables nsize rank ∧
    (OverParam.vecFromRho eigh rho nsize rank).length = OverParam.numbVariables nsize rank ∧
    (∀ dist, dist ≠ .other → ∃ v, OverParam.randomVectors normal uniform nsize rank dist = .ok v ∧
      v.length = OverParam.numbVariables nsize rank) ∧
    OverParam.randomVectors normal uniform nsize rank .other = .error .type ∧
    (rank ≤ nsize → ∀ v : List ℝ, OverParam.rhoFromVec v nsize (some rank) = .error .assertion ↔
      v.length ≠ OverParam.numbVariables nsize rank) := by
  refine ⟨by simp [OverParam.bounds], overVec_length eigh rho nsize rank, ?_, rfl, ?_⟩
  · intro dist hd
    cases dist with
    | normal => exact ⟨_, rfl, by simp⟩
    | uniform => exact ⟨_, rfl, by simp⟩
    | other => exact absurd rfl hd
  · intro hr v
    constructor
    · intro h hl
      rw [OverParam.rhoFromVec_some, pyAssert, pyAssert, if_pos hr,
        if_pos (show v.length = 2 * rank * nsize by rw [hl, OverParam.numbVariables])] at h
      obtain ⟨c, c1, c2, -⟩ := complexPairs_ok v (nsize * rank) (by rw [hl, OverParam.numbVariables]; ring)
      simp only [bind, Except.bind, OverParam.rhoOfRank, c1] at h
      rw [if_pos c2, normalizedGram_spec] at h
      split_ifs at h
      simp at h
    · intro hl
      exact (C36_over_errors v nsize rank).1 (Or.inr hl)

/-- C38 for `CholeskyParam`, with `1 ≤ rank ≤ nsize` and ordered bounds: `bounds` and `random_vectors` have exactly
`numb_variables` entries, `rho_from_vec` accepts exactly that length, and uniform random vectors respect the
bounds. -/
theorem C38_cholesky (normal uniform : ℝ → ℝ → ℕ → ℝ) (nsize rank : ℕ) (h : 1 ≤ rank ∧ rank ≤ nsize) (l u : ℝ)
    (hu : 0 ≤ u) (hlu : l ≤ u) :
    ((CholeskyParam.bounds nsize rank l u).length : ℤ) = CholeskyParam.numbVariables nsize rank ∧
    (∀ dist, dist ≠ .other → ∃ v, CholeskyParam.randomVectors normal uniform nsize rank dist l u = .ok v ∧
      (v.length : ℤ) = CholeskyParam.numbVariables nsize rank) ∧
    CholeskyParam.randomVectors normal uniform nsize rank .other l u = .error .type ∧
    (∀ v : List ℝ, CholeskyParam.rhoFromVec v nsize (some rank) = .error .assertion ↔
      (v.length : ℤ) ≠ CholeskyParam.numbVariables nsize rank) ∧
    ((∀ lo hi i, lo ≤ hi → lo ≤ uniform lo hi i ∧ uniform lo hi i ≤ hi) →
      ∃ v, CholeskyParam.randomVectors normal uniform nsize rank .uniform l u = .ok v ∧
        List.Forall₂ (fun x b => b.1 ≤ x ∧ x ≤ b.2) v (CholeskyParam.bounds nsize rank l u)) := by
  have hlen := CholeskyParam.tril_length nsize rank h.2
  have hrest : ¬ CholeskyParam.numbVariables nsize rank - (rank : ℤ) < 0 := by
    rw [← hlen]; push_cast; omega
  have hto : (rank : ℤ) + ((CholeskyParam.numbVariables nsize rank - (rank : ℤ)).toNat : ℤ) =
      CholeskyParam.numbVariables nsize rank := by
    rw [Int.toNat_of_nonneg (by omega)]; ring
  refine ⟨?_, ?_, ?_, ?_, ?_⟩
  · unfold CholeskyParam.bounds
    simp only [List.length_append, List.length_replicate]
    push_cast
    exact hto
  · intro dist hd
    cases dist with
    | normal =>
      unfold CholeskyParam.randomVectors pyAssert
      rw [if_pos hu]
      simp only [bind, Except.bind]
      cases hm : ((List.range rank).map fun i => |normal (u / 2) (u / 4) i|).max? with
      | none =>
        rw [List.max?_eq_none_iff, List.map_eq_nil_iff, List.range_eq_nil] at hm
        omega
      | some m =>
        simp only
        rw [if_neg (not_or.mpr ⟨hrest, not_lt.mpr hlu⟩)]
        refine ⟨_, rfl, ?_⟩
        simp only [List.length_append, List.length_map, List.length_range]
        push_cast
        exact hto
    | uniform =>
      unfold CholeskyParam.randomVectors pyAssert
      rw [if_pos hu]
      simp only [bind, Except.bind]
      rw [if_neg hrest]
      refine ⟨_, rfl, ?_⟩
      simp only [List.length_append, List.length_map, List.length_range]
      push_cast
      exact hto
    | other => exact absurd rfl hd
  · unfold CholeskyParam.randomVectors pyAssert
    rw [if_pos hu]
    rfl
  · intro v
    constructor
    · intro he hl
      obtain ⟨c, -, -, -, c4⟩ := CholeskyParam.rhoFromVec_eq v nsize rank h hl (some rank) rfl
      rw [c4, normalizedGram_spec] at he
      split_ifs at he
      simp at he
    · intro hl
      exact C36_cholesky_errors v nsize (some rank) (Or.inr hl)
  · intro hun
    unfold CholeskyParam.randomVectors pyAssert
    rw [if_pos hu]
    simp only [bind, Except.bind]
    rw [if_neg hrest]
    refine ⟨_, rfl, ?_⟩
    have key : ∀ (f : ℕ → ℝ) (k : ℕ) (lo hi : ℝ), (∀ i, lo ≤ f i ∧ f i ≤ hi) →
        List.Forall₂ (fun (x : ℝ) (b : ℝ × ℝ) => b.1 ≤ x ∧ x ≤ b.2) ((List.range k).map f)
          (List.replicate k (lo, hi)) := by
      intro f k lo hi hf
      induction k generalizing f with
      | zero => simp
      | succ k ih =>
        rw [List.range_succ_eq_map, List.map_cons, List.map_map, List.replicate_succ]
        exact List.Forall₂.cons (hf 0) (ih (f ∘ Nat.succ) fun i => hf _)
    unfold CholeskyParam.bounds
    exact List.rel_append (key _ _ _ _ fun i => hun 0 u i hu) (key _ _ _ _ fun i => hun l u _ hlu)

/-- C38, errors: `random_vectors` raises `AssertionError` for a negative upper bound. -/
theorem C38_cholesky_errors (normal uniform : ℝ → ℝ → ℕ → ℝ) (nsize rank : ℕ) (dist : Dist) (l u : ℝ)
    (hu : u < 0) : CholeskyParam.randomVectors normal uniform nsize rank dist l u = .error .assertion := by
  unfold CholeskyParam.randomVectors pyAssert
  rw [if_neg (not_le.mpr hu)]
  rfl

/-- C38.  The other arguments that `random_vectors` refuses, all with `ValueError`: a rank so large that the number of
variables below the diagonal is negative, and, for normal draws, a rank of zero or bounds in the wrong order. -/
theorem C38_cholesky_refused (normal uniform : ℝ → ℝ → ℕ → ℝ) (nsize rank : ℕ) (l u : ℝ) (hu : 0 ≤ u) :
    (0 < rank → 2 * nsize < rank + 1 → ∀ dist, dist ≠ .other →
      CholeskyParam.randomVectors normal uniform nsize rank dist l u = .error .value) ∧
    (rank = 0 → CholeskyParam.randomVectors normal uniform nsize rank .normal l u = .error .value) ∧
    (u < l → CholeskyParam.randomVectors normal uniform nsize rank .normal l u = .error .value) := by
  have hnorm : ((CholeskyParam.numbVariables nsize rank - (rank : ℤ) < 0 ∨ u < l) ∨ rank = 0) →
      CholeskyParam.randomVectors normal uniform nsize rank .normal l u = .error .value := by
    intro h
    unfold CholeskyParam.randomVectors pyAssert
    rw [if_pos hu]
    simp only [bind, Except.bind]
    cases hm : ((List.range rank).map fun i => |normal (u / 2) (u / 4) i|).max? with
    | none => rfl
    | some m =>
      rcases h with h | rfl
      · simp only
        rw [if_pos h]
      · simp at hm
  refine ⟨?_, fun h => hnorm (Or.inr h), fun h => hnorm (Or.inl (Or.inr h))⟩
  intro hr hn dist hd
  have hneg : CholeskyParam.numbVariables nsize rank - (rank : ℤ) < 0 := by
    have h1 : CholeskyParam.numbVariables nsize rank - (rank : ℤ) = (rank : ℤ) * (2 * nsize - rank - 1) := by
      unfold CholeskyParam.numbVariables; ring
    rw [h1]
    exact mul_neg_of_pos_of_neg (by exact_mod_cast hr) (by omega)
  cases dist with
  | normal => exact hnorm (Or.inl (Or.inl hneg))
  | uniform =>
    unfold CholeskyParam.randomVectors pyAssert
    rw [if_pos hu]
    simp only [bind, Except.bind]
    rw [if_pos hneg]
  | other => exact absurd rfl hd

example : CholeskyParam.randomVectors (fun _ _ _ => 1) (fun _ _ _ => 0) 2 4 .uniform 0 1 = .error .value :=
  (C38_cholesky_refused _ _ 2 4 0 1 zero_le_one).1 (by norm_num) (by norm_num) _ (by decide)

/-- C38, the documented scaling of `dist="normal"` ("between u_bnd") fails: unless all draws for the diagonal are zero, one of
the first `rank` numbers is exactly 1, whatever `u_bnd` is; for `u_bnd < 1` the vector is outside of `bounds`. -/
theorem C38_normal_refuted (normal uniform : ℝ → ℝ → ℕ → ℝ) (nsize rank : ℕ) (h : 1 ≤ rank ∧ rank ≤ nsize) (l u : ℝ)
    (hu : 0 ≤ u) (hlu : l ≤ u) (hd : ∃ i < rank, normal (u / 2) (u / 4) i ≠ 0) :
    ∃ v, CholeskyParam.randomVectors normal uniform nsize rank .normal l u = .ok v ∧ (∃ i < rank, v[i]? = some 1) ∧
      (u < 1 → ¬ List.Forall₂ (fun x b => b.1 ≤ x ∧ x ≤ b.2) v (CholeskyParam.bounds nsize rank l u)) := by
  have hlen := CholeskyParam.tril_length nsize rank h.2
  have hrest : ¬ CholeskyParam.numbVariables nsize rank - (rank : ℤ) < 0 := by
    rw [← hlen]; push_cast; omega
  unfold CholeskyParam.randomVectors pyAssert
  rw [if_pos hu]
  simp only [bind, Except.bind]
  cases hm : ((List.range rank).map fun i => |normal (u / 2) (u / 4) i|).max? with
  | none =>
    rw [List.max?_eq_none_iff, List.map_eq_nil_iff, List.range_eq_nil] at hm
    omega
  | some m =>
    simp only
    rw [if_neg (not_or.mpr ⟨hrest, not_lt.mpr hlu⟩)]
    rw [List.max?_eq_some_iff] at hm
    obtain ⟨hmem, hmax⟩ := hm
    obtain ⟨i, hi, him⟩ := List.mem_map.mp hmem
    rw [List.mem_range] at hi
    obtain ⟨j, hj, hjne⟩ := hd
    have hpos : 0 < m := lt_of_lt_of_le (abs_pos.mpr hjne) (hmax _ (List.mem_map.mpr ⟨j, List.mem_range.mpr hj, rfl⟩))
    have hone : ∀ r : List ℝ, (((List.range rank).map fun i => |normal (u / 2) (u / 4) i|).map (· / m) ++ r)[i]? = some 1 := by
      intro r
      rw [List.getElem?_append_left (by simpa using hi)]
      simp only [List.getElem?_map, List.getElem?_range hi, Option.map_some, him, div_self hpos.ne']
    refine ⟨_, rfl, ⟨i, hi, hone _⟩, ?_⟩
    intro hu1 hf
    rw [List.forall₂_iff_get] at hf
    obtain ⟨hl, hf⟩ := hf
    have h1 := hone ((List.range (CholeskyParam.numbVariables nsize rank - (rank : ℤ)).toNat).map fun i =>
      normal ((u - l) / 2) ((u - l) / 4) (rank + i))
    obtain ⟨hi1, hi2⟩ := List.getElem?_eq_some_iff.mp h1
    have hb := (hf i hi1 (hl ▸ hi1)).2
    rw [List.get_eq_getElem, List.get_eq_getElem, hi2] at hb
    unfold CholeskyParam.bounds at hb
    rw [List.getElem_append_left (by simpa using hi), List.getElem_replicate] at hb
    exact absurd hb (not_le.mpr hu1)

/-- The hypotheses of `C38_normal_refuted` are met by any stream without zeros, at size 4 and rank 2. -/
example : ∃ v, CholeskyParam.randomVectors (fun _ _ _ => 1) (fun _ _ _ => 1) 4 2 .normal (-1) (1 / 2) = .ok v ∧
    ¬ List.Forall₂ (fun x b => b.1 ≤ x ∧ x ≤ b.2) v (CholeskyParam.bounds 4 2 (-1) (1 / 2)) := by
  obtain ⟨v, h1, -, h2⟩ := C38_normal_refuted (fun _ _ _ => 1) (fun _ _ _ => 1) 4 2 (by decide) (-1) (1 / 2) (by norm_num)
    (by norm_num) ⟨0, by decide, one_ne_zero⟩
  exact ⟨v, h1, h2 (by norm_num)⟩

/-- The number of variables at size 4 and rank 2 is 12. -/
example : CholeskyParam.numbVariables 4 2 = 12 ∧ (CholeskyParam.trilIndices 4 2).length = 5 := by decide

end PyQ
