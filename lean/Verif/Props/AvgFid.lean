import Verif.Model.AvgFid
import Verif.Lemmas.Choi
import Verif.Props.Effective
import Mathlib.Analysis.InnerProductSpace.Positive
import Mathlib.Topology.Order.Compact
import Mathlib.Algebra.Order.Chebyshev
import Mathlib.Topology.Instances.Matrix

/-!
# C46: the semidefinite programme for the decoder
-/

namespace PyQ

open Matrix Spec
open scoped ComplexOrder

namespace Spec

/-- The entanglement fidelity, for the maximally mixed state, of the channel with operators `K` (from `s` to `N`
dimensions) followed by the recovery with operators `R`: `∑ |tr (R_a K_b)|² / s²`. -/
noncomputable def entangFidelity {ι κ : Type} [Fintype ι] [Fintype κ] {s N : ℕ} (R : ι → Matrix (Fin s) (Fin N) ℂ)
    (K : κ → Matrix (Fin N) (Fin s) ℂ) : ℝ := (∑ a, ∑ b, ‖trace (R a * K b)‖ ^ 2) / (s : ℝ) ^ 2

end Spec

/-! ### The problem -/

section
variable {ks : List (Arr ℂ)} {q0 q1 di do' : ℕ}

/-- The problem built for operators of the right shape. -/
theorem entangFidProblem_ok (hne : ks ≠ []) (hsh : ∀ k ∈ ks, k.rows = di ^ q0 ∧ k.cols = do' ^ q1) :
    ∃ p, entangFidProblem ks q0 q1 di do' = .ok p ∧ p.dim = di ^ q0 * do' ^ q1 ∧ p.traced = 1 ∧
      p.dims = [(di ^ q0, di ^ q0), (do' ^ q1, do' ^ q1)] ∧
      (∀ i j, p.obj.get i j = (ks.map fun k => ravelAdjoint k i * ravelAdjoint k j).sum / ((di ^ q0 : ℕ) : ℂ) ^ 2) ∧
      p.obj.rows = p.dim ∧ p.obj.cols = p.dim := by
  cases ks with
  | nil => exact absurd rfl hne
  | cons k0 ks =>
    obtain ⟨h1, h2⟩ := hsh k0 (by simp)
    unfold entangFidProblem
    simp only
    rw [if_pos (by
      intro k hk
      obtain ⟨h3, h4⟩ := hsh k (by simp [hk])
      rw [h1, h2, h3, h4]), if_pos (by simp only [outerAdjoint, h1, h2])]
    refine ⟨_, rfl, rfl, rfl, rfl, fun i j => rfl, ?_, ?_⟩ <;> simp only [outerAdjoint, h1, h2]

/-- The constraints in terms of the partial trace over the second factor. -/
theorem feasible_iff {p : Sdp} {a b : ℕ} (hd : p.dim = a * b) (ht : p.traced = 1) (hdims : p.dims = [(a, a), (b, b)])
    (X : Arr ℂ) : p.Feasible X ↔ X.rows = a * b ∧ X.cols = a * b ∧ (X.mat (a * b) (a * b)).PosSemidef ∧
      traceOutput (X.mat (a * b) (a * b)) = 1 := by
  have hpt : (picosPartialTrace X a b).mat a a = traceOutput (X.mat (a * b) (a * b)) := by
    ext i j
    simp only [picosPartialTrace, Arr.mat, traceOutput, finProdFinEquiv_apply_val]
    rw [Finset.sum_range]
    refine Finset.sum_congr rfl fun t _ => ?_
    rw [mul_comm b i.val, mul_comm b j.val, add_comm (i.val * b), add_comm (j.val * b)]
  unfold Sdp.Feasible
  rw [hd, hdims, ht]
  constructor
  · rintro ⟨h1, h2, h3, a', b', -, h4, h5, h6⟩
    simp only [List.cons.injEq, Prod.mk.injEq, and_true] at h4
    obtain ⟨⟨rfl, -⟩, rfl, -⟩ := h4
    rw [hpt] at h6
    exact ⟨h1, h2, h3, h6⟩
  · rintro ⟨h1, h2, h3, h4⟩
    exact ⟨h1, h2, h3, a, b, rfl, rfl, rfl, hpt.trans h4⟩

/-- Every positive semidefinite matrix is a Choi matrix. -/
theorem posSemidef_iff_choi {n m : ℕ} (C : Matrix (Fin (n * m)) (Fin (n * m)) ℂ) :
    C.PosSemidef ↔ ∃ (l : ℕ) (R : Fin l → Matrix (Fin m) (Fin n) ℂ), C = choi R := by
  rw [posSemidef_iff_eq_sum_vecMulVec]
  constructor
  · rintro ⟨l, v, rfl⟩
    refine ⟨l, fun a x y => v a (finProdFinEquiv (y, x)), ?_⟩
    unfold choi
    refine Finset.sum_congr rfl fun a _ => ?_
    have : Spec.vec (fun x y => v a (finProdFinEquiv (y, x))) = v a := by
      funext i
      exact congrArg (v a) (finProdFinEquiv.apply_symm_apply i)
    rw [this]
  · rintro ⟨l, R, rfl⟩
    exact ⟨l, fun a => Spec.vec (R a), rfl⟩

/-- C46.  The feasible points of the problem for `numb_qubits = (M, N)`, with operators that map `N` to `M` systems,
are exactly the Choi matrices of recoveries from `M` to `N` systems: of completely positive, trace preserving maps.
The matrix of the objective has the shape of the variable. -/
theorem C46_feasible (hne : ks ≠ []) (hsh : ∀ k ∈ ks, k.rows = di ^ q0 ∧ k.cols = do' ^ q1) :
    ∃ p, entangFidProblem ks q0 q1 di do' = .ok p ∧ p.obj.rows = p.dim ∧ p.obj.cols = p.dim ∧
      ∀ X : Arr ℂ, p.Feasible X ↔
      X.rows = di ^ q0 * do' ^ q1 ∧ X.cols = di ^ q0 * do' ^ q1 ∧
        ∃ (l : ℕ) (R : Fin l → Matrix (Fin (do' ^ q1)) (Fin (di ^ q0)) ℂ), TracePreserving R ∧
          X.mat (di ^ q0 * do' ^ q1) (di ^ q0 * do' ^ q1) = choi R := by
  obtain ⟨p, h1, h2, h3, h4, -, h5, h6⟩ := entangFidProblem_ok hne hsh
  refine ⟨p, h1, h5, h6, fun X => ?_⟩
  rw [feasible_iff h2 h3 h4]
  constructor
  · rintro ⟨x1, x2, x3, x4⟩
    obtain ⟨l, R, hR⟩ := (posSemidef_iff_choi _).mp x3
    refine ⟨x1, x2, l, R, ?_, hR⟩
    rw [tp_iff_traceOutput, ← hR]
    exact x4
  · rintro ⟨x1, x2, l, R, hR, hX⟩
    refine ⟨x1, x2, (posSemidef_iff_choi _).mpr ⟨l, R, hX⟩, ?_⟩
    rw [hX]
    exact (tp_iff_traceOutput R).mp hR

theorem sum_vec_mul {N s l : ℕ} (R : Fin l → Matrix (Fin s) (Fin N) ℂ) (u w : ℕ → ℂ) (A B : Matrix (Fin N) (Fin s) ℂ)
    (hu : ∀ (y : Fin N) (x : Fin s), u (finProdFinEquiv (y, x)).val = A y x)
    (hw : ∀ (y : Fin N) (x : Fin s), w (finProdFinEquiv (y, x)).val = star (B y x)) :
    ∑ i : Fin (N * s), ∑ j : Fin (N * s), choi R i j * (u i * w j) =
      ∑ a, trace (R a * A) * star (trace (R a * B)) := by
  have h1 : ∀ a, ∑ i : Fin (N * s), vec (R a) i * u i = trace (R a * A) := by
    intro a
    rw [sum_index]
    simp only [vec_apply, hu, trace, diag_apply, Matrix.mul_apply]
    rw [Finset.sum_comm]
  have h2 : ∀ a, ∑ i : Fin (N * s), star (vec (R a) i) * w i = star (trace (R a * B)) := by
    intro a
    rw [sum_index]
    simp only [vec_apply, hw, trace, diag_apply, Matrix.mul_apply, star_sum, star_mul']
    rw [Finset.sum_comm]
  simp only [choi, Matrix.sum_apply, vecMulVec_apply, Pi.star_apply, Finset.sum_mul]
  have h3 : ∀ a, trace (R a * A) * star (trace (R a * B)) =
      ∑ i : Fin (N * s), ∑ j : Fin (N * s), vec (R a) i * star (vec (R a) j) * (u i * w j) := by
    intro a
    rw [← h1 a, ← h2 a, Finset.sum_mul]
    refine Finset.sum_congr rfl fun i _ => ?_
    rw [Finset.mul_sum]
    refine Finset.sum_congr rfl fun j _ => ?_
    ring
  simp only [h3]
  rw [Finset.sum_congr rfl fun i _ => Finset.sum_comm, Finset.sum_comm]

theorem ravelAdjoint_index {N s : ℕ} {k : Arr ℂ} (hc : k.cols = s) (y : Fin N) (x : Fin s) :
    ravelAdjoint k (finProdFinEquiv (y, x)).val = star (k.get y x) := by
  have hs : 0 < s := x.pos
  unfold ravelAdjoint
  rw [finProdFinEquiv_apply_val, hc, Nat.add_mul_div_left _ _ hs, Nat.div_eq_of_lt x.2, Nat.add_mul_mod_self_left,
    Nat.mod_eq_of_lt x.2, zero_add]

/-- C46, what the objective is.  At the Choi matrix of a recovery with operators `R` it is
`∑ Re (tr (R_a K̄_b) conj (tr (R_a K_b)))` divided by the square of the input dimension of the recovery, where `K̄` is
the entry-wise conjugate. -/
theorem C46_objective (hne : ks ≠ []) (hsh : ∀ k ∈ ks, k.rows = di ^ q0 ∧ k.cols = do' ^ q1) {p : Sdp}
    (hp : entangFidProblem ks q0 q1 di do' = .ok p) {l : ℕ} (R : Fin l → Matrix (Fin (do' ^ q1)) (Fin (di ^ q0)) ℂ)
    {X : Arr ℂ} (hX : X.mat (di ^ q0 * do' ^ q1) (di ^ q0 * do' ^ q1) = choi R) :
    p.value X = (∑ b : Fin ks.length, ∑ a, (trace (R a * (ks[b].mat (di ^ q0) (do' ^ q1)).map star) *
      star (trace (R a * ks[b].mat (di ^ q0) (do' ^ q1)))).re) / ((di ^ q0 : ℕ) : ℝ) ^ 2 := by
  obtain ⟨p', h1, h2, -, -, h5, -⟩ := entangFidProblem_ok hne hsh
  rw [hp] at h1
  injection h1 with h1
  subst h1
  have key : ∑ i ∈ Finset.range p.dim, ∑ j ∈ Finset.range p.dim, X.get i j * p.obj.get j i =
      (∑ b : Fin ks.length, ∑ a, trace (R a * (ks[b].mat (di ^ q0) (do' ^ q1)).map star) *
        star (trace (R a * ks[b].mat (di ^ q0) (do' ^ q1)))) / ((di ^ q0 : ℕ) : ℂ) ^ 2 := by
    have hb : ∀ b : Fin ks.length, ∑ a, trace (R a * (ks[b].mat (di ^ q0) (do' ^ q1)).map star) *
        star (trace (R a * ks[b].mat (di ^ q0) (do' ^ q1))) =
        ∑ i : Fin (di ^ q0 * do' ^ q1), ∑ j : Fin (di ^ q0 * do' ^ q1), X.get i j *
          (ravelAdjoint ks[b] i * ravelAdjoint ks[b] j) := by
      intro b
      have hk := hsh ks[b] (List.getElem_mem _)
      rw [← sum_vec_mul R (ravelAdjoint ks[b]) (ravelAdjoint ks[b])
        ((ks[b].mat (di ^ q0) (do' ^ q1)).map star) (ks[b].mat (di ^ q0) (do' ^ q1))
        (fun y x => ravelAdjoint_index hk.2 y x) (fun y x => ravelAdjoint_index hk.2 y x), ← hX]
      rfl
    rw [Finset.sum_congr rfl fun b _ => hb b, h2, Finset.sum_range]
    simp only [Finset.sum_range, h5, ← Fin.sum_univ_fun_getElem, mul_div_assoc', Finset.sum_div, Finset.mul_sum]
    rw [Finset.sum_congr rfl fun i _ => Finset.sum_comm, Finset.sum_comm]
    refine Finset.sum_congr rfl fun b _ => Finset.sum_congr rfl fun i _ => Finset.sum_congr rfl fun j _ => ?_
    simp only [Fin.getElem_fin]
    ring
  unfold Sdp.value
  rw [key]
  have hre : ∀ z : ℂ, (z / ((di ^ q0 : ℕ) : ℂ) ^ 2).re = z.re / ((di ^ q0 : ℕ) : ℝ) ^ 2 := by
    intro z
    rw [← Complex.ofReal_natCast, ← Complex.ofReal_pow, Complex.div_ofReal_re]
  rw [hre, Complex.re_sum]
  simp only [Complex.re_sum]

/-- C46 for real Kraus operators: the objective is the entanglement fidelity, but divided by the square of the input
dimension of the recovery instead of the output dimension.  Missing: the right factor and complex operators. -/
theorem C46_objective_partial (hne : ks ≠ []) (hsh : ∀ k ∈ ks, k.rows = di ^ q0 ∧ k.cols = do' ^ q1) {p : Sdp}
    (hreal : ∀ k ∈ ks, ∀ i < k.rows, ∀ j < k.cols, star (k.get i j) = k.get i j) (hd : 0 < do')
    (hp : entangFidProblem ks q0 q1 di do' = .ok p) {l : ℕ} (R : Fin l → Matrix (Fin (do' ^ q1)) (Fin (di ^ q0)) ℂ)
    {X : Arr ℂ} (hX : X.mat (di ^ q0 * do' ^ q1) (di ^ q0 * do' ^ q1) = choi R) :
    p.value X = entangFidelity R (fun b : Fin ks.length => ks[b].mat (di ^ q0) (do' ^ q1)) *
      (((do' ^ q1 : ℕ) : ℝ) / ((di ^ q0 : ℕ) : ℝ)) ^ 2 := by
  rw [C46_objective hne hsh hp R hX]
  have h1 : ∀ b : Fin ks.length, (ks[b].mat (di ^ q0) (do' ^ q1)).map star = ks[b].mat (di ^ q0) (do' ^ q1) := by
    intro b
    obtain ⟨h1, h2⟩ := hsh ks[b] (List.getElem_mem _)
    ext i j
    exact hreal ks[b] (List.getElem_mem _) i (by rw [h1]; exact i.2) j (by rw [h2]; exact j.2)
  simp only [h1]
  have h2 : ∀ z : ℂ, (z * star z).re = ‖z‖ ^ 2 := by
    intro z
    rw [show star z = (starRingEnd ℂ) z from rfl, Complex.mul_conj, Complex.ofReal_re, Complex.normSq_eq_norm_sq]
  simp only [h2]
  unfold entangFidelity
  rw [Finset.sum_comm]
  have hs : (((do' ^ q1 : ℕ) : ℝ)) ≠ 0 := by
    have := pow_pos hd q1
    exact_mod_cast this.ne'
  rw [div_pow]
  field_simp

/-! ### The optimum is attained -/

theorem choi_entry_le {n m l : ℕ} (R : Fin l → Matrix (Fin m) (Fin n) ℂ) (i j : Fin (n * m)) :
    ‖choi R i j‖ ≤ (trace (choi R)).re := by
  have hdiag : ∀ i, (choi R i i).re = ∑ a, ‖Spec.vec (R a) i‖ ^ 2 := by
    intro i
    simp only [choi, Matrix.sum_apply, vecMulVec_apply, Pi.star_apply, Complex.re_sum]
    refine Finset.sum_congr rfl fun a _ => ?_
    rw [show star (Spec.vec (R a) i) = (starRingEnd ℂ) (Spec.vec (R a) i) from rfl, Complex.mul_conj,
      Complex.ofReal_re, Complex.normSq_eq_norm_sq]
  have hle : ∀ i, (choi R i i).re ≤ (trace (choi R)).re := by
    intro i
    rw [trace, Complex.re_sum]
    refine Finset.single_le_sum (f := fun i => (choi R i i).re) (fun k _ => ?_) (Finset.mem_univ i)
    rw [hdiag]
    positivity
  have hij : ‖choi R i j‖ ≤ ((choi R i i).re + (choi R j j).re) / 2 := by
    rw [hdiag, hdiag, ← Finset.sum_add_distrib, Finset.sum_div]
    simp only [choi, Matrix.sum_apply, vecMulVec_apply, Pi.star_apply]
    refine (norm_sum_le _ _).trans (Finset.sum_le_sum fun a _ => ?_)
    rw [norm_mul, norm_star]
    nlinarith [sq_nonneg (‖Spec.vec (R a) i‖ - ‖Spec.vec (R a) j‖)]
  linarith [hle i, hle j]

theorem trace_eq_traceOutput {n m : ℕ} (C : Matrix (Fin (n * m)) (Fin (n * m)) ℂ) :
    trace C = trace (traceOutput C) := by
  simp only [trace, diag_apply, traceOutput]
  rw [sum_index]

theorem isCompact_feasible (a b : ℕ) : IsCompact {M : Matrix (Fin (a * b)) (Fin (a * b)) ℂ |
    M.PosSemidef ∧ traceOutput M = 1} := by
  have hbox : IsCompact (Set.univ.pi fun _ : Fin (a * b) => Set.univ.pi fun _ : Fin (a * b) =>
      Metric.closedBall (0 : ℂ) a) :=
    isCompact_univ_pi fun _ => isCompact_univ_pi fun _ => isCompact_closedBall _ _
  refine hbox.of_isClosed_subset ?_ ?_
  · have h1 : IsClosed {M : Matrix (Fin (a * b)) (Fin (a * b)) ℂ | M.PosSemidef} := by
      have : {M : Matrix (Fin (a * b)) (Fin (a * b)) ℂ | M.PosSemidef} =
          {M | M.IsHermitian} ∩ ⋂ x : Fin (a * b) → ℂ, {M | 0 ≤ star x ⬝ᵥ (M *ᵥ x)} := by
        ext M
        simp only [Set.mem_setOf_eq, Set.mem_inter_iff, Set.mem_iInter]
        exact posSemidef_iff_dotProduct_mulVec
      rw [this]
      refine IsClosed.inter ?_ (isClosed_iInter fun x => ?_)
      · exact isClosed_eq continuous_id.matrix_conjTranspose continuous_id
      · refine isClosed_le continuous_const ?_
        exact Continuous.dotProduct continuous_const (Continuous.matrix_mulVec continuous_id continuous_const)
    have h2 : IsClosed {M : Matrix (Fin (a * b)) (Fin (a * b)) ℂ | traceOutput M = 1} := by
      refine isClosed_eq ?_ continuous_const
      refine continuous_matrix fun i j => ?_
      exact continuous_finsetSum _ fun x _ => continuous_id.matrix_elem _ _
    exact h1.inter h2
  · rintro M ⟨h1, h2⟩
    obtain ⟨l, R, rfl⟩ := (posSemidef_iff_choi _).mp h1
    intro i _ j _
    rw [mem_closedBall_zero_iff]
    refine (choi_entry_le R i j).trans ?_
    rw [trace_eq_traceOutput, h2]
    simp

/-- The problem has an optimal point. -/
theorem exists_optimal {p : Sdp} {a b : ℕ} (hb : 0 < b) (hd : p.dim = a * b) (ht : p.traced = 1)
    (hdims : p.dims = [(a, a), (b, b)]) : ∃ X, p.Feasible X ∧ ∀ Y, p.Feasible Y → p.value Y ≤ p.value X := by
  have hval : ∀ X : Arr ℂ, p.value X = (∑ i : Fin (a * b), ∑ j : Fin (a * b),
      X.mat (a * b) (a * b) i j * p.obj.get j i).re := by
    intro X
    unfold Sdp.value
    rw [hd, Finset.sum_range]
    simp only [Finset.sum_range]
    rfl
  have hne : ({M : Matrix (Fin (a * b)) (Fin (a * b)) ℂ | M.PosSemidef ∧ traceOutput M = 1}).Nonempty := by
    refine ⟨((b : ℝ)⁻¹ : ℝ) • 1, ?_, ?_⟩
    · exact PosSemidef.one.smul (inv_nonneg.mpr (Nat.cast_nonneg b))
    · have hb' : (b : ℂ) ≠ 0 := by exact_mod_cast hb.ne'
      ext y y'
      simp only [traceOutput, Matrix.smul_apply, Matrix.one_apply, EmbeddingLike.apply_eq_iff_eq, Prod.mk.injEq,
        and_true, Complex.real_smul, Complex.ofReal_inv, Complex.ofReal_natCast]
      rw [Finset.sum_const, Finset.card_univ, Fintype.card_fin, nsmul_eq_mul, ← mul_assoc, mul_inv_cancel₀ hb', one_mul]
  obtain ⟨M, hM, hmax⟩ := (isCompact_feasible a b).exists_isMaxOn hne
    (f := fun M => (∑ i : Fin (a * b), ∑ j : Fin (a * b), M i j * p.obj.get j i).re) (by
      refine Continuous.continuousOn (Complex.continuous_re.comp ?_)
      exact continuous_finsetSum _ fun i _ => continuous_finsetSum _ fun j _ =>
        (continuous_id.matrix_elem i j).mul continuous_const)
  have hmat : (Arr.ofMat M).mat (a * b) (a * b) = M := by
    ext i j
    simp [Arr.ofMat, Arr.mat]
  refine ⟨Arr.ofMat M, ?_, ?_⟩
  · rw [feasible_iff hd ht hdims, hmat]
    exact ⟨rfl, rfl, hM.1, hM.2⟩
  · intro Y hY
    rw [feasible_iff hd ht hdims] at hY
    rw [hval, hval, hmat]
    exact hmax (Set.mem_setOf.mpr ⟨hY.2.2.1, hY.2.2.2⟩)

/-- C46.  For real Kraus operators `_optimize_average_entang_fid(krauss, (M, N), ...)` returns the Choi matrix of a
recovery with the largest entanglement fidelity among all recoveries, and that fidelity times
`(output dimension / input dimension)²`.  Missing: the reported value is not the fidelity, and complex operators. -/
theorem C46_solution_partial {sol : SdpSolver} (hsol : sol.Correct) (hne : ks ≠ [])
    (hsh : ∀ k ∈ ks, k.rows = di ^ q0 ∧ k.cols = do' ^ q1) (hd : 0 < do') (hdi : 0 < di)
    (hreal : ∀ k ∈ ks, ∀ i < k.rows, ∀ j < k.cols, star (k.get i j) = k.get i j) :
    ∃ (X : Arr ℂ) (v : ℝ) (l : ℕ) (R : Fin l → Matrix (Fin (do' ^ q1)) (Fin (di ^ q0)) ℂ),
      optimizeEntangFid sol ks q0 q1 di do' = .ok (X, v) ∧ TracePreserving R ∧
      X.mat (di ^ q0 * do' ^ q1) (di ^ q0 * do' ^ q1) = choi R ∧
      (∀ (m : ℕ) (S : Fin m → Matrix (Fin (do' ^ q1)) (Fin (di ^ q0)) ℂ), TracePreserving S →
        entangFidelity S (fun b : Fin ks.length => ks[b].mat (di ^ q0) (do' ^ q1)) ≤
          entangFidelity R (fun b : Fin ks.length => ks[b].mat (di ^ q0) (do' ^ q1))) ∧
      v = entangFidelity R (fun b : Fin ks.length => ks[b].mat (di ^ q0) (do' ^ q1)) *
        (((do' ^ q1 : ℕ) : ℝ) / ((di ^ q0 : ℕ) : ℝ)) ^ 2 := by
  obtain ⟨p, hp, p1, p2, p3, -⟩ := entangFidProblem_ok hne hsh
  obtain ⟨p', hp', -, -, hfeas⟩ := C46_feasible hne hsh
  rw [hp] at hp'
  injection hp' with hp'
  subst hp'
  obtain ⟨s1, s2, s3⟩ := hsol p (exists_optimal (pow_pos hd q1) p1 p2 p3)
  obtain ⟨-, -, l, R, hR, hX⟩ := (hfeas _).mp s1
  have hv := C46_objective_partial hne hsh hreal hd hp R hX
  refine ⟨(sol p).1, (sol p).2, l, R, ?_, hR, hX, ?_, s2.trans hv⟩
  · unfold optimizeEntangFid
    rw [hp]
    rfl
  · intro m S hS
    have hmat : (Arr.ofMat (choi S)).mat (di ^ q0 * do' ^ q1) (di ^ q0 * do' ^ q1) = choi S := by
      ext i j
      simp [Arr.ofMat, Arr.mat]
    have h1 := s3 (Arr.ofMat (choi S)) ((hfeas _).mpr ⟨rfl, rfl, m, S, hS, hmat⟩)
    rw [s2, C46_objective_partial hne hsh hreal hd hp S hmat, hv] at h1
    have hpos : (0 : ℝ) < (((do' ^ q1 : ℕ) : ℝ) / ((di ^ q0 : ℕ) : ℝ)) ^ 2 := by
      have h2 : (0 : ℝ) < ((do' ^ q1 : ℕ) : ℝ) := by exact_mod_cast pow_pos hd q1
      have h3 : (0 : ℝ) < ((di ^ q0 : ℕ) : ℝ) := by exact_mod_cast pow_pos hdi q0
      positivity
    exact le_of_mul_le_mul_right h1 hpos

/-- A solver as in the contract exists. -/
theorem exists_sdpSolver : ∃ sol : SdpSolver, sol.Correct := by
  classical
  refine ⟨fun p => if h : ∃ X, p.Feasible X ∧ ∀ Y, p.Feasible Y → p.value Y ≤ p.value X then
    (h.choose, p.value h.choose) else (⟨0, 0, fun _ _ => 0⟩, 0), ?_⟩
  intro p h
  simp only [dif_pos h]
  exact ⟨h.choose_spec.1, trivial, h.choose_spec.2⟩

/-! ### The reported value -/

theorem norm_trace_mul_sq_le {s N : ℕ} (A : Matrix (Fin s) (Fin N) ℂ) (B : Matrix (Fin N) (Fin s) ℂ) :
    ‖trace (A * B)‖ ^ 2 ≤ s * (trace ((A * B)ᴴ * (A * B))).re := by
  have h1 : ‖trace (A * B)‖ ≤ ∑ i, ‖(A * B) i i‖ := norm_sum_le _ _
  have h2 : (∑ i, ‖(A * B) i i‖) ^ 2 ≤ s * ∑ i, ‖(A * B) i i‖ ^ 2 := by
    have := sq_sum_le_card_mul_sum_sq (s := (Finset.univ : Finset (Fin s))) (f := fun i => ‖(A * B) i i‖)
    simpa using this
  have h3 : ∑ i, ‖(A * B) i i‖ ^ 2 ≤ (trace ((A * B)ᴴ * (A * B))).re := by
    simp only [trace, diag_apply, Matrix.mul_apply (M := (A * B)ᴴ), conjTranspose_apply, Complex.re_sum]
    refine Finset.sum_le_sum fun i _ => ?_
    have hterm : ∀ j, (star ((A * B) j i) * (A * B) j i).re = ‖(A * B) j i‖ ^ 2 := by
      intro j
      rw [mul_comm, show star ((A * B) j i) = (starRingEnd ℂ) ((A * B) j i) from rfl, Complex.mul_conj,
        Complex.ofReal_re, Complex.normSq_eq_norm_sq]
    simp only [hterm]
    exact Finset.single_le_sum (f := fun j => ‖(A * B) j i‖ ^ 2) (fun j _ => by positivity) (Finset.mem_univ i)
  have h4 : ‖trace (A * B)‖ ^ 2 ≤ (∑ i, ‖(A * B) i i‖) ^ 2 := pow_le_pow_left₀ (norm_nonneg _) h1 2
  refine h4.trans (h2.trans ?_)
  exact mul_le_mul_of_nonneg_left h3 (Nat.cast_nonneg s)

/-- The fidelity is at most one. -/
theorem entangFidelity_le_one {ι κ : Type} [Fintype ι] [Fintype κ] {s N : ℕ} {R : ι → Matrix (Fin s) (Fin N) ℂ}
    {K : κ → Matrix (Fin N) (Fin s) ℂ} (hR : TracePreserving R) (hK : TracePreserving K) : entangFidelity R K ≤ 1 := by
  have hR' : ∑ a, (R a)ᴴ * R a = 1 := hR
  have hK' : ∑ b, (K b)ᴴ * K b = 1 := hK
  have key : ∑ a, ∑ b, ‖trace (R a * K b)‖ ^ 2 ≤ (s : ℝ) ^ 2 := by
    calc ∑ a, ∑ b, ‖trace (R a * K b)‖ ^ 2
        ≤ ∑ a, ∑ b, (s : ℝ) * (trace ((R a * K b)ᴴ * (R a * K b))).re :=
          Finset.sum_le_sum fun a _ => Finset.sum_le_sum fun b _ => norm_trace_mul_sq_le _ _
      _ = s * (trace (∑ b, (K b)ᴴ * (∑ a, (R a)ᴴ * R a) * K b)).re := by
          rw [Finset.sum_comm, trace_sum, Complex.re_sum, Finset.mul_sum]
          refine Finset.sum_congr rfl fun b _ => ?_
          rw [← Finset.mul_sum, Matrix.mul_sum, Matrix.sum_mul, trace_sum, Complex.re_sum]
          refine congrArg _ (Finset.sum_congr rfl fun a _ => ?_)
          rw [conjTranspose_mul]
          simp only [Matrix.mul_assoc]
      _ = (s : ℝ) ^ 2 := by
          rw [hR']
          simp only [Matrix.mul_one]
          rw [hK']
          simp [trace_one, sq]
  unfold entangFidelity
  exact div_le_one_of_le₀ key (by positivity)

/-- An isometry can be undone. -/
theorem exists_perfect_recovery {s N : ℕ} (hs : 0 < s) {V : Matrix (Fin N) (Fin s) ℂ} (hV : Vᴴ * V = 1) :
    ∃ (l : ℕ) (R : Fin l → Matrix (Fin s) (Fin N) ℂ), TracePreserving R ∧ entangFidelity R (fun _ : Fin 1 => V) = 1 := by
  let P : Matrix (Fin N) (Fin N) ℂ := 1 - V * Vᴴ
  let R : Fin (N + 1) → Matrix (Fin s) (Fin N) ℂ :=
    Fin.cons Vᴴ fun i => Matrix.single (⟨0, hs⟩ : Fin s) i (1 : ℂ) * P
  have hP : Pᴴ * P = P := by
    simp only [P, conjTranspose_sub, conjTranspose_one, conjTranspose_mul, conjTranspose_conjTranspose]
    rw [Matrix.sub_mul, Matrix.mul_sub, Matrix.mul_sub, Matrix.mul_one, Matrix.one_mul,
      show V * Vᴴ * (V * Vᴴ) = V * (Vᴴ * V) * Vᴴ by simp only [Matrix.mul_assoc], hV, Matrix.mul_one,
      Matrix.mul_one]
    abel
  have hR : TracePreserving R := by
    show ∑ a, (R a)ᴴ * R a = 1
    rw [Fin.sum_univ_succ]
    simp only [R, Fin.cons_zero, Fin.cons_succ, conjTranspose_conjTranspose, conjTranspose_mul, conjTranspose_single]
    have : ∀ i, Pᴴ * Matrix.single i (⟨0, hs⟩ : Fin s) (star (1 : ℂ)) * (Matrix.single (⟨0, hs⟩ : Fin s) i (1 : ℂ) * P) =
        Pᴴ * Matrix.single i i 1 * P := by
      intro i
      rw [Matrix.mul_assoc Pᴴ, ← Matrix.mul_assoc (Matrix.single _ _ _), Matrix.single_mul_single_same]
      simp [Matrix.mul_assoc]
    simp only [this]
    rw [← Matrix.sum_mul, ← Matrix.mul_sum]
    have hone : ∑ i : Fin N, Matrix.single i i (1 : ℂ) = 1 := by
      ext a b
      simp [Matrix.sum_apply, Matrix.single_apply, Matrix.one_apply, Finset.sum_ite, ite_and]
    rw [hone, Matrix.mul_one, hP]
    simp only [P]
    abel
  have hK : TracePreserving (fun _ : Fin 1 => V) := by
    show ∑ a : Fin 1, Vᴴ * V = 1
    simp [hV]
  refine ⟨N + 1, R, hR, le_antisymm (entangFidelity_le_one hR hK) ?_⟩
  unfold entangFidelity
  rw [le_div_iff₀ (by positivity), one_mul]
  refine le_trans ?_ (Finset.single_le_sum (f := fun a => ∑ b : Fin 1, ‖trace (R a * V)‖ ^ 2)
    (fun a _ => by positivity) (Finset.mem_univ 0))
  simp only [R, Fin.cons_zero, hV, trace_one, Fintype.card_fin, Finset.univ_unique, Finset.sum_singleton]
  simp

/-- C46, refuted for the value of the documented call: when the recovery has more input than output dimensions, the
value reported for a real channel is at most `(output dimension / input dimension)² < 1`, even where the best recovery
restores every state. -/
theorem C46_scale_refuted {sol : SdpSolver} (hsol : sol.Correct) (hne : ks ≠ [])
    (hsh : ∀ k ∈ ks, k.rows = di ^ q0 ∧ k.cols = do' ^ q1) (hd : 0 < do') (hlt : do' ^ q1 < di ^ q0)
    (hreal : ∀ k ∈ ks, ∀ i < k.rows, ∀ j < k.cols, star (k.get i j) = k.get i j)
    (htp : TracePreserving fun b : Fin ks.length => ks[b].mat (di ^ q0) (do' ^ q1)) :
    ∃ X v, optimizeEntangFid sol ks q0 q1 di do' = .ok (X, v) ∧
      v ≤ (((do' ^ q1 : ℕ) : ℝ) / ((di ^ q0 : ℕ) : ℝ)) ^ 2 ∧ v < 1 := by
  have hpos : 0 < do' ^ q1 := pow_pos hd q1
  have hdi : 0 < di := by
    rcases Nat.eq_zero_or_pos di with rfl | h
    · rcases Nat.eq_zero_or_pos q0 with rfl | h
      · rw [pow_zero] at hlt
        omega
      · rw [zero_pow h.ne'] at hlt
        omega
    · exact h
  obtain ⟨X, v, l, R, h1, h2, -, -, h5⟩ := C46_solution_partial hsol hne hsh hd hdi hreal
  have h6 := entangFidelity_le_one h2 htp
  have ha : (0 : ℝ) < ((do' ^ q1 : ℕ) : ℝ) := by exact_mod_cast hpos
  have hab : ((do' ^ q1 : ℕ) : ℝ) < ((di ^ q0 : ℕ) : ℝ) := by exact_mod_cast hlt
  have h7 : v ≤ (((do' ^ q1 : ℕ) : ℝ) / ((di ^ q0 : ℕ) : ℝ)) ^ 2 := by
    rw [h5]
    exact mul_le_of_le_one_left (by positivity) h6
  refine ⟨X, v, h1, h7, h7.trans_lt ?_⟩
  have : ((do' ^ q1 : ℕ) : ℝ) / ((di ^ q0 : ℕ) : ℝ) < 1 := (div_lt_one (ha.trans hab)).mpr hab
  exact pow_lt_one₀ (by positivity) this two_ne_zero

/-! ### Complex operators -/

/-- C46, refuted for complex operators: for the channel with the one Kraus operator `i I`, which changes no state, the
identity is a recovery of fidelity one, but the programme returns a recovery of fidelity zero. -/
theorem C46_complex_refuted {sol : SdpSolver} (hsol : sol.Correct) :
    ∃ (X : Arr ℂ) (v : ℝ) (l : ℕ) (R : Fin l → Matrix (Fin (2 ^ 1)) (Fin (2 ^ 1)) ℂ),
      optimizeEntangFid sol [⟨2, 2, fun i j => if i = j then Complex.I else 0⟩] 1 1 2 2 = .ok (X, v) ∧ v = 0 ∧
      TracePreserving R ∧ X.mat (2 ^ 1 * 2 ^ 1) (2 ^ 1 * 2 ^ 1) = choi R ∧
      entangFidelity R (fun _ : Fin 1 => Complex.I • (1 : Matrix (Fin (2 ^ 1)) (Fin (2 ^ 1)) ℂ)) = 0 ∧
      entangFidelity (fun _ : Fin 1 => (1 : Matrix (Fin (2 ^ 1)) (Fin (2 ^ 1)) ℂ))
        (fun _ : Fin 1 => Complex.I • (1 : Matrix (Fin (2 ^ 1)) (Fin (2 ^ 1)) ℂ)) = 1 := by
  set K : Arr ℂ := ⟨2, 2, fun i j => if i = j then Complex.I else 0⟩ with hK
  have hmatK : K.mat (2 ^ 1) (2 ^ 1) = Complex.I • 1 := by
    ext i j
    simp only [hK, Arr.mat, Matrix.smul_apply, Matrix.one_apply, smul_eq_mul, Fin.ext_iff]
    split_ifs <;> simp
  have hstar : (Complex.I • (1 : Matrix (Fin (2 ^ 1)) (Fin (2 ^ 1)) ℂ)).map star = (-Complex.I) • 1 := by
    ext i j
    simp only [Matrix.map_apply, Matrix.smul_apply, Matrix.one_apply, smul_eq_mul]
    split_ifs <;> simp
  have hsh : ∀ k ∈ [K], k.rows = 2 ^ 1 ∧ k.cols = 2 ^ 1 := by simp [hK]
  obtain ⟨p, hp, p1, p2, p3, -⟩ := entangFidProblem_ok (by simp) hsh
  obtain ⟨p', hp', -, -, hfeas⟩ := C46_feasible (by simp) hsh
  rw [hp] at hp'
  injection hp' with hp'
  subst hp'
  have hval : ∀ {l : ℕ} (R : Fin l → Matrix (Fin (2 ^ 1)) (Fin (2 ^ 1)) ℂ) {X : Arr ℂ},
      X.mat (2 ^ 1 * 2 ^ 1) (2 ^ 1 * 2 ^ 1) = choi R →
        p.value X = -(∑ a, ‖trace (R a)‖ ^ 2) / (((2 ^ 1 : ℕ) : ℝ)) ^ 2 := by
    intro l R X hX
    rw [C46_objective (by simp) hsh hp R hX]
    congr 1
    rw [show ∀ f : Fin [K].length → ℝ, ∑ b, f b = f 0 from fun f => Fin.sum_univ_one f, ← Finset.sum_neg_distrib]
    refine Finset.sum_congr rfl fun a _ => ?_
    show (trace (R a * (K.mat (2 ^ 1) (2 ^ 1)).map star) * star (trace (R a * K.mat (2 ^ 1) (2 ^ 1)))).re = _
    rw [hmatK, hstar, Matrix.mul_smul, Matrix.mul_smul, Matrix.mul_one, trace_smul, trace_smul, smul_eq_mul, smul_eq_mul,
      star_mul']
    have : -Complex.I * trace (R a) * (star Complex.I * star (trace (R a))) =
        -(trace (R a) * (starRingEnd ℂ) (trace (R a))) := by
      have : star Complex.I = -Complex.I := Complex.conj_I
      rw [this, show star (trace (R a)) = (starRingEnd ℂ) (trace (R a)) from rfl]
      linear_combination (trace (R a)) * (starRingEnd ℂ) (trace (R a)) * Complex.I_sq
    rw [this, Complex.mul_conj, Complex.neg_re, Complex.ofReal_re, Complex.normSq_eq_norm_sq]
  obtain ⟨s1, s2, s3⟩ := hsol p (exists_optimal (pow_pos two_pos 1) p1 p2 p3)
  obtain ⟨-, -, l, R, hR, hX⟩ := (hfeas _).mp s1
  -- the bit flip has value zero
  let S : Fin 1 → Matrix (Fin (2 ^ 1)) (Fin (2 ^ 1)) ℂ := fun _ => !![0, 1; 1, 0]
  have hS : TracePreserving S := by
    show ∑ a : Fin 1, (S a)ᴴ * S a = 1
    ext i j
    fin_cases i <;> fin_cases j <;> simp [S, Matrix.mul_apply, Fin.sum_univ_two]
  have hmat : (Arr.ofMat (choi S)).mat (2 ^ 1 * 2 ^ 1) (2 ^ 1 * 2 ^ 1) = choi S := by
    ext i j
    simp [Arr.ofMat, Arr.mat]
  have h1 := s3 (Arr.ofMat (choi S)) ((hfeas _).mpr ⟨rfl, rfl, 1, S, hS, hmat⟩)
  rw [s2, hval S hmat, hval R hX] at h1
  have hS0 : ∑ a, ‖trace (S a)‖ ^ 2 = 0 := by
    simp [S, trace, Fin.sum_univ_two]
  rw [hS0] at h1
  have hsum : ∑ a, ‖trace (R a)‖ ^ 2 = 0 := by
    have h0 : 0 ≤ ∑ a, ‖trace (R a)‖ ^ 2 := by positivity
    norm_num at h1
    linarith
  refine ⟨(sol p).1, (sol p).2, l, R, ?_, ?_, hR, hX, ?_, ?_⟩
  · unfold optimizeEntangFid
    rw [hp]
    rfl
  · rw [s2, hval R hX, hsum, neg_zero, zero_div]
  · unfold entangFidelity
    simp only [Matrix.mul_smul, Matrix.mul_one, trace_smul, smul_eq_mul, norm_mul, Complex.norm_I, one_mul,
      Finset.univ_unique, Finset.sum_singleton]
    rw [hsum, zero_div]
  · unfold entangFidelity
    simp [trace_smul, trace_one]

/-! ### `optimize_decoder_stabilizers` -/

/-- The problem is set up with these dimensions, whatever the operators. -/
theorem entangFidProblem_data {p : Sdp} (hp : entangFidProblem ks q0 q1 di do' = .ok p) :
    p.dim = di ^ q0 * do' ^ q1 ∧ p.traced = 1 ∧ p.dims = [(di ^ q0, di ^ q0), (do' ^ q1, do' ^ q1)] := by
  cases ks with
  | nil => cases hp
  | cons k0 ks =>
    unfold entangFidProblem at hp
    simp only at hp
    split_ifs at hp
    injection hp with hp
    subst hp
    exact ⟨rfl, rfl, rfl⟩

theorem mat_trace {X : Arr ℂ} {a b : ℕ} (h : a = b) : trace (X.mat a a) = trace (X.mat b b) := by
  subst h
  rfl

/-- C46, refuted for the decoder of a stabilizer code: the matrix that `optimize_decoder_stabilizers(stab, (n, k),
...)` returns is not the Choi matrix of any recovery from `n` qubits to `k` qubits, unless `k = n`. -/
theorem C46_stabilizer_recovery_refuted {eigh : Eigh} {sol : SdpSolver} (hsol : sol.Correct) {s : StabInput}
    {n k : ℕ} (hkn : k ≠ n) {errors : List (Arr ℂ)} {X : Arr ℂ} {v : ℝ}
    (h : optimizeDecoderStabilizers eigh sol s n k errors = .ok (X, v)) (l : ℕ)
    (R : Fin l → Matrix (Fin (2 ^ k)) (Fin (2 ^ n)) ℂ) (hR : TracePreserving R) :
    X.mat (2 ^ n * 2 ^ k) (2 ^ n * 2 ^ k) ≠ choi R := by
  intro hX
  obtain ⟨K, -, h⟩ := bind_ok_iff.mp h
  unfold optimizeEntangFid at h
  obtain ⟨p, hp, h⟩ := bind_ok_iff.mp h
  obtain ⟨p1, p2, p3⟩ := entangFidProblem_data hp
  obtain ⟨s1, -, -⟩ := hsol p (exists_optimal (pow_pos two_pos n) p1 p2 p3)
  injection h with h
  rw [h] at s1
  have h1 := ((feasible_iff p1 p2 p3 _).mp s1).2.2.2
  have h2 : trace (X.mat (2 ^ k * 2 ^ n) (2 ^ k * 2 ^ n)) = ((2 ^ k : ℕ) : ℂ) := by
    rw [trace_eq_traceOutput, h1, trace_one, Fintype.card_fin]
  have h3 : trace (X.mat (2 ^ n * 2 ^ k) (2 ^ n * 2 ^ k)) = ((2 ^ n : ℕ) : ℂ) := by
    rw [hX, trace_eq_traceOutput, (tp_iff_traceOutput R).mp hR, trace_one, Fintype.card_fin]
  rw [mat_trace (mul_comm (2 ^ k) (2 ^ n)), h3] at h2
  exact hkn (Nat.pow_right_injective le_rfl (by exact_mod_cast h2.symm))

/-- C46, refuted for more than one logical qubit: the procedure never returns. -/
theorem C46_multi_qubit_refuted {eigh : Eigh} (hE : eigh.Correct) {sol : SdpSolver} {s : StabInput} {n k : ℕ}
    {c : StabCode} (h : stabInit s n k none = .ok c) (hk : 2 ≤ k) (hkn : k ≤ n) (hb : BinaryArr c.stab)
    (hY : ∀ i < c.stab.rows, parityY (rowPauli n (c.stab.row i)) = 0) (errors : List (Arr ℂ)) (out : Arr ℂ × ℝ) :
    optimizeDecoderStabilizers eigh sol s n k errors ≠ .ok out := by
  intro ho
  obtain ⟨K, hK, -⟩ := bind_ok_iff.mp ho
  unfold decoderKraus at hK
  rw [h, ok_bind'] at hK
  obtain ⟨chan, hch, hK⟩ := bind_ok_iff.mp hK
  rw [if_neg (by omega)] at hK
  obtain ⟨_, -, hK⟩ := bind_ok_iff.mp hK
  obtain ⟨V, r, v1, v2, -⟩ := C19_encoder_isometry eigh hE s n k none c h (by omega) hb hY
  rw [v1, ok_bind', mapM_ok_iff] at hK
  unfold QChan.ofList at hch
  obtain ⟨A, -, hch⟩ := bind_ok_iff.mp hch
  obtain ⟨c1, c2, c3, -, -, -, -, -, c4, c5, -⟩ := qchanInit_ok hch
  have hnk : 1 ≤ n / k := Nat.div_pos hkn (by omega)
  have hnk' : n / k < n := Nat.div_lt_self (by omega) (by omega)
  obtain ⟨u1, u2, u3⟩ := update_holds chan 1 (n / k) le_rfl hnk c1 (by rw [c3]; simp)
  obtain ⟨n1, n2, n3⟩ := nth_dims hnk u2
  rw [u3.1, c2] at n1 n3
  generalize (chan.update (n / k)).2.nth = B at n1 n2 n3 hK
  have hpos : 0 < B.len := by
    rw [n1]
    exact pow_pos c4 _
  obtain ⟨m, hm⟩ := Nat.exists_eq_succ_of_ne_zero hpos.ne'
  rw [hm, List.range_succ_eq_map, List.map_cons] at hK
  cases hK with
  | cons hdot _ =>
    unfold Arr.dot at hdot
    rw [if_neg] at hdot
    · cases hdot
    · show ¬ B.cols = V.rows
      rw [n3, v2, c5]
      intro hh
      exact hnk'.ne (Nat.pow_right_injective le_rfl (by simpa using hh))

/-- C46: without logical qubits the procedure never returns either. -/
theorem C46_no_qubit_refuted {eigh : Eigh} {sol : SdpSolver} {s : StabInput} {n : ℕ} (errors : List (Arr ℂ))
    (out : Arr ℂ × ℝ) : optimizeDecoderStabilizers eigh sol s n 0 errors ≠ .ok out := by
  intro ho
  obtain ⟨K, hK, -⟩ := bind_ok_iff.mp ho
  unfold decoderKraus at hK
  obtain ⟨stab, -, hK⟩ := bind_ok_iff.mp hK
  obtain ⟨chan, -, hK⟩ := bind_ok_iff.mp hK
  rw [if_pos rfl] at hK
  cases hK

/-- C46: `optimize_decoder` never returns: it raises what the channel constructor raises, and otherwise a NameError. -/
theorem C46_optimize_decoder_refuted (encoder : Arr ℂ) (errors : List (Arr ℂ)) (a b dimIn dimOut : ℕ) :
    (∀ out, optimizeDecoder encoder errors a b dimIn dimOut ≠ .ok out) ∧
    (∀ err, QChan.ofList false errors a b dimIn dimOut [] = .error err →
      optimizeDecoder encoder errors a b dimIn dimOut = .error err) ∧
    (∀ chan, QChan.ofList false errors a b dimIn dimOut [] = .ok chan →
      optimizeDecoder encoder errors a b dimIn dimOut = .error .name) := by
  refine ⟨?_, ?_, ?_⟩
  · intro out ho
    obtain ⟨_, -, ho⟩ := bind_ok_iff.mp ho
    cases ho
  · intro err h; unfold optimizeDecoder; rw [h]; rfl
  · intro chan h; unfold optimizeDecoder; rw [h]; rfl

/-- C46, the operators: for a code with one logical qubit and a trace preserving list of 2 by 2 errors they are the
products of the `n`-fold tensor products of the errors with the encoder, with and without `sparse`. -/
theorem C46_operators (sparse : Bool) {eigh : Eigh} (hE : eigh.Correct) {s : StabInput} {n : ℕ} {c : StabCode} {errors : List (Arr ℂ)}
    (h : stabInit s n 1 none = .ok c) (hn : 0 < n) (hb : BinaryArr c.stab)
    (hY : ∀ i < c.stab.rows, parityY (rowPauli n (c.stab.row i)) = 0) (hind : Independent n c.stab)
    (hsh : ∀ e ∈ errors, e.rows = 2 ∧ e.cols = 2)
    (htp : TracePreserving fun i : Fin errors.length => errors[i].mat 2 2) :
    ∃ K V, decoderKraus eigh s n 1 errors sparse = .ok K ∧ encodeKraus eigh c = .ok V ∧ V.rows = 2 ^ n ∧ V.cols = 2 ^ 1 ∧
      (V.mat (2 ^ n) (2 ^ 1))ᴴ * V.mat (2 ^ n) (2 ^ 1) = 1 ∧
      (∀ i < c.stab.rows, generator n c i * V.mat (2 ^ n) (2 ^ 1) = V.mat (2 ^ n) (2 ^ 1)) ∧
      K.length = errors.length ^ n ∧ (∀ k ∈ K, k.rows = 2 ^ n ∧ k.cols = 2 ^ 1) ∧
      ∀ (i : Fin K.length) (j : Fin (errors.length ^ n)), i.val = j.val → K[i].mat (2 ^ n) (2 ^ 1) =
        tensorPow (fun e : Fin errors.length => errors[e].mat 2 2) n j * V.mat (2 ^ n) (2 ^ 1) := by
  have hne : errors ≠ [] := by
    rintro rfl
    have := congrFun (congrFun htp 0) 0
    simp at this
  obtain ⟨A, a1, a2, a3, a4, a5⟩ := arr3_ofList hne hsh
  have hA : (fun i : Fin errors.length => errors[i].mat 2 2) = A.ops errors.length 2 2 := by
    funext i
    ext x y
    simp only [Arr3.ops, Arr.mat]
    rw [a5 i i.2]
    rfl
  rw [hA] at htp
  obtain ⟨chan, hchan⟩ := init_exact sparse A 1 1 2 2 [] (by rw [a2]; exact List.length_pos_iff.mpr hne) (by rw [a4]; rfl)
    (by rw [a3]; rfl) (by rw [a2]; exact htp)
  obtain ⟨c1, c2, c3, -⟩ := qchanInit_ok hchan
  obtain ⟨u1, u2, u3⟩ := update_holds chan 1 n le_rfl hn c1 (by rw [c3]; simp)
  have hk : (chan.update n).2.kraus = A := u3.1.trans c2
  have hops := nth_ops_dims (l := errors.length) (r := 2) (c := 2) hn u2 (by rw [hk, a2]) (by rw [hk, a3]) (by rw [hk, a4])
  rw [hk] at hops
  obtain ⟨n1, n2, n3⟩ := nth_dims hn u2
  rw [hk] at n1 n2 n3
  rw [a2] at n1
  rw [a3] at n2
  rw [a4] at n3
  obtain ⟨V, v1, v2, v3⟩ := C19_dimension eigh hE s n 1 c h hn hb hY hind
  obtain ⟨V', m, w1, w2, w3, w4, w5, -⟩ := C19_encoder_isometry eigh hE s n 1 none c h hn hb hY
  rw [v1] at w1
  injection w1 with w1
  subst w1
  obtain rfl : m = 2 ^ 1 := w3.symm.trans v3
  have hgen := fun i hi => generator_encoder (V := V.mat (2 ^ n) (2 ^ 1)) rfl w5 i hi
  generalize hB : (chan.update n).2.nth = B at hops n1 n2 n3
  have hmap : (((List.range B.len).map B.nth).mapM fun x => x.dot V) =
      .ok (((List.range B.len).map B.nth).map fun x => x.mul V) := by
    apply mapM_ok_of
    intro x hx
    obtain ⟨i, -, rfl⟩ := List.mem_map.mp hx
    unfold Arr.dot
    rw [if_pos]
    exact n3.trans v2.symm
  refine ⟨((List.range B.len).map B.nth).map fun x => x.mul V, V, ?_, v1, v2, v3, w4, hgen, ?_, ?_, ?_⟩
  · unfold decoderKraus QChan.ofList
    rw [h, ok_bind', a1, ok_bind', hchan, ok_bind', if_neg one_ne_zero, Nat.div_one, u1, ok_bind', v1, ok_bind', hB, hmap]
  · simp [n1]
  · intro k hk
    obtain ⟨x, hx, rfl⟩ := List.mem_map.mp hk
    obtain ⟨i, -, rfl⟩ := List.mem_map.mp hx
    exact ⟨n2, v3⟩
  · intro i j hij
    have : (((List.range B.len).map B.nth).map fun x => x.mul V)[i] = (B.nth j.val).mul V := by
      simp [hij]
    rw [this, Arr.mat_mul _ _ _ _ _ (show (B.nth j).cols = 2 ^ n from n3), hA]
    exact congrArg (· * _) (congrFun hops j)

theorem codeXI : ∃ c, stabInit (.rows [[1, 0, 0, 0]]) 2 1 none = .ok c ∧
    BinaryArr c.stab ∧ Independent 2 c.stab ∧ c.stab.rows = 1 ∧ c.stab.row 0 = [1, 0, 0, 0] := by
  obtain ⟨c, h1, h2, h3, h4, h5, h6⟩ := concrete_code (l := [[1, 0, 0, 0]]) (n := 2) (k := 1)
    (r := 1) (e := 0) (by decide) (by decide) (by decide) (by unfold IsBinary; decide) (by decide)
    (independent_cert _ (fun j a => if j = 0 ∧ a = 0 then 1 else 0) (by decide))
    (fun F _ => rank_cert (M := Matrix.of fun (i : Fin 1) (j : Fin 2) =>
        (Arr.ofRows (2 * 2) [[1, 0, 0, 0]]).get i j)
      !![1] !![1, 0] !![1] !![1; 0] (by decide) (by decide) F)
    (Or.inl rfl)
  refine ⟨c, h1, h2, h3, ?_⟩
  rw [h4]
  decide

theorem pauliN_entry {n : ℕ} (p : Pauli n) (i j : Fin (2 ^ n)) :
    pauliN p i j = if bitsOf n i = bitsOf n j + p.x then sgn (dotp p.z (bitsOf n j)) else 0 := by
  show pauliMatrix ℂ p (bitsEquiv n i) (bitsEquiv n j) = _
  rw [bitsEquiv_apply, bitsEquiv_apply]
  rfl

/-- The encoder of the code is the same on both values of the first qubit. -/
theorem xi_rows {V : Matrix (Fin (2 ^ 2)) (Fin (2 ^ 1)) ℂ}
    (h : pauliN (rowPauli 2 [1, 0, 0, 0]) * V = V) (j : Fin (2 ^ 1)) :
    V (2 : Fin 4) j = V (0 : Fin 4) j ∧ V (3 : Fin 4) j = V (1 : Fin 4) j := by
  have e : ∀ i j : Fin 4, pauliN (n := 2) (rowPauli 2 [1, 0, 0, 0]) i j = if (i.val + 2) % 4 = j.val then 1 else 0 := by
    intro i j
    rw [pauliN_entry]
    have hz : (rowPauli 2 [1, 0, 0, 0]).z = 0 := by decide
    have hiff : ∀ i j : Fin 4, (bitsOf 2 i = bitsOf 2 j + (rowPauli 2 [1, 0, 0, 0]).x) ↔ (i.val + 2) % 4 = j.val := by
      decide
    by_cases hij : (i.val + 2) % 4 = j.val
    · rw [if_pos hij, if_pos ((hiff i j).mpr hij), hz]
      simp [dotp, sgn]
    · rw [if_neg hij, if_neg (fun hh => hij ((hiff i j).mp hh))]
  have hrow : ∀ i : Fin 4, V i j = V (⟨(i.val + 2) % 4, Nat.mod_lt _ (by decide)⟩ : Fin 4) j := by
    intro i
    have h1 : V i j = ∑ k : Fin 4, (if (i.val + 2) % 4 = k.val then 1 else 0) * V k j :=
      ((congrFun (congrFun h i) j).symm.trans (Matrix.mul_apply ..)).trans
        (Finset.sum_congr rfl fun k _ => congrArg (· * V k j) (e i k))
    rw [h1, Finset.sum_eq_single (⟨(i.val + 2) % 4, Nat.mod_lt _ (by decide)⟩ : Fin 4)]
    · rw [if_pos rfl, one_mul]
    · intro k _ hk
      rw [if_neg (fun hh => hk (Fin.ext hh.symm)), zero_mul]
    · intro hh
      exact absurd (Finset.mem_univ _) hh
  exact ⟨hrow 2, hrow 3⟩

/-- A trace preserving map from one qubit and operators whose rows do not depend on the qubit. -/
theorem sum_trace_const {l N : ℕ} {R : Fin l → Matrix (Fin N) (Fin (2 ^ 1)) ℂ} (hR : TracePreserving R) (g : Fin N → ℂ) :
    ∑ a, ‖trace (R a * (Matrix.of fun _ x => g x))‖ ^ 2 ≤ 2 * ∑ x, ‖g x‖ ^ 2 := by
  have hR' : ∑ a, (R a)ᴴ * R a = 1 := hR
  have htr : ∀ a, trace (R a * (Matrix.of fun _ x => g x)) = ∑ x, (∑ y, R a x y) * g x := by
    intro a
    simp only [trace, diag_apply, Matrix.mul_apply, Matrix.of_apply, Finset.sum_mul]
  have hcs : ∀ a, ‖trace (R a * (Matrix.of fun _ x => g x))‖ ^ 2 ≤ (∑ x, ‖∑ y, R a x y‖ ^ 2) * ∑ x, ‖g x‖ ^ 2 := by
    intro a
    rw [htr]
    calc ‖∑ x, (∑ y, R a x y) * g x‖ ^ 2 ≤ (∑ x, ‖∑ y, R a x y‖ * ‖g x‖) ^ 2 := by
          refine pow_le_pow_left₀ (norm_nonneg _) ((norm_sum_le _ _).trans (le_of_eq ?_)) 2
          exact Finset.sum_congr rfl fun x _ => norm_mul _ _
      _ ≤ _ := Finset.sum_mul_sq_le_sq_mul_sq _ _ _
  have hsum : ∑ a, ∑ x, ‖∑ y, R a x y‖ ^ 2 = 2 := by
    have h1 : ∀ a, ((∑ x, ‖∑ y, R a x y‖ ^ 2 : ℝ) : ℂ) = ∑ y, ∑ y', ((R a)ᴴ * R a) y y' := by
      intro a
      simp only [Matrix.mul_apply, conjTranspose_apply]
      push_cast
      rw [Finset.sum_congr rfl fun y _ => Finset.sum_comm, Finset.sum_comm]
      refine Finset.sum_congr rfl fun x _ => ?_
      rw [← Complex.conj_mul', map_sum, Finset.sum_mul]
      refine Finset.sum_congr rfl fun y _ => ?_
      rw [Finset.mul_sum]
      rfl
    have h2 : ((∑ a, ∑ x, ‖∑ y, R a x y‖ ^ 2 : ℝ) : ℂ) = 2 := by
      rw [Complex.ofReal_sum, Finset.sum_congr rfl fun a _ => h1 a, Finset.sum_comm]
      have : ∀ y : Fin (2 ^ 1), ∑ a, ∑ y', ((R a)ᴴ * R a) y y' = 1 := by
        intro y
        rw [Finset.sum_comm]
        have : ∀ y', ∑ a, ((R a)ᴴ * R a) y y' = (1 : Matrix (Fin (2 ^ 1)) (Fin (2 ^ 1)) ℂ) y y' := by
          intro y'
          rw [← hR', Matrix.sum_apply]
        simp [this, Matrix.one_apply]
      rw [Finset.sum_congr rfl fun y _ => this y]
      simp
    exact_mod_cast h2
  calc _ ≤ ∑ a, (∑ x, ‖∑ y, R a x y‖ ^ 2) * ∑ x, ‖g x‖ ^ 2 := Finset.sum_le_sum fun a _ => hcs a
    _ = _ := by rw [← Finset.sum_mul, hsum]

/-- C46, refuted for the value of `optimize_decoder_stabilizers`: for the code of the generator `XI` and the channel
without errors a recovery of fidelity one exists, but the value reported is at most one half. -/
theorem C46_stabilizer_value_refuted {eigh : Eigh} (hE : eigh.Correct) {sol : SdpSolver} (hsol : sol.Correct) :
    ∃ (K : List (Arr ℂ)) (X : Arr ℂ) (v : ℝ) (l : ℕ) (R : Fin l → Matrix (Fin (2 ^ 1)) (Fin (2 ^ 2)) ℂ),
      decoderKraus eigh (.rows [[1, 0, 0, 0]]) 2 1 [Arr.eye 2] = .ok K ∧ TracePreserving R ∧
      entangFidelity R (fun b : Fin K.length => K[b].mat (2 ^ 2) (2 ^ 1)) = 1 ∧
      optimizeDecoderStabilizers eigh sol (.rows [[1, 0, 0, 0]]) 2 1 [Arr.eye 2] = .ok (X, v) ∧ v ≤ 1 / 2 := by
  obtain ⟨c, h1, h2, h3, h4, h5⟩ := codeXI
  have heye : (fun i : Fin [(Arr.eye 2 : Arr ℂ)].length => [(Arr.eye 2 : Arr ℂ)][i].mat 2 2) = fun _ => 1 := by
    funext i
    obtain ⟨i, hi⟩ := i
    have : i = 0 := by simpa using hi
    subst this
    ext x y
    simp [Arr.eye, Arr.mat, Matrix.one_apply, Fin.ext_iff]
  obtain ⟨K, V, k1, k2, k3, k4, k5, k6, k7, k8, k9⟩ := C46_operators false (errors := [Arr.eye 2]) hE h1 (by decide) h2 (by
    intro i hi
    rw [h4] at hi
    interval_cases i
    rw [h5]
    decide) h3 (by simp [Arr.eye]) (by
    rw [heye]
    show ∑ a : Fin 1, _ = _
    simp)
  rw [heye] at k9
  have hg := k6 0 (by rw [h4]; decide)
  rw [show generator 2 c 0 = pauliN (rowPauli 2 [1, 0, 0, 0]) by rw [← h5]; rfl] at hg
  obtain ⟨k0, rfl⟩ := List.length_eq_one_iff.mp (k7.trans (by simp) : K.length = 1)
  have hk0 : k0.mat (2 ^ 2) (2 ^ 1) = V.mat (2 ^ 2) (2 ^ 1) := by
    have := k9 (0 : Fin 1) (0 : Fin 1) rfl
    rw [show tensorPow (fun _ => (1 : Matrix (Fin 2) (Fin 2) ℂ)) 2 _ = 1 from tensorProd_one, Matrix.one_mul] at this
    exact this
  rw [← hk0] at k5 hg
  have hrows := xi_rows hg
  obtain ⟨r1, r2⟩ := k8 k0 (by simp)
  obtain ⟨l, R, hR, hF⟩ := exists_perfect_recovery (by decide) k5
  have hentry : ∀ (i : Fin 4) (j : Fin 2), k0.mat (2 ^ 2) (2 ^ 1) i j = k0.get i j := fun _ _ => rfl
  -- the problem
  obtain ⟨p, hp⟩ : ∃ p, entangFidProblem [k0] 1 2 2 2 = .ok p := by
    unfold entangFidProblem
    simp only
    rw [if_pos (by simp), if_pos (by rw [outerAdjoint, r1, r2]; rfl)]
    exact ⟨_, rfl⟩
  obtain ⟨p1, p2, p3⟩ := entangFidProblem_data hp
  have hobj : ∀ i j, p.obj.get i j = ravelAdjoint k0 i * ravelAdjoint k0 j / (2 : ℂ) ^ 2 := by
    unfold entangFidProblem at hp
    simp only at hp
    rw [if_pos (by simp), if_pos (by rw [outerAdjoint, r1, r2]; rfl)] at hp
    injection hp with hp
    intro i j
    rw [← hp]
    simp [outerAdjoint]
  obtain ⟨s1, s2, -⟩ := hsol p (exists_optimal (pow_pos two_pos 2) p1 p2 p3)
  obtain ⟨-, -, f1, f2⟩ := (feasible_iff p1 p2 p3 _).mp s1
  obtain ⟨m, S, hS⟩ := (posSemidef_iff_choi _).mp f1
  have hStp : TracePreserving S := (tp_iff_traceOutput S).mpr (hS ▸ f2)
  let g : Fin (2 ^ 2) → ℂ := fun x => star (k0.get (x.val / 2) (x.val % 2))
  have hu : ∀ (y : Fin (2 ^ 1)) (x : Fin (2 ^ 2)), ravelAdjoint k0 (finProdFinEquiv (y, x)).val = g x := by
    have key : ∀ (y : Fin 2) (x : Fin 4), star (k0.get ((x.val + 4 * y.val) / 2) ((x.val + 4 * y.val) % 2)) =
        star (k0.get (x.val / 2) (x.val % 2)) := by
      intro y x
      have e0 := hrows (0 : Fin 2)
      have e1 := hrows (1 : Fin 2)
      rw [hentry, hentry, hentry, hentry] at e0 e1
      refine congrArg star ?_
      fin_cases y
      · rfl
      · fin_cases x
        · exact e0.1
        · exact e1.1
        · exact e0.2
        · exact e1.2
    intro y x
    unfold ravelAdjoint
    rw [finProdFinEquiv_apply_val, r2]
    exact key y x
  have hG : ∑ x, ‖g x‖ ^ 2 = 1 := by
    have hd : ∀ j : Fin 2, ‖k0.get 0 j‖ ^ 2 + ‖k0.get 1 j‖ ^ 2 + ‖k0.get 0 j‖ ^ 2 + ‖k0.get 1 j‖ ^ 2 = 1 := by
      intro j
      have h0 := congrFun (congrFun k5 j) j
      rw [Matrix.one_apply_eq, Matrix.mul_apply] at h0
      have h1 : ∑ i : Fin 4, star (k0.get i j) * k0.get i j = 1 := h0
      rw [Fin.sum_univ_four] at h1
      have e0 := hrows j
      rw [hentry, hentry, hentry, hentry] at e0
      rw [e0.1, e0.2] at h1
      have h2 : ∀ z : ℂ, star z * z = ((‖z‖ ^ 2 : ℝ) : ℂ) := by
        intro z
        rw [show star z = (starRingEnd ℂ) z from rfl, Complex.conj_mul']
        push_cast
        rfl
      simp only [h2] at h1
      exact_mod_cast h1
    have h0 := hd 0
    have h1 := hd 1
    have : ∑ x : Fin 4, ‖star (k0.get (x.val / 2) (x.val % 2))‖ ^ 2 =
        ‖k0.get 0 0‖ ^ 2 + ‖k0.get 0 1‖ ^ 2 + ‖k0.get 1 0‖ ^ 2 + ‖k0.get 1 1‖ ^ 2 := by
      rw [Fin.sum_univ_four]
      simp only [norm_star]
      rfl
    refine this.trans ?_
    simp only [Fin.val_zero, Fin.val_one] at h0 h1
    linarith
  have hval : p.value (sol p).1 = (∑ a, trace (S a * (Matrix.of fun _ x => g x)) *
      star (trace (S a * (Matrix.of fun _ x => star (g x))))).re / 4 := by
    have hs := sum_vec_mul S (ravelAdjoint k0) (ravelAdjoint k0) (Matrix.of fun _ x => g x)
      (Matrix.of fun _ x => star (g x)) hu (fun y x => (hu y x).trans (star_star _).symm)
    rw [← hs, ← hS]
    unfold Sdp.value
    rw [p1, Finset.sum_range]
    simp only [Finset.sum_range, hobj]
    rw [show (4 : ℝ) = ((2 ^ 2 : ℕ) : ℝ) by norm_num, ← Complex.div_natCast_re, Finset.sum_div]
    refine congrArg Complex.re (Finset.sum_congr rfl fun i _ => ?_)
    rw [Finset.sum_div]
    refine Finset.sum_congr rfl fun j _ => ?_
    simp only [Arr.mat]
    push_cast
    ring
  refine ⟨[k0], (sol p).1, (sol p).2, l, R, k1, hR, ?_, ?_, ?_⟩
  · have : (fun b : Fin [k0].length => [k0][b].mat (2 ^ 2) (2 ^ 1)) = fun _ : Fin 1 => k0.mat (2 ^ 2) (2 ^ 1) := by
      funext b
      obtain ⟨b, hb⟩ := b
      have : b = 0 := by simpa using hb
      subst this
      rfl
    rw [this]
    exact hF
  · unfold optimizeDecoderStabilizers optimizeEntangFid
    rw [k1, ok_bind', hp]
    rfl
  · rw [s2, hval]
    have hA := sum_trace_const hStp g
    have hB := sum_trace_const hStp (fun x => star (g x))
    simp only [norm_star] at hB
    rw [hG] at hA hB
    have hle : (∑ a, trace (S a * (Matrix.of fun _ x => g x)) *
        star (trace (S a * (Matrix.of fun _ x => star (g x))))).re ≤
        ∑ a, (‖trace (S a * (Matrix.of fun _ x => g x))‖ ^ 2 +
          ‖trace (S a * (Matrix.of fun _ x => star (g x)))‖ ^ 2) / 2 := by
      rw [Complex.re_sum]
      refine Finset.sum_le_sum fun a _ => (Complex.re_le_norm _).trans ?_
      rw [norm_mul, norm_star]
      nlinarith [sq_nonneg (‖trace (S a * (Matrix.of fun _ x => g x))‖ -
        ‖trace (S a * (Matrix.of fun _ x => star (g x)))‖)]
    rw [← Finset.sum_div, Finset.sum_add_distrib] at hle
    linarith

/-- C46: exactly these operators are accepted.  No operators are an `IndexError`, operators of different sizes or of
the wrong size a `ValueError`. -/
theorem C46_errors (ks : List (Arr ℂ)) (q0 q1 di do' : ℕ) :
    (ks = [] → entangFidProblem ks q0 q1 di do' = .error .index) ∧
    (ks ≠ [] → (∃ k ∈ ks, k.rows * k.cols ≠ di ^ q0 * do' ^ q1) → entangFidProblem ks q0 q1 di do' = .error .value) ∧
    (ks ≠ [] → (∀ k ∈ ks, k.rows * k.cols = di ^ q0 * do' ^ q1) → ∃ p, entangFidProblem ks q0 q1 di do' = .ok p) := by
  refine ⟨fun h => by rw [h]; rfl, ?_, ?_⟩
  · rintro h ⟨k, hk, hne⟩
    cases ks with
    | nil => exact absurd rfl h
    | cons k0 ks =>
      unfold entangFidProblem
      simp only
      by_cases h1 : ∀ k ∈ ks, k.rows * k.cols = k0.rows * k0.cols
      · rw [if_pos h1, if_neg]
        intro h2
        rcases List.mem_cons.mp hk with rfl | hk
        · exact hne h2
        · exact hne ((h1 k hk).trans h2)
      · rw [if_neg h1]
  · intro h hall
    cases ks with
    | nil => exact absurd rfl h
    | cons k0 ks =>
      unfold entangFidProblem
      simp only
      rw [if_pos (fun k hk => (hall k (by simp [hk])).trans (hall k0 (by simp)).symm), if_pos (show (outerAdjoint k0).rows = _ from hall k0 (by simp))]
      exact ⟨_, rfl⟩

/-! ### Concrete cases -/

/-- The first two columns of the identity: one qubit stored in two. -/
def storeOne : Arr ℂ := ⟨4, 2, fun i j => if i = j then 1 else 0⟩

/-- The hypotheses of `C46_scale_refuted` hold for it, and a perfect recovery exists: the value reported is at most a
quarter. -/
example : ∃ (sol : SdpSolver) (X : Arr ℂ) (v : ℝ) (l : ℕ) (R : Fin l → Matrix (Fin (2 ^ 1)) (Fin (2 ^ 2)) ℂ), sol.Correct ∧
    optimizeEntangFid sol [storeOne] 2 1 2 2 = .ok (X, v) ∧ v ≤ 1 / 4 ∧ TracePreserving R ∧
    entangFidelity R (fun _ : Fin 1 => storeOne.mat (2 ^ 2) (2 ^ 1)) = 1 := by
  obtain ⟨sol, hsol⟩ := exists_sdpSolver
  have hV : (storeOne.mat (2 ^ 2) (2 ^ 1))ᴴ * storeOne.mat (2 ^ 2) (2 ^ 1) = 1 := by
    ext i j
    fin_cases i <;> fin_cases j <;>
      simp [storeOne, Arr.mat, Matrix.mul_apply, Fin.sum_univ_four, Matrix.one_apply]
  obtain ⟨l, R, h1, h2⟩ := exists_perfect_recovery (by decide) hV
  obtain ⟨X, v, h3, h4, -⟩ := C46_scale_refuted (ks := [storeOne]) (q0 := 2) (q1 := 1) (di := 2) (do' := 2) hsol (by simp)
    (by simp [storeOne]) (by decide) (by decide) (by
      simp only [List.mem_singleton, forall_eq]
      intro i _ j _
      simp only [storeOne]
      split_ifs <;> simp) (by
      show ∑ a : Fin 1, _ = _
      rw [Fin.sum_univ_one]
      exact hV)
  refine ⟨sol, X, v, l, R, hsol, h3, h4.trans ?_, h1, h2⟩
  norm_num

/-- The hypotheses of `C46_stabilizer_recovery_refuted` are met. -/
example : ∃ (eigh : Eigh) (sol : SdpSolver) (X : Arr ℂ) (v : ℝ), eigh.Correct ∧ sol.Correct ∧
    optimizeDecoderStabilizers eigh sol (.rows [[1, 0, 0, 0]]) 2 1 [Arr.eye 2] = .ok (X, v) := by
  obtain ⟨eigh, hE⟩ := exists_eigh
  obtain ⟨sol, hsol⟩ := exists_sdpSolver
  obtain ⟨K, X, v, l, R, -, -, -, h, -⟩ := C46_stabilizer_value_refuted hE hsol
  exact ⟨eigh, sol, X, v, hE, hsol, h⟩

/-- The hypotheses of `C46_multi_qubit_refuted` are met by the code of XXXX and ZZZZ. -/
example (eigh : Eigh) (hE : eigh.Correct) (sol : SdpSolver) (errors : List (Arr ℂ)) (out : Arr ℂ × ℝ) :
    optimizeDecoderStabilizers eigh sol (.rows [[1, 1, 1, 1, 0, 0, 0, 0], [0, 0, 0, 0, 1, 1, 1, 1]]) 4 2 errors ≠ .ok out := by
  obtain ⟨c, h1, h2, -, -, h4, h5, h6, -⟩ := code422
  refine C46_multi_qubit_refuted hE h1 le_rfl (by decide) h2 ?_ errors out
  intro i hi
  rw [h4] at hi
  interval_cases i
  · rw [h5]; decide
  · rw [h6]; decide

end

end PyQ
