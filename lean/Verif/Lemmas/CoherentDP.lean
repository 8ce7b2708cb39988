import Verif.Lemmas.DataProcessing

/-!
# Entropies of a joint state and of its first part, before and after a channel on the first part
-/

namespace PyQ

open Matrix Polynomial
open scoped ComplexOrder Kronecker

section Finite

variable {ι κ m m' R : Type} [Fintype ι] [Fintype κ] [Fintype m] [Fintype m'] [Fintype R] [DecidableEq ι] [DecidableEq κ]
  [DecidableEq m] [DecidableEq m'] [DecidableEq R]

/-- The state of the first part. -/
def firstPart (J : Matrix (m × R) (m × R) ℂ) : Matrix m m ℂ := fun x x' => ∑ y, J (x, y) (x', y)

theorem weights_col {c : Matrix m m ℂ} (hc : cᴴ * c = 1) (i : m) : ∑ j, ‖c j i‖ ^ 2 = 1 := by
  have h := congrArg Complex.re (congrFun (congrFun hc i) i)
  rw [Matrix.mul_apply, one_apply_eq, Complex.one_re, Complex.re_sum] at h
  rw [← h]
  refine Finset.sum_congr rfl fun j _ => ?_
  rw [conjTranspose_apply, mul_comm, Complex.star_def, Complex.mul_conj, Complex.ofReal_re, Complex.normSq_eq_norm_sq]

theorem weights_row {ρ V U : Matrix m m ℂ} {p : m → ℝ} (hρ : Eigen ρ V p) (j : m) :
    ∑ i, ‖(Uᴴ * V) j i‖ ^ 2 * p i = ((Uᴴ * ρ * U) j j).re := by
  have h1 : Uᴴ * ρ * U = (Uᴴ * V) * diagonal (fun i => (p i : ℂ)) * (Uᴴ * V)ᴴ := by
    rw [conjTranspose_mul, conjTranspose_conjTranspose, hρ.eq]
    simp only [Matrix.mul_assoc]
  rw [h1, Matrix.mul_apply, Complex.re_sum]
  refine Finset.sum_congr rfl fun i _ => ?_
  rw [mul_diagonal, conjTranspose_apply, mul_right_comm, Complex.star_def, Complex.mul_conj, Complex.normSq_eq_norm_sq,
    ← Complex.ofReal_mul, Complex.ofReal_re]

/-- The relative entropy as a difference. -/
theorem relEnt_eq {ρ V U : Matrix m m ℂ} {p q : m → ℝ} (hρ : Eigen ρ V p) (hU : U * Uᴴ = 1) :
    relEnt p q (Uᴴ * V) = -∑ i, Real.negMulLog (p i) - ∑ j, ((Uᴴ * ρ * U) j j).re * Real.log (q j) := by
  have hc : (Uᴴ * V)ᴴ * (Uᴴ * V) = 1 := by
    rw [conjTranspose_mul, conjTranspose_conjTranspose, Matrix.mul_assoc, ← Matrix.mul_assoc U, hU, Matrix.one_mul,
      hρ.left]
  have h1 : relEnt p q (Uᴴ * V) = ∑ j, ∑ i, ‖(Uᴴ * V) j i‖ ^ 2 * (p i * Real.log (p i)) -
      ∑ j, (∑ i, ‖(Uᴴ * V) j i‖ ^ 2 * p i) * Real.log (q j) := by
    unfold relEnt
    rw [← Finset.sum_sub_distrib]
    refine Finset.sum_congr rfl fun j _ => ?_
    rw [Finset.sum_mul, ← Finset.sum_sub_distrib]
    refine Finset.sum_congr rfl fun i _ => ?_
    ring
  rw [h1, Finset.sum_comm]
  simp only [← Finset.sum_mul, weights_col hc, weights_row hρ, one_mul]
  rw [← Finset.sum_neg_distrib]
  congr 1
  refine Finset.sum_congr rfl fun i _ => ?_
  rw [Real.negMulLog]
  ring

/-- Eigenvectors of `N ⊗ 1`. -/
theorem eigen_kron_one {N U : Matrix m m ℂ} {q : m → ℝ} (hN : Eigen N U q) :
    Eigen (N ⊗ₖ (1 : Matrix R R ℂ)) (U ⊗ₖ (1 : Matrix R R ℂ)) (fun z => q z.1) := by
  have hd : (diagonal (fun i : m => (q i : ℂ))) ⊗ₖ (1 : Matrix R R ℂ) = diagonal fun z : m × R => ((q z.1 : ℝ) : ℂ) := by
    rw [← diagonal_one, diagonal_kronecker_diagonal]
    simp
  refine ⟨?_, ?_, ?_, fun z => hN.nonneg z.1⟩
  · rw [conjTranspose_kronecker, conjTranspose_one, ← mul_kronecker_mul, hN.left, Matrix.one_mul, one_kronecker_one]
  · rw [conjTranspose_kronecker, conjTranspose_one, ← mul_kronecker_mul, hN.right, Matrix.one_mul, one_kronecker_one]
  · rw [← hd, conjTranspose_kronecker, conjTranspose_one, ← mul_kronecker_mul, ← mul_kronecker_mul, Matrix.one_mul,
      Matrix.one_mul, ← hN.eq]

theorem kron_diag_entry (U : Matrix m m ℂ) (J : Matrix (m × R) (m × R) ℂ) (a : m) :
    ∑ y, (((U ⊗ₖ (1 : Matrix R R ℂ))ᴴ * J * (U ⊗ₖ (1 : Matrix R R ℂ))) (a, y) (a, y)) = (Uᴴ * firstPart J * U) a a := by
  rw [conjTranspose_kronecker, conjTranspose_one]
  simp only [Matrix.mul_apply, Fintype.sum_prod_type, kroneckerMap_apply, one_apply, mul_ite, ite_mul, mul_one, mul_zero,
    zero_mul, Finset.sum_ite_eq, Finset.sum_ite_eq', Finset.mem_univ, if_true, firstPart, Finset.sum_mul, Finset.mul_sum]
  rw [Finset.sum_comm]
  refine Finset.sum_congr rfl fun x _ => ?_
  rw [Finset.sum_comm]

/-- The relative entropy of a joint state and `N ⊗ 1`, where `N` is the state of the first part. -/
theorem relEnt_firstPart {J V : Matrix (m × R) (m × R) ℂ} {p : m × R → ℝ} (hJ : Eigen J V p) {U : Matrix m m ℂ} {q : m → ℝ}
    (hN : Eigen (firstPart J) U q) :
    relEnt p (fun z => q z.1) ((U ⊗ₖ (1 : Matrix R R ℂ))ᴴ * V) = ∑ j, Real.negMulLog (q j) - ∑ i, Real.negMulLog (p i) ∧
    Supported p (fun z => q z.1) ((U ⊗ₖ (1 : Matrix R R ℂ))ᴴ * V) := by
  have hU := (eigen_kron_one (R := R) hN).right
  have hq : ∀ a, ∑ y, (((U ⊗ₖ (1 : Matrix R R ℂ))ᴴ * J * (U ⊗ₖ (1 : Matrix R R ℂ))) (a, y) (a, y)).re = q a := by
    intro a
    have h1 := congrArg Complex.re (kron_diag_entry U J a)
    rw [Complex.re_sum] at h1
    rw [h1, hN.eq, show Uᴴ * (U * diagonal (fun i => (q i : ℂ)) * Uᴴ) * U =
      (Uᴴ * U) * diagonal (fun i => (q i : ℂ)) * (Uᴴ * U) by simp only [Matrix.mul_assoc], hN.left, Matrix.one_mul,
      Matrix.mul_one, diagonal_apply_eq, Complex.ofReal_re]
  constructor
  · have h1 : ∑ z : m × R, (((U ⊗ₖ (1 : Matrix R R ℂ))ᴴ * J * (U ⊗ₖ (1 : Matrix R R ℂ))) z z).re * Real.log (q z.1) =
        -∑ j, Real.negMulLog (q j) := by
      rw [Fintype.sum_prod_type]
      simp only [← Finset.sum_mul, hq, Real.negMulLog, neg_mul, Finset.sum_neg_distrib, neg_neg]
    rw [relEnt_eq hJ hU, h1]
    ring
  · rintro ⟨a, y⟩ i h0
    simp only at h0
    have h2 := hq a
    rw [h0] at h2
    simp only [← weights_row hJ] at h2
    have h3 := (Finset.sum_eq_zero_iff_of_nonneg (fun y _ => Finset.sum_nonneg fun i _ =>
      mul_nonneg (sq_nonneg _) (hJ.nonneg i))).mp h2 y (Finset.mem_univ y)
    exact (Finset.sum_eq_zero_iff_of_nonneg (fun i _ => mul_nonneg (sq_nonneg _) (hJ.nonneg i))).mp h3 i (Finset.mem_univ i)

/-- A channel on the first part. -/
theorem applyKraus_kron_one (B : ι → Matrix m' m ℂ) (N : Matrix m m ℂ) :
    Spec.applyKraus (fun b => B b ⊗ₖ (1 : Matrix R R ℂ)) (N ⊗ₖ (1 : Matrix R R ℂ)) =
      Spec.applyKraus B N ⊗ₖ (1 : Matrix R R ℂ) := by
  have : ∀ b, (B b ⊗ₖ (1 : Matrix R R ℂ)) * (N ⊗ₖ (1 : Matrix R R ℂ)) * (B b ⊗ₖ (1 : Matrix R R ℂ))ᴴ =
      (B b * N * (B b)ᴴ) ⊗ₖ (1 : Matrix R R ℂ) := by
    intro b
    rw [conjTranspose_kronecker, conjTranspose_one, ← mul_kronecker_mul, ← mul_kronecker_mul, Matrix.one_mul,
      Matrix.one_mul]
  unfold Spec.applyKraus
  simp only [this]
  ext z z'
  simp only [Matrix.sum_apply, kroneckerMap_apply, Finset.sum_mul]

theorem tp_kron_one (B : ι → Matrix m' m ℂ) (hB : Spec.TracePreserving B) :
    Spec.TracePreserving (fun b => B b ⊗ₖ (1 : Matrix R R ℂ)) := by
  unfold Spec.TracePreserving at hB ⊢
  have : ∀ b, (B b ⊗ₖ (1 : Matrix R R ℂ))ᴴ * (B b ⊗ₖ (1 : Matrix R R ℂ)) = ((B b)ᴴ * B b) ⊗ₖ (1 : Matrix R R ℂ) := by
    intro b
    rw [conjTranspose_kronecker, conjTranspose_one, ← mul_kronecker_mul, Matrix.one_mul]
  simp only [this]
  rw [← one_kronecker_one, ← hB]
  ext z z'
  simp only [Matrix.sum_apply, kroneckerMap_apply, Finset.sum_mul]

theorem firstPart_applyKraus (B : ι → Matrix m' m ℂ) (J : Matrix (m × R) (m × R) ℂ) :
    firstPart (Spec.applyKraus (fun b => B b ⊗ₖ (1 : Matrix R R ℂ)) J) = Spec.applyKraus B (firstPart J) := by
  ext x x'
  change ∑ y, Spec.applyKraus (fun b => B b ⊗ₖ (1 : Matrix R R ℂ)) J (x, y) (x', y) = _
  unfold Spec.applyKraus
  simp only [Matrix.sum_apply]
  rw [Finset.sum_comm]
  refine Finset.sum_congr rfl fun b _ => ?_
  have hf : ∀ u v, firstPart J u v = ∑ y, J (u, y) (v, y) := fun u v => rfl
  rw [conjTranspose_kronecker, conjTranspose_one]
  simp only [Matrix.mul_apply, Fintype.sum_prod_type, kroneckerMap_apply, one_apply, mul_ite, ite_mul, mul_one, mul_zero,
    zero_mul, Finset.sum_ite_eq, Finset.sum_ite_eq', Finset.mem_univ, if_true, Finset.sum_mul, Finset.mul_sum, hf]
  rw [Finset.sum_comm]
  refine Finset.sum_congr rfl fun t _ => ?_
  rw [Finset.sum_comm]

theorem firstPart_posSemidef {J : Matrix (m × R) (m × R) ℂ} (hJ : J.PosSemidef) : (firstPart J).PosSemidef := by
  have : firstPart J = ∑ y, J.submatrix (fun x => (x, y)) (fun x => (x, y)) := by
    ext x x'
    simp only [firstPart, Matrix.sum_apply, submatrix_apply]
  rw [this]
  exact posSemidef_sum _ fun y _ => hJ.submatrix _

/-- The conditional entropy does not shrink under a channel on the first part. -/
theorem conditional_entropy (B : ι → Matrix m' m ℂ) (hB : Spec.TracePreserving B) {J : Matrix (m × R) (m × R) ℂ}
    (hJ : J.PosSemidef) {p : m × R → ℝ} {q : m → ℝ} {p' : m' × R → ℝ} {q' : m' → ℝ}
    (hp : J.charpoly = ∏ i, (X - C ((p i : ℝ) : ℂ)))
    (hq : (firstPart J).charpoly = ∏ i, (X - C ((q i : ℝ) : ℂ)))
    (hp' : (Spec.applyKraus (fun b => B b ⊗ₖ (1 : Matrix R R ℂ)) J).charpoly = ∏ i, (X - C ((p' i : ℝ) : ℂ)))
    (hq' : (Spec.applyKraus B (firstPart J)).charpoly = ∏ i, (X - C ((q' i : ℝ) : ℂ))) :
    ∑ j, Real.negMulLog (q' j) - ∑ i, Real.negMulLog (p' i) ≤ ∑ j, Real.negMulLog (q j) - ∑ i, Real.negMulLog (p i) := by
  have hJ' := Spec.applyKraus_posSemidef (fun b => B b ⊗ₖ (1 : Matrix R R ℂ)) hJ
  obtain ⟨V, p₀, e1, c1⟩ := exists_eigen hJ
  obtain ⟨U, q₀, e2, c2⟩ := exists_eigen (firstPart_posSemidef hJ)
  obtain ⟨V', p₁, e3, c3⟩ := exists_eigen hJ'
  obtain ⟨U', q₁, e4, c4⟩ := exists_eigen (firstPart_posSemidef hJ')
  rw [sum_eq_of_charpoly (p := 0) (q := 0) hp c1 rfl Real.negMulLog Real.negMulLog_zero,
    sum_eq_of_charpoly (p := 0) (q := 0) hq c2 rfl Real.negMulLog Real.negMulLog_zero,
    sum_eq_of_charpoly (p := 0) (q := 0) hp' c3 rfl Real.negMulLog Real.negMulLog_zero,
    sum_eq_of_charpoly (p := 0) (q := 0) hq' c4 (by rw [firstPart_applyKraus]) Real.negMulLog Real.negMulLog_zero]
  obtain ⟨r1, s1⟩ := relEnt_firstPart e1 e2
  obtain ⟨r2, s2⟩ := relEnt_firstPart e3 e4
  rw [← r1, ← r2]
  refine relEnt_mono (fun b => B b ⊗ₖ (1 : Matrix R R ℂ)) (tp_kron_one B hB) e1 (eigen_kron_one e2) hJ ?_ e3 ?_ s1 s2
  · obtain ⟨S, hS⟩ := exists_factor (firstPart_posSemidef hJ)
    have : firstPart J ⊗ₖ (1 : Matrix R R ℂ) = (S ⊗ₖ (1 : Matrix R R ℂ)) * (S ⊗ₖ (1 : Matrix R R ℂ))ᴴ := by
      rw [conjTranspose_kronecker, conjTranspose_one, ← mul_kronecker_mul, Matrix.one_mul, ← hS]
    rw [this]
    exact posSemidef_self_mul_conjTranspose _
  · rw [applyKraus_kron_one, ← firstPart_applyKraus]
    exact eigen_kron_one e4

/-! ### Kraus operators -/

/-- The joint state of output and reference, for `ρ = S S†`. -/
noncomputable def jointState (K : κ → Matrix m R ℂ) (S : Matrix R R ℂ) : Matrix (m × R) (m × R) ℂ :=
  (Matrix.of fun (z : m × R) (k : κ) => (K k * S) z.1 z.2) * (Matrix.of fun (z : m × R) (k : κ) => (K k * S) z.1 z.2)ᴴ

theorem jointState_apply (K : κ → Matrix m R ℂ) (S : Matrix R R ℂ) (z z' : m × R) :
    jointState K S z z' = ∑ k, (K k * S) z.1 z.2 * star ((K k * S) z'.1 z'.2) := by
  unfold jointState
  rw [Matrix.mul_apply]
  rfl

theorem jointState_posSemidef (K : κ → Matrix m R ℂ) (S : Matrix R R ℂ) : (jointState K S).PosSemidef :=
  posSemidef_self_mul_conjTranspose _

theorem firstPart_jointState (K : κ → Matrix m R ℂ) (S : Matrix R R ℂ) :
    firstPart (jointState K S) = Spec.applyKraus K (S * Sᴴ) := by
  ext x x'
  unfold firstPart Spec.applyKraus
  simp only [jointState_apply, Matrix.sum_apply]
  rw [Finset.sum_comm]
  refine Finset.sum_congr rfl fun k _ => ?_
  have : K k * (S * Sᴴ) * (K k)ᴴ = (K k * S) * (K k * S)ᴴ := by
    rw [conjTranspose_mul]; simp only [Matrix.mul_assoc]
  rw [this, Matrix.mul_apply]
  rfl

/-- The exchange matrix and the joint state have the same non-zero eigenvalues. -/
theorem exchange_jointState (K : κ → Matrix m R ℂ) (S : Matrix R R ℂ) :
    (X : ℂ[X]) ^ (Fintype.card κ) * (jointState K S).charpoly =
      X ^ (Fintype.card (m × R)) * (Spec.entropyExchange K (S * Sᴴ)).charpoly := by
  have h : Spec.entropyExchange K (S * Sᴴ) =
      ((Matrix.of fun (z : m × R) (k : κ) => (K k * S) z.1 z.2)ᴴ * (Matrix.of fun (z : m × R) (k : κ) => (K k * S) z.1 z.2))ᵀ := by
    ext k k'
    rw [transpose_apply, Matrix.mul_apply, Fintype.sum_prod_type]
    unfold Spec.entropyExchange
    have : K k * (S * Sᴴ) * (K k')ᴴ = (K k * S) * (K k' * S)ᴴ := by
      rw [conjTranspose_mul]; simp only [Matrix.mul_assoc]
    rw [this, trace]
    refine Finset.sum_congr rfl fun x _ => ?_
    rw [diag_apply, Matrix.mul_apply]
    refine Finset.sum_congr rfl fun y _ => ?_
    simp only [conjTranspose_apply, of_apply]
    ring
  rw [h, charpoly_transpose]
  exact charpoly_mul_comm' _ _

theorem jointState_comp (B : ι → Matrix m' m ℂ) (K : κ → Matrix m R ℂ) (S : Matrix R R ℂ) :
    Spec.applyKraus (fun b => B b ⊗ₖ (1 : Matrix R R ℂ)) (jointState K S) =
      jointState (fun z : ι × κ => B z.1 * K z.2) S := by
  set M : Matrix (m × R) κ ℂ := Matrix.of fun z k => (K k * S) z.1 z.2 with hM
  have hj : jointState K S = M * Mᴴ := rfl
  have hQ : ∀ b, (B b ⊗ₖ (1 : Matrix R R ℂ)) * M = Matrix.of fun z k => (B b * K k * S) z.1 z.2 := by
    intro b
    ext ⟨x, y⟩ k
    rw [Matrix.mul_apply, Fintype.sum_prod_type, of_apply, Matrix.mul_assoc, Matrix.mul_apply]
    refine Finset.sum_congr rfl fun u _ => ?_
    simp only [kroneckerMap_apply, one_apply, mul_ite, ite_mul, mul_one, mul_zero, zero_mul, Finset.sum_ite_eq,
      Finset.mem_univ, if_true, hM, of_apply]
  ext z z'
  rw [jointState_apply, Fintype.sum_prod_type]
  unfold Spec.applyKraus
  simp only [Matrix.sum_apply]
  refine Finset.sum_congr rfl fun b _ => ?_
  have : (B b ⊗ₖ (1 : Matrix R R ℂ)) * jointState K S * (B b ⊗ₖ (1 : Matrix R R ℂ))ᴴ =
      ((B b ⊗ₖ (1 : Matrix R R ℂ)) * M) * ((B b ⊗ₖ (1 : Matrix R R ℂ)) * M)ᴴ := by
    rw [hj, conjTranspose_mul]; simp only [Matrix.mul_assoc]
  rw [this, hQ, Matrix.mul_apply]
  rfl

theorem applyKraus_single (K : κ → Matrix m R ℂ) (u u' : R) (x x' : m) :
    Spec.applyKraus K (Matrix.single u u' 1) x x' = ∑ k, K k x u * star (K k x' u') := by
  unfold Spec.applyKraus
  rw [Matrix.sum_apply]
  refine Finset.sum_congr rfl fun k _ => ?_
  rw [Matrix.mul_apply, Finset.sum_eq_single u']
  · rw [Matrix.mul_apply, Finset.sum_eq_single u]
    · simp [conjTranspose_apply]
    · intro z _ hz; simp [Ne.symm hz]
    · simp
  · intro z _ hz
    rw [Matrix.mul_apply, Finset.sum_eq_zero, zero_mul]
    intro t _
    simp [Ne.symm hz]
  · simp

/-- The joint state depends on the channel only. -/
theorem jointState_same {κ' : Type} [Fintype κ'] (K : κ → Matrix m R ℂ) (L : κ' → Matrix m R ℂ)
    (h : ∀ ρ, Spec.applyKraus K ρ = Spec.applyKraus L ρ) (S : Matrix R R ℂ) : jointState K S = jointState L S := by
  have key : ∀ {κ' : Type} [Fintype κ'] (K : κ' → Matrix m R ℂ) (z z' : m × R), jointState K S z z' =
      ∑ u, ∑ u', S u z.2 * star (S u' z'.2) * Spec.applyKraus K (Matrix.single u u' 1) z.1 z'.1 := by
    intro κ' _ K z z'
    classical
    rw [jointState_apply]
    simp only [applyKraus_single, Matrix.mul_apply, star_sum, star_mul', Finset.sum_mul_sum]
    simp only [Finset.mul_sum]
    rw [Finset.sum_comm]
    refine Finset.sum_congr rfl fun u _ => ?_
    rw [Finset.sum_comm]
    refine Finset.sum_congr rfl fun u' _ => Finset.sum_congr rfl fun k _ => ?_
    ring
  ext z z'
  rw [key, key]
  simp only [h]

omit [Fintype m'] [DecidableEq ι] [DecidableEq κ] [DecidableEq m] [DecidableEq m'] [DecidableEq R] in
theorem applyKraus_comp (B : ι → Matrix m' m ℂ) (K : κ → Matrix m R ℂ) (ρ : Matrix R R ℂ) :
    Spec.applyKraus (fun z : ι × κ => B z.1 * K z.2) ρ = Spec.applyKraus B (Spec.applyKraus K ρ) := by
  unfold Spec.applyKraus
  rw [Fintype.sum_prod_type]
  refine Finset.sum_congr rfl fun b _ => ?_
  rw [Matrix.mul_sum, Matrix.sum_mul]
  refine Finset.sum_congr rfl fun k _ => ?_
  simp only [conjTranspose_mul, Matrix.mul_assoc]

/-- **Data processing** for the entropies of a channel: for a channel that is `K` followed by a channel `B`, the entropy of the
output minus that of the exchange matrix is not larger than for `K`. -/
theorem kraus_data_processing {κ' : Type} [Fintype κ'] [DecidableEq κ'] (B : ι → Matrix m' m ℂ)
    (hB : Spec.TracePreserving B) (K : κ → Matrix m R ℂ) (L : κ' → Matrix m' R ℂ)
    (hL : ∀ ρ, Spec.applyKraus L ρ = Spec.applyKraus B (Spec.applyKraus K ρ))
    {ρ : Matrix R R ℂ} (hρ : ρ.PosSemidef) {w : m → ℝ} {v : κ → ℝ} {w' : m' → ℝ} {v' : κ' → ℝ}
    (hw : (Spec.applyKraus K ρ).charpoly = ∏ i, (X - C ((w i : ℝ) : ℂ)))
    (hv : (Spec.entropyExchange K ρ).charpoly = ∏ i, (X - C ((v i : ℝ) : ℂ)))
    (hw' : (Spec.applyKraus L ρ).charpoly = ∏ i, (X - C ((w' i : ℝ) : ℂ)))
    (hv' : (Spec.entropyExchange L ρ).charpoly = ∏ i, (X - C ((v' i : ℝ) : ℂ))) :
    ∑ j, Real.negMulLog (w' j) - ∑ i, Real.negMulLog (v' i) ≤ ∑ j, Real.negMulLog (w j) - ∑ i, Real.negMulLog (v i) := by
  obtain ⟨S, rfl⟩ := exists_factor hρ
  have hj : Spec.applyKraus (fun b => B b ⊗ₖ (1 : Matrix R R ℂ)) (jointState K S) = jointState L S := by
    rw [jointState_comp]
    refine jointState_same _ _ (fun ρ => ?_) S
    rw [applyKraus_comp, hL]
  obtain ⟨-, p, -, hp⟩ := exists_eigen (jointState_posSemidef K S)
  obtain ⟨-, p', -, hp'⟩ := exists_eigen (jointState_posSemidef L S)
  rw [← sum_eq_of_charpoly hp hv (exchange_jointState K S) Real.negMulLog Real.negMulLog_zero,
    ← sum_eq_of_charpoly hp' hv' (exchange_jointState L S) Real.negMulLog Real.negMulLog_zero]
  refine conditional_entropy B hB (jointState_posSemidef K S) hp (by rw [firstPart_jointState]; exact hw)
    (by rw [hj]; exact hp') ?_
  rw [firstPart_jointState, ← hL]
  exact hw'

/-- A channel that some channel undoes loses no information: the entropy of the output minus that of the exchange matrix is
at least the entropy of the input. -/
theorem kraus_recoverable (B : ι → Matrix R m ℂ) (hB : Spec.TracePreserving B) (K : κ → Matrix m R ℂ)
    (hL : ∀ ρ, Spec.applyKraus B (Spec.applyKraus K ρ) = ρ) {ρ : Matrix R R ℂ} (hρ : ρ.PosSemidef) (h1 : trace ρ = 1)
    {w : m → ℝ} {v : κ → ℝ} {u : R → ℝ}
    (hw : (Spec.applyKraus K ρ).charpoly = ∏ i, (X - C ((w i : ℝ) : ℂ)))
    (hv : (Spec.entropyExchange K ρ).charpoly = ∏ i, (X - C ((v i : ℝ) : ℂ)))
    (hu : ρ.charpoly = ∏ i, (X - C ((u i : ℝ) : ℂ))) :
    ∑ j, Real.negMulLog (u j) ≤ ∑ j, Real.negMulLog (w j) - ∑ i, Real.negMulLog (v i) := by
  have hid : ∀ ρ : Matrix R R ℂ, Spec.applyKraus (fun _ : Unit => (1 : Matrix R R ℂ)) ρ = ρ := by
    intro ρ; simp [Spec.applyKraus]
  have h := kraus_data_processing B hB K (fun _ : Unit => (1 : Matrix R R ℂ)) (fun ρ => by rw [hL, hid]) hρ hw hv
    (by rw [hid]; exact hu) (v' := fun _ => 1) (by
      have e : Spec.entropyExchange (fun _ : Unit => (1 : Matrix R R ℂ)) ρ = 1 := by
        ext i j; simp [Spec.entropyExchange, h1]
      rw [e, charpoly_one]; simp)
  simpa using h

/-- A channel that maps the identity to the identity does not lower the entropy. -/
theorem kraus_unital (B : ι → Matrix m m ℂ) (hB : Spec.TracePreserving B) (hI : Spec.applyKraus B 1 = 1) {ρ : Matrix m m ℂ}
    (hρ : ρ.PosSemidef) {w u : m → ℝ} (hw : (Spec.applyKraus B ρ).charpoly = ∏ i, (X - C ((w i : ℝ) : ℂ)))
    (hu : ρ.charpoly = ∏ i, (X - C ((u i : ℝ) : ℂ))) :
    ∑ j, Real.negMulLog (u j) ≤ ∑ j, Real.negMulLog (w j) := by
  have hρ' := Spec.applyKraus_posSemidef B hρ
  obtain ⟨V, p, e1, c1⟩ := exists_eigen hρ
  obtain ⟨V', p', e2, c2⟩ := exists_eigen hρ'
  have e3 : Eigen (1 : Matrix m m ℂ) 1 (fun _ => 1) := ⟨by simp, by simp, by simp, fun _ => zero_le_one⟩
  have h := relEnt_mono B hB e1 e3 hρ PosSemidef.one e2 (by rw [hI]; exact e3) (fun j i h => absurd h one_ne_zero)
    (fun j i h => absurd h one_ne_zero)
  rw [relEnt_eq e1 e3.right, relEnt_eq e2 e3.right] at h
  simp only [Real.log_one, mul_zero, Finset.sum_const_zero, sub_zero] at h
  rw [sum_eq_of_charpoly (p := 0) (q := 0) hu c1 rfl Real.negMulLog Real.negMulLog_zero,
    sum_eq_of_charpoly (p := 0) (q := 0) hw c2 rfl Real.negMulLog Real.negMulLog_zero]
  linarith

end Finite

end PyQ
