import Verif.Lemmas.DegradablePow

/-!
# Channels that stay channels when their input is transposed

The joint state of output and reference is below the output on the first system and anything on the second, and then its entropy is
at least that of the output.
-/

namespace PyQ

open Matrix Polynomial Spec
open scoped ComplexOrder Kronecker

section

variable {m R κ ι : Type} [Fintype m] [DecidableEq m] [Fintype R] [DecidableEq R] [Fintype κ] [DecidableEq κ] [Fintype ι]
  [DecidableEq ι]

/-! ### The logarithm is monotone, in the form of relative entropies -/

/-- The operators of the partial trace over the second system. -/
def dropOps (m τ : Type) [DecidableEq m] [DecidableEq τ] : τ → Matrix m (m × τ) ℂ := fun i => of fun x z =>
  if z = (x, i) then 1 else 0

theorem dropOps_tp : Spec.TracePreserving (dropOps m ι) := by
  unfold Spec.TracePreserving
  ext z z'
  rw [Matrix.sum_apply]
  simp only [Matrix.mul_apply, conjTranspose_apply, dropOps, of_apply]
  rw [Finset.sum_comm, ← Fintype.sum_prod_type' fun x i => star (if z = (x, i) then (1 : ℂ) else 0) * if z' = (x, i) then 1 else 0,
    Finset.sum_eq_single z]
  · by_cases h : z = z'
    · subst h; simp
    · simp [h, Ne.symm h]
  · intro b _ hb
    simp [Ne.symm hb]
  · simp

theorem dropOps_apply (J : Matrix (m × ι) (m × ι) ℂ) : applyKraus (dropOps m ι) J = firstPart J := by
  ext x x'
  unfold applyKraus firstPart
  rw [Matrix.sum_apply]
  refine Finset.sum_congr rfl fun i _ => ?_
  rw [Matrix.mul_apply, Finset.sum_eq_single (x', i)]
  · rw [Matrix.mul_apply, Finset.sum_eq_single (x, i)]
    · simp [dropOps]
    · intro b _ hb
      simp [dropOps, hb]
    · simp
  · intro b _ hb
    simp [dropOps, hb]
  · simp

/-- A matrix below another one has no positive relative entropy to it. -/
theorem relEnt_nonpos {A B V U : Matrix m m ℂ} {p q : m → ℝ} (hA : Eigen A V p) (hB : Eigen B U q)
    (hle : (B - A).PosSemidef) (hs : Supported p q (Uᴴ * V)) : relEnt p q (Uᴴ * V) ≤ 0 := by
  obtain ⟨W, s, hW, -⟩ := exists_eigen hle
  have h0 : Eigen (0 : Matrix m m ℂ) W fun _ => 0 := ⟨hW.left, hW.right, by simp, fun _ => le_rfl⟩
  have e1 : Eigen (blockDiagonal fun i : Bool => if i then A else 0) (blockDiagonal fun i : Bool => if i then V else W)
      fun z : m × Bool => (if z.2 then p else fun _ => 0) z.1 :=
    eigen_blockDiagonal (w := fun i : Bool => if i then p else fun _ => 0) fun i => by cases i <;> simp [hA, h0]
  have e2 : Eigen (blockDiagonal fun i : Bool => if i then A else B - A) (blockDiagonal fun i : Bool => if i then V else W)
      fun z : m × Bool => (if z.2 then p else s) z.1 :=
    eigen_blockDiagonal (w := fun i : Bool => if i then p else s) fun i => by cases i <;> simp [hA, hW]
  have key := relEnt_mono (dropOps m Bool) dropOps_tp e1 e2 (eigen_posSemidef e1) (eigen_posSemidef e2) (p' := p) (V' := V)
    (q' := q) (U' := U) (by rw [dropOps_apply, firstPart_blockDiagonal]; simpa using hA)
    (by rw [dropOps_apply, firstPart_blockDiagonal]; simpa using hB) ?_ hs
  · refine key.trans (le_of_eq ?_)
    rw [e1.left]
    unfold relEnt
    refine Finset.sum_eq_zero fun j _ => Finset.sum_eq_zero fun i _ => ?_
    by_cases h : j = i
    · subst h
      obtain ⟨x, c⟩ := j
      cases c <;> simp
    · simp [one_apply_ne h]
  · rw [e1.left]
    intro j i hj
    by_cases h : j = i
    · subst h
      obtain ⟨x, c⟩ := j
      cases c <;> simp_all
    · simp [one_apply_ne h]

/-- If a joint state is below its first part tensored with the identity, its entropy is at least that of the first part. -/
theorem entropy_firstPart_le {J : Matrix (m × R) (m × R) ℂ} (hJ : J.PosSemidef)
    (hle : (firstPart J ⊗ₖ (1 : Matrix R R ℂ) - J).PosSemidef) :
    specSum Real.negMulLog (firstPart J) ≤ specSum Real.negMulLog J := by
  have hN := firstPart_posSemidef hJ
  obtain ⟨V, p, e1, c1⟩ := exists_eigen hJ
  obtain ⟨U, q, e2, c2⟩ := exists_eigen hN
  obtain ⟨r1, s1⟩ := relEnt_firstPart e1 e2
  have := relEnt_nonpos e1 (eigen_kron_one (R := R) e2) hle s1
  rw [r1] at this
  rw [specSum_eq hJ c1 Real.negMulLog_zero, specSum_eq hN c2 Real.negMulLog_zero]
  linarith

/-! ### Partial transposition -/

/-- Transposition of the second system. -/
def transposeSecond (J : Matrix (m × R) (m × R) ℂ) : Matrix (m × R) (m × R) ℂ := of fun z z' => J (z.1, z'.2) (z'.1, z.2)

/-- The antisymmetric operator on two levels. -/
def antisym (u u' : R) : Matrix R R ℂ := Matrix.single u u' (1 : ℂ) - Matrix.single u' u (1 : ℂ)

theorem antisym_sum (a b a' b' : R) : ∑ u, ∑ u', antisym u u' a b * star (antisym u u' a' b') =
    2 * ((if a = a' ∧ b = b' then 1 else 0) - if a = b' ∧ b = a' then 1 else 0) := by
  have h : ∀ u u' : R, antisym u u' a b * star (antisym u u' a' b') =
      (if u' = b then if u = a then ((if a = a' ∧ b = b' then 1 else 0) - if b = a' ∧ a = b' then 1 else 0 : ℂ) else 0 else 0) +
      (if u' = a then if u = b then ((if a = a' ∧ b = b' then 1 else 0) - if b = a' ∧ a = b' then 1 else 0 : ℂ) else 0 else 0) := by
    intro u u'
    simp only [antisym, Matrix.sub_apply, Matrix.single, of_apply, star_sub, apply_ite (star : ℂ → ℂ), star_one, star_zero]
    by_cases h1 : u = a <;> by_cases h2 : u' = b <;> by_cases h3 : u = b <;> by_cases h4 : u' = a <;> simp_all
  simp only [h, Finset.sum_add_distrib, Finset.sum_ite_eq', Finset.mem_univ, if_true]
  simp only [and_comm (a := b = a')]
  ring

/-- The first part of a joint state, less the state, from the partial transpose. -/
theorem reduction_eq (J : Matrix (m × R) (m × R) ℂ) :
    (2 : ℂ) • (firstPart J ⊗ₖ (1 : Matrix R R ℂ) - J) = ∑ u, ∑ u', ((1 : Matrix m m ℂ) ⊗ₖ antisym u u') * transposeSecond J *
      ((1 : Matrix m m ℂ) ⊗ₖ antisym u u')ᴴ := by
  have hl : ∀ (A : Matrix R R ℂ) (M : Matrix (m × R) (m × R) ℂ) (x : m) (a : R) (z : m × R),
      (((1 : Matrix m m ℂ) ⊗ₖ A) * M) (x, a) z = ∑ b, A a b * M (x, b) z := by
    intro A M x a z
    rw [Matrix.mul_apply, Fintype.sum_prod_type, Finset.sum_eq_single x]
    · simp [kroneckerMap_apply]
    · intro y _ hy
      simp [kroneckerMap_apply, one_apply_ne (Ne.symm hy)]
    · simp
  have hr : ∀ (A : Matrix R R ℂ) (M : Matrix (m × R) (m × R) ℂ) (x : m) (a : R) (z : m × R),
      (M * ((1 : Matrix m m ℂ) ⊗ₖ A)ᴴ) z (x, a) = ∑ b, M z (x, b) * star (A a b) := by
    intro A M x a z
    rw [Matrix.mul_apply, Fintype.sum_prod_type, Finset.sum_eq_single x]
    · simp [kroneckerMap_apply]
    · intro y _ hy
      simp [kroneckerMap_apply, one_apply_ne (Ne.symm hy)]
    · simp
  ext ⟨x, a⟩ ⟨x', a'⟩
  have h1 : (∑ u : R, ∑ u' : R, ((1 : Matrix m m ℂ) ⊗ₖ antisym u u') * transposeSecond J *
      ((1 : Matrix m m ℂ) ⊗ₖ antisym u u')ᴴ : Matrix (m × R) (m × R) ℂ) (x, a) (x', a') =
      ∑ b', ∑ b, (∑ u, ∑ u', antisym u u' a b * star (antisym u u' a' b')) * J (x, b') (x', b) := by
    simp only [Matrix.sum_apply, hr, hl, Finset.sum_mul, transposeSecond, of_apply]
    rw [Finset.sum_congr rfl fun u _ => Finset.sum_comm, Finset.sum_comm]
    refine Finset.sum_congr rfl fun b' _ => ?_
    rw [Finset.sum_congr rfl fun u _ => Finset.sum_comm, Finset.sum_comm]
    refine Finset.sum_congr rfl fun b _ => Finset.sum_congr rfl fun u _ => Finset.sum_congr rfl fun u' _ => ?_
    ring
  rw [h1]
  simp only [antisym_sum, mul_sub, sub_mul, Finset.sum_sub_distrib]
  rw [Matrix.smul_apply, Matrix.sub_apply, kroneckerMap_apply, smul_eq_mul, mul_sub]
  congr 1
  · by_cases h : a = a'
    · subst h
      simp [firstPart, Finset.mul_sum]
    · simp [h]
  · simp only [ite_and, mul_ite, ite_mul, mul_one, mul_zero, zero_mul]
    simp

theorem reduction_posSemidef {J : Matrix (m × R) (m × R) ℂ} (hJ : (transposeSecond J).PosSemidef) :
    (firstPart J ⊗ₖ (1 : Matrix R R ℂ) - J).PosSemidef := by
  have h : firstPart J ⊗ₖ (1 : Matrix R R ℂ) - J = (2⁻¹ : ℂ) • ∑ u, ∑ u', ((1 : Matrix m m ℂ) ⊗ₖ antisym u u') *
      transposeSecond J * ((1 : Matrix m m ℂ) ⊗ₖ antisym u u')ᴴ := by
    rw [← reduction_eq, smul_smul]
    norm_num
  rw [h]
  refine PosSemidef.smul ?_ (by rw [show (2⁻¹ : ℂ) = ((2⁻¹ : ℝ) : ℂ) by norm_num]; exact_mod_cast (by norm_num : (0 : ℝ) ≤ 2⁻¹))
  exact posSemidef_sum _ fun u _ => posSemidef_sum _ fun u' _ => hJ.mul_mul_conjTranspose_same _

/-- The partial transpose of the joint state of a channel that stays a channel when its input is transposed. -/
theorem transposeSecond_jointState (K : κ → Matrix m R ℂ) (G : ι → Matrix m R ℂ)
    (h : ∀ x y x' y', ∑ k, K k x y * star (K k x' y') = ∑ g, G g x y' * star (G g x' y)) (S : Matrix R R ℂ) :
    transposeSecond (jointState K S) = jointState G (S.map star) := by
  ext ⟨x, a⟩ ⟨x', a'⟩
  show jointState K S (x, a') (x', a) = _
  simp only [jointState_apply, Matrix.mul_apply, star_sum, star_mul', Finset.sum_mul, Finset.mul_sum, map_apply, star_star]
  have h1 : ∀ {μ : Type} [Fintype μ] (L : μ → Matrix m R ℂ) (f g : R → ℂ),
      ∑ k, ∑ v, ∑ u, L k x u * f u * (star (L k x' v) * g v) = ∑ v, ∑ u, f u * g v * ∑ k, L k x u * star (L k x' v) := by
    intro μ _ L f g
    rw [Finset.sum_comm]
    refine Finset.sum_congr rfl fun v _ => ?_
    rw [Finset.sum_comm]
    refine Finset.sum_congr rfl fun u _ => ?_
    rw [Finset.mul_sum]
    refine Finset.sum_congr rfl fun k _ => ?_
    ring
  rw [h1 K (fun u => S u a') fun v => star (S v a), h1 G (fun u => star (S u a)) fun v => S v a', Finset.sum_comm]
  simp only [h]
  refine Finset.sum_congr rfl fun v _ => Finset.sum_congr rfl fun u _ => ?_
  ring

/-- A channel that stays a channel when its input is transposed has no coherent information. -/
theorem transposable_nonpos (K : κ → Matrix m R ℂ) (G : ι → Matrix m R ℂ)
    (h : ∀ x y x' y', ∑ k, K k x y * star (K k x' y') = ∑ g, G g x y' * star (G g x' y)) {ρ : Matrix R R ℂ}
    (hρ : ρ.PosSemidef) : krausInfo K ρ ≤ 0 := by
  obtain ⟨S, rfl⟩ := exists_factor hρ
  have hJ := jointState_posSemidef K S
  have key := entropy_firstPart_le hJ (reduction_posSemidef (by
    rw [transposeSecond_jointState K G h]; exact jointState_posSemidef _ _))
  rw [firstPart_jointState, specSum_congr hJ (Spec.exchange_posSemidef K hρ) (exchange_jointState K S) Real.negMulLog_zero] at key
  unfold krausInfo
  linarith

end

/-! ### Several uses -/

theorem transposable_pow {l l' a b : ℕ} (K : Fin l → Matrix (Fin a) (Fin b) ℂ) (G : Fin l' → Matrix (Fin a) (Fin b) ℂ)
    (h : ∀ x y x' y', ∑ k, K k x y * star (K k x' y') = ∑ g, G g x y' * star (G g x' y)) (t : ℕ) (x : Fin (a ^ t))
    (y : Fin (b ^ t)) (x' : Fin (a ^ t)) (y' : Fin (b ^ t)) :
    ∑ k, tensorPow K t k x y * star (tensorPow K t k x' y') = ∑ g, tensorPow G t g x y' * star (tensorPow G t g x' y) := by
  have key : ∀ {j : ℕ} (J : Fin j → Matrix (Fin a) (Fin b) ℂ) (y y' : Fin (b ^ t)),
      ∑ k, tensorPow J t k x y * star (tensorPow J t k x' y') =
        ∏ s, ∑ k, J k (digit x s) (digit y s) * star (J k (digit x' s) (digit y' s)) := by
    intro j J y y'
    rw [Spec.prod_sum_pi, ← Spec.sum_digits]
    refine Finset.sum_congr rfl fun k _ => ?_
    rw [Finset.prod_mul_distrib, ← star_prod]
    rfl
  rw [key, key]
  exact Finset.prod_congr rfl fun s _ => h _ _ _ _

/-- In terms of what the channels do. -/
theorem transposable_iff {l l' a b : ℕ} (K : Fin l → Matrix (Fin a) (Fin b) ℂ) (G : Fin l' → Matrix (Fin a) (Fin b) ℂ) :
    (∀ ρ, applyKraus K ρ = applyKraus G ρᵀ) ↔
      ∀ x y x' y', ∑ k, K k x y * star (K k x' y') = ∑ g, G g x y' * star (G g x' y) := by
  constructor
  · intro h x y x' y'
    rw [← Spec.applyKraus_unit, h, transpose_single, Spec.applyKraus_unit]
  · intro h ρ
    have key : ∀ {j : ℕ} (J : Fin j → Matrix (Fin a) (Fin b) ℂ) (ρ : Matrix (Fin b) (Fin b) ℂ) (x x'), applyKraus J ρ x x' =
        ∑ y', ∑ y, ρ y y' * ∑ k, J k x y * star (J k x' y') := by
      intro j J ρ x x'
      unfold applyKraus
      rw [Matrix.sum_apply]
      simp only [Matrix.mul_apply, conjTranspose_apply, Finset.sum_mul, Finset.mul_sum]
      rw [Finset.sum_comm]
      refine Finset.sum_congr rfl fun y' _ => ?_
      rw [Finset.sum_comm]
      refine Finset.sum_congr rfl fun y _ => Finset.sum_congr rfl fun k _ => ?_
      ring
    ext x x'
    rw [key, key, Finset.sum_comm]
    simp only [h, transpose_apply]

end PyQ
