import Verif.Lemmas.DesignTwirl
import Verif.Spec.TwoDesign
import Mathlib.Analysis.Matrix.Order
import Mathlib.Data.Sym.Sym2
import Mathlib.Analysis.InnerProductSpace.Positive

/-!
# The rounds of the two-design as maps of the operators of two copies and a reference
-/

namespace PyQ

open Spec Matrix
open scoped Kronecker ComplexOrder

variable {N : ℕ} {ι : Type} [Fintype ι] [DecidableEq ι]

/-! ### Positive matrices -/

theorem chance_nonneg {n : Type} [Fintype n] [DecidableEq n] {E X : Matrix n n ℂ} (hE : E.PosSemidef) (hX : X.PosSemidef) :
    0 ≤ chance E X := by
  obtain ⟨l, v, rfl⟩ := posSemidef_iff_eq_sum_vecMulVec.mp hX
  unfold chance
  rw [Matrix.mul_sum, Matrix.trace_sum, Complex.re_sum]
  refine Finset.sum_nonneg fun k _ => ?_
  rw [Matrix.mul_vecMulVec, Matrix.trace_vecMulVec, dotProduct_comm]
  exact (Complex.le_def.mp (hE.dotProduct_mulVec_nonneg (v k))).1

theorem chance_le {n : Type} [Fintype n] [DecidableEq n] {E X : Matrix n n ℂ} (hE : IsEffect E) (hX : X.PosSemidef) :
    chance E X ≤ X.trace.re := by
  have h := chance_nonneg hE.le_one hX
  unfold chance at h ⊢
  rw [Matrix.sub_mul, Matrix.one_mul, Matrix.trace_sub, Complex.sub_re] at h
  linarith

/-- Keeping the entries inside the classes of `g`. -/
theorem mask_posSemidef {n κ : Type} [Fintype n] [DecidableEq n] [Fintype κ] {X : Matrix n n ℂ} (hX : X.PosSemidef)
    (g : κ → n → ℂ) : (Matrix.of fun s t => (∑ k, g k s * star (g k t)) * X s t).PosSemidef := by
  have h : (Matrix.of fun s t => (∑ k, g k s * star (g k t)) * X s t) =
      ∑ k, Matrix.diagonal (g k) * X * (Matrix.diagonal (g k))ᴴ := by
    ext s t
    rw [Matrix.sum_apply, Matrix.of_apply, Finset.sum_mul]
    apply Finset.sum_congr rfl; intro k _
    rw [Matrix.diagonal_conjTranspose, Matrix.mul_diagonal, Matrix.diagonal_mul]
    simp only [Pi.star_apply]
    ring
  rw [h]
  exact Matrix.posSemidef_sum _ fun k _ => hX.mul_mul_conjTranspose_same _

/-! ### Blocks -/

/-- A block of an operator as a table. -/
def blk (X : TwoCopies ι N) (i j : ι) : Tab N := fun x y x' y' => X (i, (x, y)) (j, (x', y'))

/-- The average of a round. -/
noncomputable def roundMat (X : TwoCopies ι N) : TwoCopies ι N :=
  Matrix.of fun s t => roundTab (blk X s.1 t.1) s.2.1 s.2.2 t.2.1 t.2.2

omit [Fintype ι] [DecidableEq ι] in
theorem blk_roundMat (X : TwoCopies ι N) (i j : ι) : blk (roundMat X) i j = roundTab (blk X i j) := rfl

omit [Fintype ι] [DecidableEq ι] in
theorem blk_iterate (X : TwoCopies ι N) (i j : ι) (n : ℕ) : blk (roundMat^[n] X) i j = roundTab^[n] (blk X i j) := by
  induction n with
  | zero => rfl
  | succ n ih => rw [Function.iterate_succ_apply', Function.iterate_succ_apply', blk_roundMat, ih]

theorem twice_apply (U : Matrix (Fin N → ZMod 2) (Fin N → ZMod 2) ℂ) (X : TwoCopies ι N) (i j : ι)
    (x y x' y' : Fin N → ZMod 2) : twice U X (i, (x, y)) (j, (x', y')) =
      ∑ a, ∑ b, ∑ a', ∑ b', U x a * U y b * (star (U x' a') * star (U y' b')) * blk X i j a b a' b' := by
  unfold twice
  have h1 : ∀ (k : ι) (a b : Fin N → ZMod 2) (i : ι) (x y : Fin N → ZMod 2),
      ((1 : Matrix ι ι ℂ) ⊗ₖ (U ⊗ₖ U)) (i, (x, y)) (k, (a, b)) = if i = k then U x a * U y b else 0 := by
    intro k a b i x y
    simp only [Matrix.kroneckerMap_apply, Matrix.one_apply, ite_mul, one_mul, zero_mul]
  rw [Matrix.mul_apply]
  simp only [Matrix.mul_apply, Matrix.conjTranspose_apply, Fintype.sum_prod_type, h1, ite_mul, zero_mul,
    apply_ite star, star_zero, mul_ite, mul_zero]
  simp only [Finset.sum_ite_irrel, Finset.sum_const_zero, Finset.sum_ite_eq, Finset.mem_univ, if_true, Finset.sum_mul, star_mul']
  have h2 : ∀ f : (Fin N → ZMod 2) → (Fin N → ZMod 2) → (Fin N → ZMod 2) → (Fin N → ZMod 2) → ℂ,
      ∑ a', ∑ b', ∑ a, ∑ b, f a b a' b' = ∑ a, ∑ b, ∑ a', ∑ b', f a b a' b' := by
    intro f
    have h3 : ∀ a', ∑ b', ∑ a, ∑ b, f a b a' b' = ∑ a, ∑ b, ∑ b', f a b a' b' := by
      intro a'
      rw [Finset.sum_comm]
      exact Finset.sum_congr rfl fun a _ => Finset.sum_comm
    simp only [h3]
    rw [Finset.sum_comm]
    exact Finset.sum_congr rfl fun a _ => Finset.sum_comm
  rw [h2 fun a b a' b' => U x a * U y b * X (i, (a, b)) (j, (a', b')) * (star (U x' a') * star (U y' b'))]
  apply Finset.sum_congr rfl; intro a _
  apply Finset.sum_congr rfl; intro b _
  apply Finset.sum_congr rfl; intro a' _
  apply Finset.sum_congr rfl; intro b' _
  unfold blk
  ring

theorem twice_mul (U V : Matrix (Fin N → ZMod 2) (Fin N → ZMod 2) ℂ) (X : TwoCopies ι N) :
    twice (U * V) X = twice U (twice V X) := by
  unfold twice
  have h : ((1 : Matrix ι ι ℂ) ⊗ₖ ((U * V) ⊗ₖ (U * V))) = ((1 : Matrix ι ι ℂ) ⊗ₖ (U ⊗ₖ U)) * ((1 : Matrix ι ι ℂ) ⊗ₖ (V ⊗ₖ V)) := by
    rw [← Matrix.mul_kronecker_mul, ← Matrix.mul_kronecker_mul, Matrix.one_mul]
  rw [h, Matrix.conjTranspose_mul]
  simp only [Matrix.mul_assoc]

theorem twice_one (X : TwoCopies ι N) : twice 1 X = X := by
  unfold twice
  rw [Matrix.one_kronecker_one, Matrix.one_kronecker_one, Matrix.one_mul, Matrix.conjTranspose_one, Matrix.mul_one]

theorem twice_posSemidef (U : Matrix (Fin N → ZMod 2) (Fin N → ZMod 2) ℂ) {X : TwoCopies ι N} (hX : X.PosSemidef) :
    (twice U X).PosSemidef := hX.mul_mul_conjTranspose_same _

/-! ### One round -/

/-- The unitary of a round. -/
noncomputable def roundU (θ : (Fin N → ZMod 2) → ℝ) : Matrix (Fin N → ZMod 2) (Fin N → ZMod 2) ℂ :=
  Matrix.of fun x a => ((Real.sqrt 2 : ℝ) : ℂ)⁻¹ ^ N * (chi x a * Complex.exp (θ a * Complex.I))

theorem roundU_mulVec (θ : (Fin N → ZMod 2) → ℝ) (ψ : Amp N) : roundU θ *ᵥ ψ = Spec.diagHadamard θ ψ := by
  funext x
  unfold Spec.diagHadamard
  simp only [roundU, Matrix.mulVec, dotProduct, Matrix.of_apply]
  rw [Finset.mul_sum]
  apply Finset.sum_congr rfl; intro a _
  unfold chi
  ring

theorem roundU_unitary (θ : (Fin N → ZMod 2) → ℝ) : roundU θ ∈ unitaryGroup (Fin N → ZMod 2) ℂ := by
  rw [Matrix.mem_unitaryGroup_iff']
  ext a b
  have h := diagHadamard_braket θ (Pi.single a 1) (Pi.single b 1)
  rw [← roundU_mulVec, ← roundU_mulVec] at h
  unfold braket at h
  simp only [Matrix.mulVec_single, MulOpposite.op_one, one_smul, Matrix.col_apply] at h
  rw [Matrix.star_eq_conjTranspose, Matrix.mul_apply]
  simp only [Matrix.conjTranspose_apply]
  refine (show _ = _ from h).trans ?_
  simp [Pi.single_apply, Matrix.one_apply, eq_comm]

theorem round_twice (X : TwoCopies ι N) :
    ∑ e : RoundDraw N, twice (roundU (Spec.diagPhase e.1 e.2)) X = (3 ^ N * 2 ^ (N * N) : ℂ) • roundMat X := by
  have hc : (3 ^ N * 2 ^ (N * N) : ℂ) ≠ 0 := mul_ne_zero (pow_ne_zero _ (by norm_num)) (pow_ne_zero _ (by norm_num))
  ext ⟨i, x, y⟩ ⟨j, x', y'⟩
  rw [Matrix.sum_apply, Matrix.smul_apply, smul_eq_mul, mul_comm, ← div_eq_iff hc]
  show _ = roundTab (blk X i j) x y x' y'
  generalize hM : blk X i j = M
  have hs : star (((Real.sqrt 2 : ℝ) : ℂ)⁻¹ ^ N) = ((Real.sqrt 2 : ℝ) : ℂ)⁻¹ ^ N := by
    change (starRingEnd ℂ) _ = _
    rw [map_pow, map_inv₀, Complex.conj_ofReal]
  have h1 : ∀ e : RoundDraw N, twice (roundU (Spec.diagPhase e.1 e.2)) X (i, (x, y)) (j, (x', y')) =
      ((2 : ℂ) ^ N)⁻¹ ^ 2 * ∑ a, ∑ b, ∑ a', ∑ b', chi x a * chi y b * chi x' a' * chi y' b' *
        (Complex.exp ((Spec.diagPhase e.1 e.2 a + Spec.diagPhase e.1 e.2 b - Spec.diagPhase e.1 e.2 a' -
          Spec.diagPhase e.1 e.2 b' : ℝ) * Complex.I) * M a b a' b') := by
    intro e
    rw [twice_apply, hM, ← inv_sqrt_pow_four]
    simp only [Finset.mul_sum]
    apply Finset.sum_congr rfl; intro a _
    apply Finset.sum_congr rfl; intro b _
    apply Finset.sum_congr rfl; intro a' _
    apply Finset.sum_congr rfl; intro b' _
    generalize Spec.diagPhase e.1 e.2 = θ
    have h2 : ∀ u v, star (roundU θ u v) = ((Real.sqrt 2 : ℝ) : ℂ)⁻¹ ^ N * (chi u v * Complex.exp (-θ v * Complex.I)) := by
      intro u v
      simp only [roundU, Matrix.of_apply, star_mul', hs]
      congr 2
      · exact chi_star u v
      · exact conj_exp_real (θ v)
    rw [h2, h2]
    have : Complex.exp ((θ a + θ b - θ a' - θ b' : ℝ) * Complex.I) = Complex.exp (θ a * Complex.I) *
          Complex.exp (θ b * Complex.I) * Complex.exp (-θ a' * Complex.I) * Complex.exp (-θ b' * Complex.I) := by
      rw [← Complex.exp_add, ← Complex.exp_add, ← Complex.exp_add]
      congr 1
      push_cast
      ring
    rw [this]
    simp only [roundU, Matrix.of_apply]
    ring
  simp only [h1]
  rw [← Finset.mul_sum, mul_div_assoc]
  unfold roundTab
  congr 1
  rw [Finset.sum_comm, Finset.sum_div]
  apply Finset.sum_congr rfl; intro a _
  rw [Finset.sum_comm, Finset.sum_div]
  apply Finset.sum_congr rfl; intro b _
  rw [Finset.sum_comm, Finset.sum_div]
  apply Finset.sum_congr rfl; intro a' _
  rw [Finset.sum_comm, Finset.sum_div]
  apply Finset.sum_congr rfl; intro b' _
  rw [← Finset.mul_sum, mul_div_assoc, ← Finset.sum_mul, mul_div_right_comm]
  congr 2
  rw [← Finset.univ_product_univ, Finset.sum_product]
  exact C55_diagonal_design a b a' b'

theorem roundMat_posSemidef {X : TwoCopies ι N} (hX : X.PosSemidef) : (roundMat X).PosSemidef := by
  have hc : (3 ^ N * 2 ^ (N * N) : ℂ) ≠ 0 := mul_ne_zero (pow_ne_zero _ (by norm_num)) (pow_ne_zero _ (by norm_num))
  have h : roundMat X = ((3 ^ N * 2 ^ (N * N) : ℂ))⁻¹ • ∑ e : RoundDraw N, twice (roundU (Spec.diagPhase e.1 e.2)) X := by
    rw [round_twice, smul_smul, inv_mul_cancel₀ hc, one_smul]
  rw [h]
  refine PosSemidef.smul (Matrix.posSemidef_sum _ fun e _ => twice_posSemidef _ hX) ?_
  have : ((3 ^ N * 2 ^ (N * N) : ℂ))⁻¹ = (((3 ^ N * 2 ^ (N * N) : ℝ)⁻¹ : ℝ) : ℂ) := by push_cast; rfl
  rw [this, Complex.zero_le_real]
  positivity

omit [DecidableEq ι] in
theorem trace_blk (X : TwoCopies ι N) : X.trace = ∑ i, ∑ w, sumA (blk X i i) w := by
  unfold Matrix.trace
  rw [Fintype.sum_prod_type]
  apply Finset.sum_congr rfl; intro i _
  rw [Fintype.sum_prod_type]
  exact sum_bitPairs fun a b => X (i, (a, b)) (i, (a, b))

omit [DecidableEq ι] in
theorem roundMat_trace (X : TwoCopies ι N) : (roundMat X).trace = X.trace := by
  rw [trace_blk, trace_blk]
  apply Finset.sum_congr rfl; intro i _
  rw [blk_roundMat, total_A]

/-! ### All rounds -/

/-- The unitary of `T` rounds. -/
noncomputable def designMat {T : ℕ} (δ : Fin T → RoundDraw N) : Matrix (Fin N → ZMod 2) (Fin N → ZMod 2) ℂ :=
  (List.range T).foldl (fun M r => roundU
    (Spec.diagPhase (fun i => (drawsOf δ).single r i) fun i j => (drawsOf δ).ctrl r i j) * M) 1

theorem designMat_snoc {T : ℕ} (δ : Fin T → RoundDraw N) (e : RoundDraw N) :
    designMat (Fin.snoc δ e : Fin (T + 1) → RoundDraw N) = roundU (Spec.diagPhase e.1 e.2) * designMat δ := by
  unfold designMat
  rw [List.range_succ, List.foldl_append, List.foldl_cons, List.foldl_nil]
  have hT := drawsOf_single (Fin.snoc δ e : Fin (T + 1) → RoundDraw N) (Fin.last T)
  have hT' := drawsOf_ctrl (Fin.snoc δ e : Fin (T + 1) → RoundDraw N) (Fin.last T)
  rw [Fin.val_last, Fin.snoc_last] at hT hT'
  rw [hT, hT']
  congr 1
  apply foldl_congr_mem
  intro ψ r hr
  rw [List.mem_range] at hr
  have h1 := drawsOf_single (Fin.snoc δ e : Fin (T + 1) → RoundDraw N) (Fin.castSucc ⟨r, hr⟩)
  have h2 := drawsOf_ctrl (Fin.snoc δ e : Fin (T + 1) → RoundDraw N) (Fin.castSucc ⟨r, hr⟩)
  rw [Fin.snoc_castSucc] at h1 h2
  have h3 := drawsOf_single δ ⟨r, hr⟩
  have h4 := drawsOf_ctrl δ ⟨r, hr⟩
  simp only [Fin.val_castSucc] at h1 h2
  simp only at h3 h4
  rw [h1, h2, h3, h4]

theorem designMat_unitary {T : ℕ} (δ : Fin T → RoundDraw N) : designMat δ ∈ unitaryGroup (Fin N → ZMod 2) ℂ := by
  unfold designMat
  suffices h : ∀ (l : List ℕ) (M : Matrix (Fin N → ZMod 2) (Fin N → ZMod 2) ℂ), M ∈ unitaryGroup (Fin N → ZMod 2) ℂ →
      l.foldl (fun M r => roundU
        (Spec.diagPhase (fun i => (drawsOf δ).single r i) fun i j => (drawsOf δ).ctrl r i j) * M) M ∈
        unitaryGroup (Fin N → ZMod 2) ℂ from h _ _ (one_mem _)
  intro l
  induction l with
  | nil => exact fun M hM => hM
  | cons r l ih => exact fun M hM => ih _ (mul_mem (roundU_unitary _) hM)

theorem designMat_mulVec {T : ℕ} (δ : Fin T → RoundDraw N) (ψ : Amp N) : designMat δ *ᵥ ψ =
    (List.range T).foldl (fun ψ r => Spec.diagHadamard
      (Spec.diagPhase (fun i => (drawsOf δ).single r i) fun i j => (drawsOf δ).ctrl r i j) ψ) ψ := by
  unfold designMat
  suffices h : ∀ (l : List ℕ) (M : Matrix (Fin N → ZMod 2) (Fin N → ZMod 2) ℂ),
      (l.foldl (fun M r => roundU
        (Spec.diagPhase (fun i => (drawsOf δ).single r i) fun i j => (drawsOf δ).ctrl r i j) * M) M) *ᵥ ψ =
      l.foldl (fun ψ r => Spec.diagHadamard
        (Spec.diagPhase (fun i => (drawsOf δ).single r i) fun i j => (drawsOf δ).ctrl r i j) ψ) (M *ᵥ ψ) by
    have := h (List.range T) 1
    rwa [Matrix.one_mulVec] at this
  intro l
  induction l with
  | nil => exact fun M => rfl
  | cons r l ih =>
    intro M
    rw [List.foldl_cons, List.foldl_cons, ih, ← Matrix.mulVec_mulVec, roundU_mulVec]

theorem twice_sum {κ : Type} [Fintype κ] (U : Matrix (Fin N → ZMod 2) (Fin N → ZMod 2) ℂ) (X : κ → TwoCopies ι N) :
    twice U (∑ k, X k) = ∑ k, twice U (X k) := by
  unfold twice
  rw [Matrix.mul_sum, Matrix.sum_mul]

theorem roundMat_sum {κ : Type} [Fintype κ] (X : κ → TwoCopies ι N) : roundMat (∑ k, X k) = ∑ k, roundMat (X k) := by
  have hc : (3 ^ N * 2 ^ (N * N) : ℂ) ≠ 0 := mul_ne_zero (pow_ne_zero _ (by norm_num)) (pow_ne_zero _ (by norm_num))
  have h : ∀ X : TwoCopies ι N, roundMat X = ((3 ^ N * 2 ^ (N * N) : ℂ))⁻¹ • ∑ e : RoundDraw N, twice (roundU (Spec.diagPhase e.1 e.2)) X := by
    intro X
    rw [round_twice, smul_smul, inv_mul_cancel₀ hc, one_smul]
  simp only [h, twice_sum]
  rw [← Finset.smul_sum, Finset.sum_comm]

omit [Fintype ι] [DecidableEq ι] in
theorem roundMat_smul (c : ℂ) (X : TwoCopies ι N) : roundMat (c • X) = c • roundMat X := by
  ext s t
  exact roundTab_smul c (blk X s.1 t.1) s.2.1 s.2.2 t.2.1 t.2.2

/-- The average over all draws. -/
theorem design_twice (T : ℕ) (X : TwoCopies ι N) :
    ∑ δ : Fin T → RoundDraw N, twice (designMat δ) X = ((3 ^ N * 2 ^ (N * N) : ℂ) ^ T) • roundMat^[T] X := by
  induction T with
  | zero =>
    simp [designMat, twice_one]
  | succ T ih =>
    have h1 : ∑ δ : Fin (T + 1) → RoundDraw N, twice (designMat δ) X =
        ∑ δ : Fin T → RoundDraw N, ∑ e : RoundDraw N, twice (roundU (Spec.diagPhase e.1 e.2)) (twice (designMat δ) X) := by
      rw [← (Fin.snocEquiv fun _ : Fin (T + 1) => RoundDraw N).sum_comp, ← Finset.univ_product_univ,
        Finset.sum_product_right]
      apply Finset.sum_congr rfl; intro δ _
      apply Finset.sum_congr rfl; intro e _
      rw [← twice_mul, ← designMat_snoc]
      rfl
    rw [h1]
    simp only [round_twice]
    rw [← Finset.smul_sum, ← roundMat_sum, ih, roundMat_smul, smul_smul, Function.iterate_succ_apply', pow_succ, mul_comm]

/-! ### The rest -/

/-- The rest as an operator. -/
noncomputable def restMat (X : TwoCopies ι N) (l : ℕ) : TwoCopies ι N :=
  Matrix.of fun s t => restTab (blk X s.1 t.1) l s.2.1 s.2.2 t.2.1 t.2.2

/-- The part of an operator inside the blocks of unequal pairs. -/
noncomputable def offMat (X : TwoCopies ι N) : TwoCopies ι N := Matrix.of fun s t =>
  if s.2.1 ≠ s.2.2 ∧ (t.2.1 = s.2.1 ∧ t.2.2 = s.2.2 ∨ t.2.1 = s.2.2 ∧ t.2.2 = s.2.1) then X s t else 0

theorem offMat_posSemidef {X : TwoCopies ι N} (hX : X.PosSemidef) : (offMat X).PosSemidef := by
  have h := mask_posSemidef hX (κ := Sym2 (Fin N → ZMod 2))
    fun k s => if s.2.1 ≠ s.2.2 ∧ s(s.2.1, s.2.2) = k then 1 else 0
  convert h using 1
  have hsum : ∀ (P Q : Prop) [Decidable P] [Decidable Q] (c c' : Sym2 (Fin N → ZMod 2)),
      ∑ k, (if P ∧ c = k then (1 : ℂ) else 0) * star (if Q ∧ c' = k then (1 : ℂ) else 0) =
        if P ∧ Q ∧ c' = c then 1 else 0 := by
    intro P Q _ _ c c'
    by_cases hP : P <;> by_cases hQ : Q <;> simp [hP, hQ, eq_comm]
  ext ⟨i, x, y⟩ ⟨j, x', y'⟩
  unfold offMat
  simp only [Matrix.of_apply]
  rw [hsum]
  have hiff : (x ≠ y ∧ x' ≠ y' ∧ s(x', y') = s(x, y)) ↔ x ≠ y ∧ (x' = x ∧ y' = y ∨ x' = y ∧ y' = x) := by
    rw [Sym2.eq_iff]
    constructor
    · exact fun h => ⟨h.1, h.2.2⟩
    · rintro ⟨h1, h2⟩
      refine ⟨h1, ?_, h2⟩
      rcases h2 with ⟨rfl, rfl⟩ | ⟨rfl, rfl⟩
      · exact h1
      · exact Ne.symm h1
  simp only [hiff, ite_mul, one_mul, zero_mul]

/-- The average of an operator over the translations of both copies. -/
noncomputable def shiftMat (X : TwoCopies ι N) : TwoCopies ι N :=
  ∑ v : Fin N → ZMod 2, X.submatrix (fun s => (s.1, (s.2.1 + v, s.2.2 + v))) fun s => (s.1, (s.2.1 + v, s.2.2 + v))

omit [Fintype ι] [DecidableEq ι] in
theorem shiftMat_posSemidef {X : TwoCopies ι N} (hX : X.PosSemidef) : (shiftMat X).PosSemidef :=
  Matrix.posSemidef_sum _ fun _ _ => hX.submatrix _

/-- The trace over both copies of `(1 + c·F)X`. -/
noncomputable def symMat (X : TwoCopies ι N) (c : ℂ) : Matrix ι ι ℂ := Matrix.of fun i j =>
  ∑ a, ∑ b, (X (i, (a, b)) (j, (a, b)) + c * X (i, (a, b)) (j, (b, a)))

theorem symMat_posSemidef {X : TwoCopies ι N} (hX : X.PosSemidef) {c : ℝ} (hc : c ^ 2 = 1) : (symMat X c).PosSemidef := by
  set C : (Fin N → ZMod 2) → (Fin N → ZMod 2) → Matrix ι (ι × ((Fin N → ZMod 2) × (Fin N → ZMod 2))) ℂ := fun a b =>
    Matrix.of fun i s => (if (i, (a, b)) = s then 1 else 0) + if (i, (b, a)) = s then (c : ℂ) else 0 with hC
  have hc' : (c : ℂ) * c = 1 := by
    rw [← sq]
    exact_mod_cast hc
  have h1 : ∀ a b i j, (C a b * X * (C a b)ᴴ) i j = X (i, (a, b)) (j, (a, b)) + X (i, (b, a)) (j, (b, a)) +
      c * (X (i, (a, b)) (j, (b, a)) + X (i, (b, a)) (j, (a, b))) := by
    intro a b i j
    simp only [hC, Matrix.mul_apply, Matrix.conjTranspose_apply, Matrix.of_apply, star_add, apply_ite star, star_one,
      star_zero, add_mul, mul_add, ite_mul, mul_ite, one_mul, mul_one, zero_mul, mul_zero, Finset.sum_add_distrib,
      Finset.sum_ite_eq, Finset.mem_univ, if_true]
    have : star (c : ℂ) = c := Complex.conj_ofReal c
    rw [this]
    linear_combination X (i, (b, a)) (j, (b, a)) * hc'
  have h2 : symMat X c = (1 / 2 : ℂ) • ∑ a, ∑ b, C a b * X * (C a b)ᴴ := by
    ext i j
    rw [Matrix.smul_apply, Matrix.sum_apply]
    simp only [Matrix.sum_apply, h1]
    simp only [symMat, Matrix.of_apply, Finset.sum_add_distrib, ← Finset.mul_sum]
    rw [Finset.sum_comm (f := fun a b => X (i, (b, a)) (j, (b, a))), Finset.sum_comm (f := fun a b => X (i, (b, a)) (j, (a, b))),
      smul_eq_mul]
    ring
  rw [h2]
  refine PosSemidef.smul (Matrix.posSemidef_sum _ fun a _ => Matrix.posSemidef_sum _ fun b _ =>
    hX.mul_mul_conjTranspose_same _) ?_
  have : (1 / 2 : ℂ) = ((1 / 2 : ℝ) : ℂ) := by push_cast; rfl
  rw [this, Complex.zero_le_real]
  norm_num

/-- The part of an operator on equal pairs, without its position. -/
noncomputable def equalMat (X : TwoCopies ι N) : Matrix ι ι ℂ :=
  ∑ a : Fin N → ZMod 2, X.submatrix (fun i => (i, (a, a))) fun i => (i, (a, a))

omit [Fintype ι] [DecidableEq ι] in
theorem equalMat_posSemidef {X : TwoCopies ι N} (hX : X.PosSemidef) : (equalMat X).PosSemidef :=
  Matrix.posSemidef_sum _ fun _ _ => hX.submatrix _

omit [Fintype ι] [DecidableEq ι] in
theorem equalMat_apply (X : TwoCopies ι N) (i j : ι) : equalMat X i j = sumA (blk X i j) 0 := by
  unfold equalMat sumA blk
  rw [Matrix.sum_apply]
  simp

omit [Fintype ι] [DecidableEq ι] in
theorem symMat_off (X : TwoCopies ι N) (c : ℂ) (i j : ι) : symMat (offMat X) c i j =
    ∑ w, sumA (blk X i j) w + c * ∑ w, sumB (blk X i j) w - (1 + c) * sumA (blk X i j) 0 := by
  have h : ∀ a b, offMat X (i, (a, b)) (j, (a, b)) + c * offMat X (i, (a, b)) (j, (b, a)) =
      (blk X i j a b a b + c * blk X i j a b b a) - if a = b then (1 + c) * blk X i j a a a a else 0 := by
    intro a b
    unfold offMat blk
    simp only [Matrix.of_apply]
    by_cases hab : a = b
    · subst hab
      simp
      ring
    · simp [hab]
  unfold symMat
  rw [Matrix.of_apply]
  simp only [h, Finset.sum_sub_distrib, Finset.sum_add_distrib, Finset.sum_ite_eq, Finset.mem_univ, if_true, ← Finset.mul_sum]
  rw [sum_bitPairs fun a b => blk X i j a b a b, sum_bitPairs fun a b => blk X i j a b b a]
  simp [sumA, sumB]

omit [Fintype ι] [DecidableEq ι] in
theorem shift_off (X : TwoCopies ι N) (i j : ι) (x y x' y' : Fin N → ZMod 2) :
    shiftMat (offMat X) (i, (x, y)) (j, (x', y')) =
      (if x ≠ y ∧ x' = x ∧ y' = y then sumA (blk X i j) (x + y) else 0) +
        if x ≠ y ∧ x' = y ∧ y' = x then sumB (blk X i j) (x + y) else 0 := by
  unfold shiftMat offMat
  rw [Matrix.sum_apply]
  simp only [Matrix.submatrix_apply, Matrix.of_apply, ne_eq, add_left_inj]
  have hy : ∀ v : Fin N → ZMod 2, y + v = (x + v) + (x + y) := by
    intro v
    rw [show x + v + (x + y) = (x + x) + (y + v) from by abel, bits_self, zero_add]
  by_cases h : x = y
  · simp [h]
  by_cases h1 : x' = x ∧ y' = y
  · obtain ⟨rfl, rfl⟩ := h1
    simp only [h, not_false_eq_true, and_self, true_and, true_or, if_true, false_and, if_false, add_zero]
    unfold sumA blk
    rw [← Equiv.sum_comp (Equiv.addLeft x')]
    apply Finset.sum_congr rfl; intro v _
    simp only [Equiv.coe_addLeft, hy, bits_cancel]
  by_cases h2 : x' = y ∧ y' = x
  · obtain ⟨rfl, rfl⟩ := h2
    simp only [h, not_false_eq_true, and_self, true_and, or_true, if_true]
    rw [if_neg (by rintro ⟨h2, -⟩; exact h h2.symm), zero_add]
    unfold sumB blk
    rw [← Equiv.sum_comp (Equiv.addLeft y')]
    apply Finset.sum_congr rfl; intro v _
    simp only [Equiv.coe_addLeft, hy, bits_cancel]
  · simp [h, h1, h2]

theorem leak_nonneg (l : ℕ) : 0 ≤ leak N l := by
  induction l with
  | zero => exact le_rfl
  | succ l ih =>
    rw [leak]
    positivity

theorem leak_le (hN : 0 < N) (l : ℕ) : leak N l ≤ (((2 : ℝ) ^ N) ^ l)⁻¹ / (2 ^ N - 1) := by
  have hd : (1 : ℝ) < 2 ^ N := one_lt_pow₀ (by norm_num) hN.ne'
  have hd1 : (0 : ℝ) < 2 ^ N - 1 := by linarith
  induction l with
  | zero =>
    rw [leak]
    positivity
  | succ l ih =>
    rw [leak]
    generalize (2 : ℝ) ^ N = d at *
    have hd0 : 0 < d := by linarith
    calc (d ^ l)⁻¹ * d⁻¹ ^ 2 + leak N l * d⁻¹ ^ 2 ≤ (d ^ l)⁻¹ * d⁻¹ ^ 2 + (d ^ l)⁻¹ / (d - 1) * d⁻¹ ^ 2 := by gcongr
      _ = (d ^ (l + 1))⁻¹ / (d - 1) := by
        rw [pow_succ]
        field_simp
        ring

/-- The part on equal pairs of the rest. -/
noncomputable def restEqual (X : TwoCopies ι N) (l : ℕ) : Matrix ι ι ℂ :=
  (leak N l : ℂ) • symMat (offMat X) 1 + (((2 : ℂ) ^ N) ^ (2 * l))⁻¹ • equalMat X

omit [Fintype ι] [DecidableEq ι] in
theorem restEqual_apply (X : TwoCopies ι N) (l : ℕ) (i j : ι) : restEqual X l i j = restC (blk X i j) l := by
  unfold restEqual restC
  rw [Matrix.add_apply, Matrix.smul_apply, Matrix.smul_apply, symMat_off, equalMat_apply, smul_eq_mul, smul_eq_mul]
  ring

omit [Fintype ι] [DecidableEq ι] in
theorem restMat_eq (X : TwoCopies ι N) (l : ℕ) : restMat X l =
    ((((2 : ℂ) ^ N) ^ l)⁻¹ * ((2 : ℂ) ^ N)⁻¹) • shiftMat (offMat X) + ((2 : ℂ) ^ N)⁻¹ • (restEqual X l ⊗ₖ
      Matrix.diagonal fun s : (Fin N → ZMod 2) × (Fin N → ZMod 2) => if s.1 = s.2 then (1 : ℂ) else 0) := by
  ext ⟨i, x, y⟩ ⟨j, x', y'⟩
  rw [Matrix.add_apply, Matrix.smul_apply, Matrix.smul_apply, shift_off, Matrix.kroneckerMap_apply, restEqual_apply,
    Matrix.diagonal_apply, smul_eq_mul, smul_eq_mul]
  show restTab _ _ _ _ _ _ = _
  unfold restTab
  simp only
  rw [mul_add, mul_ite, mul_ite, mul_zero]
  congr 1
  by_cases h : x = y
  · subst h
    by_cases h1 : x' = x <;> by_cases h2 : y' = x
    · simp [h1, h2]
    · simp [h2, Ne.symm h2]
    · simp [h1, Ne.symm h1]
    · simp [h1, Ne.symm h1]
  · simp [h]

theorem restMat_posSemidef {X : TwoCopies ι N} (hX : X.PosSemidef) (l : ℕ) : (restMat X l).PosSemidef := by
  have r1 : ∀ k : ℕ, (0 : ℂ) ≤ (((2 : ℂ) ^ N) ^ k)⁻¹ := by
    intro k
    have : (((2 : ℂ) ^ N) ^ k)⁻¹ = (((((2 : ℝ) ^ N) ^ k)⁻¹ : ℝ) : ℂ) := by push_cast; rfl
    rw [this, Complex.zero_le_real]
    positivity
  have r2 : (0 : ℂ) ≤ ((2 : ℂ) ^ N)⁻¹ := by
    have := r1 1
    rwa [pow_one] at this
  rw [restMat_eq]
  refine PosSemidef.add (PosSemidef.smul (shiftMat_posSemidef (offMat_posSemidef hX)) (mul_nonneg (r1 l) r2))
    (PosSemidef.smul (PosSemidef.kronecker ?_ ?_) r2)
  · unfold restEqual
    refine PosSemidef.add (PosSemidef.smul ?_ (Complex.zero_le_real.mpr (leak_nonneg l)))
      (PosSemidef.smul (equalMat_posSemidef hX) (r1 _))
    have := symMat_posSemidef (offMat_posSemidef hX) (c := 1) (by norm_num)
    simpa using this
  · refine PosSemidef.diagonal ?_
    intro s
    simp only [Pi.zero_apply]
    split_ifs
    · exact zero_le_one
    · exact le_rfl

omit [DecidableEq ι] in
theorem restMat_trace (X : TwoCopies ι N) (l : ℕ) : (restMat X l).trace =
    (((2 : ℂ) ^ N) ^ l)⁻¹ * (X.trace - (equalMat X).trace) + (restEqual X l).trace := by
  have hd := two_pow_ne (N := N)
  rw [trace_blk, trace_blk]
  unfold Matrix.trace
  simp only [Matrix.diag_apply, equalMat_apply, restEqual_apply]
  rw [← Finset.sum_sub_distrib, Finset.mul_sum, ← Finset.sum_add_distrib]
  apply Finset.sum_congr rfl; intro i _
  have h0 : sumA (blk (restMat X l) i i) 0 = restC (blk X i i) l := by
    unfold sumA
    show ∑ a, restTab (blk X i i) l a (a + 0) a (a + 0) = _
    simp only [add_zero, restTab]
    simp [card_bits_c]
  have h1 : ∀ w ≠ 0, sumA (blk (restMat X l) i i) w = (((2 : ℂ) ^ N) ^ l)⁻¹ * sumA (blk X i i) w + 0 := by
    intro w hw
    conv_lhs => unfold sumA
    show ∑ a, restTab (blk X i i) l a (a + w) a (a + w) = _
    simp only [restTab, bits_cancel]
    simp [hw]
    field_simp
  have := sum_ne_zero_add _ _ _ _ _ h1 h0
  rw [this]
  ring

end PyQ
