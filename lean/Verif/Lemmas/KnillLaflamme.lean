import Verif.Lemmas.DataProcessing
import Verif.Lemmas.TensorPow

/-! When a channel can be undone: the conditions of Knill and Laflamme. -/

namespace PyQ

open Matrix
open scoped ComplexOrder

variable {ι κ r c : Type} [Fintype ι] [Fintype κ] [Fintype r] [Fintype c] [DecidableEq ι] [DecidableEq κ] [DecidableEq r]
  [DecidableEq c]

omit [DecidableEq ι] in
theorem normSq_sum_zero {f : ι → ℂ} (h : ∑ i, f i * star (f i) = 0) (i : ι) : f i = 0 := by
  have h1 : ∑ i, Complex.normSq (f i) = 0 := by
    have h2 : ((∑ i, Complex.normSq (f i) : ℝ) : ℂ) = 0 := by
      rw [← h, Complex.ofReal_sum]
      refine Finset.sum_congr rfl fun i _ => ?_
      rw [show star (f i) = (starRingEnd ℂ) (f i) from rfl, Complex.mul_conj]
    exact_mod_cast h2
  have h3 := (Finset.sum_eq_zero_iff_of_nonneg fun i _ => Complex.normSq_nonneg (f i)).mp h1 i (Finset.mem_univ i)
  exact Complex.normSq_eq_zero.mp h3

omit [DecidableEq ι] in
/-- Operators of a map that changes nothing are multiples of the identity. -/
theorem kraus_identity {A : ι → Matrix c c ℂ} (h : ∀ X, Spec.applyKraus A X = X) (i : ι) : ∃ a : ℂ, A i = a • 1 := by
  have key : ∀ x y u v : c, ∑ i, A i u x * star (A i v y) = single x y (1 : ℂ) u v := by
    intro x y u v
    rw [← congrFun (congrFun (h (single x y 1)) u) v]
    unfold Spec.applyKraus
    rw [Matrix.sum_apply]
    refine Finset.sum_congr rfl fun i _ => ?_
    rw [Matrix.mul_apply, Finset.sum_eq_single y]
    · rw [Matrix.mul_apply, Finset.sum_eq_single x]
      · simp [conjTranspose_apply]
      · intro z _ hz
        rw [single_apply_of_row_ne hz.symm, mul_zero]
      · simp
    · intro z _ hz
      rw [Matrix.mul_apply, Finset.sum_eq_zero, zero_mul]
      intro w _
      rw [single_apply_of_col_ne _ _ hz.symm, mul_zero]
    · simp
  have hoff : ∀ u x, u ≠ x → A i u x = 0 := by
    intro u x hux
    have := key x x u u
    rw [single_apply_of_row_ne (Ne.symm hux)] at this
    exact normSq_sum_zero this i
  have hdiag : ∀ x y, A i x x = A i y y := by
    intro x y
    have h1 : ∑ i, (A i x x - A i y y) * star (A i x x - A i y y) = 0 := by
      have := key x x x x
      have := key x y x y
      have := key y x y x
      have := key y y y y
      simp only [single_apply_same] at *
      simp only [star_sub, sub_mul, mul_sub, Finset.sum_sub_distrib, *]
      simp
    exact sub_eq_zero.mp (normSq_sum_zero h1 i)
  rcases isEmpty_or_nonempty c with hc | ⟨⟨x⟩⟩
  · exact ⟨0, Matrix.ext fun u => hc.elim u⟩
  · refine ⟨A i x x, ?_⟩
    ext u v
    rw [Matrix.smul_apply, one_apply, smul_eq_mul]
    split_ifs with huv
    · rw [huv, mul_one]; exact hdiag v x
    · rw [mul_zero]; exact hoff u v huv

/-- What can be undone leaves no trace in the environment. -/
theorem undone_products {R : κ → Matrix c r ℂ} (hR : Spec.TracePreserving R) {K : ι → Matrix r c ℂ}
    (h : ∀ X, Spec.applyKraus R (Spec.applyKraus K X) = X) (i j : ι) : ∃ w : ℂ, (K i)ᴴ * K j = w • 1 := by
  have h1 : ∀ X, Spec.applyKraus (fun p : κ × ι => R p.1 * K p.2) X = X := by
    intro X
    conv_rhs => rw [← h X]
    unfold Spec.applyKraus
    rw [Fintype.sum_prod_type]
    refine Finset.sum_congr rfl fun a _ => ?_
    rw [Matrix.mul_sum, Matrix.sum_mul]
    refine Finset.sum_congr rfl fun b _ => ?_
    simp only [conjTranspose_mul, Matrix.mul_assoc]
  choose a ha using fun p => kraus_identity h1 p
  refine ⟨∑ k, star (a (k, i)) * a (k, j), ?_⟩
  calc (K i)ᴴ * K j = (K i)ᴴ * (∑ k, (R k)ᴴ * R k) * K j := by rw [show ∑ k, (R k)ᴴ * R k = 1 from hR, Matrix.mul_one]
    _ = ∑ k, (R k * K i)ᴴ * (R k * K j) := by
        rw [Matrix.mul_sum, Matrix.sum_mul]
        refine Finset.sum_congr rfl fun k _ => ?_
        simp only [conjTranspose_mul, Matrix.mul_assoc]
    _ = _ := by
        rw [Finset.sum_smul]
        refine Finset.sum_congr rfl fun k _ => ?_
        rw [ha (k, i), ha (k, j), conjTranspose_smul, conjTranspose_one, smul_mul_smul_comm, Matrix.one_mul]

/-- Operators whose products are multiples of the identity can be undone. -/
theorem products_undone {K : ι → Matrix r c ℂ} (hK : Spec.TracePreserving K) [Nonempty c]
    (h : ∀ i j, ∃ w : ℂ, (K i)ᴴ * K j = w • 1) :
    ∃ R : ι ⊕ r → Matrix c r ℂ, Spec.TracePreserving R ∧ ∀ X, Spec.applyKraus R (Spec.applyKraus K X) = X := by
  obtain ⟨x0⟩ := ‹Nonempty c›
  choose w hw using h
  -- the matrix of the multiples is positive
  have hpos : (of w : Matrix ι ι ℂ).PosSemidef := by
    have : (of w : Matrix ι ι ℂ) = (of fun u i => K i u x0 : Matrix r ι ℂ)ᴴ * (of fun u i => K i u x0 : Matrix r ι ℂ) := by
      ext i j
      have h1 := congrFun (congrFun (hw i j) x0) x0
      rw [Matrix.smul_apply, one_apply_eq, smul_eq_mul, mul_one, Matrix.mul_apply] at h1
      rw [Matrix.mul_apply]
      exact h1.symm
    rw [this]
    exact posSemidef_conjTranspose_mul_self _
  obtain ⟨V, p, hV, -⟩ := exists_eigen hpos
  have hdiag : Vᴴ * of w * V = diagonal fun i => ((p i : ℝ) : ℂ) := by
    rw [hV.eq]
    calc Vᴴ * (V * diagonal (fun i => ((p i : ℝ) : ℂ)) * Vᴴ) * V
        = (Vᴴ * V) * diagonal (fun i => ((p i : ℝ) : ℂ)) * (Vᴴ * V) := by simp only [Matrix.mul_assoc]
      _ = _ := by rw [hV.left, Matrix.one_mul, Matrix.mul_one]
  set F : ι → Matrix r c ℂ := fun k => ∑ i, V i k • K i with hF
  have hFF : ∀ k l, (F k)ᴴ * F l = (if k = l then ((p k : ℝ) : ℂ) else 0) • 1 := by
    intro k l
    have h1 : (F k)ᴴ * F l = (Vᴴ * of w * V) k l • 1 := by
      simp only [hF, conjTranspose_sum, conjTranspose_smul, Matrix.sum_mul, Matrix.mul_sum, Matrix.smul_mul, Matrix.mul_smul, hw,
        smul_smul]
      rw [Matrix.mul_apply, Finset.sum_smul]
      refine Finset.sum_congr rfl fun j _ => ?_
      rw [Matrix.mul_apply, Finset.sum_mul, Finset.sum_smul]
      rw [Finset.smul_sum]
      refine Finset.sum_congr rfl fun i _ => ?_
      rw [smul_smul, conjTranspose_apply, of_apply]
      congr 1
      ring
    rw [h1, hdiag, diagonal_apply]
  have hKF : ∀ i, K i = ∑ k, star (V i k) • F k := by
    intro i
    simp only [hF, Finset.smul_sum, smul_smul]
    rw [Finset.sum_comm]
    have : ∀ j, ∑ k, (star (V i k) * V j k) • K j = (if j = i then (1 : ℂ) else 0) • K j := by
      intro j
      rw [← Finset.sum_smul]
      congr 1
      have h1 := congrFun (congrFun hV.right j) i
      rw [Matrix.mul_apply, one_apply] at h1
      rw [← h1]
      exact Finset.sum_congr rfl fun k _ => by rw [conjTranspose_apply]; ring
    simp only [this]
    simp
  have hF0 : ∀ k, p k = 0 → F k = 0 := by
    intro k hk
    have h1 := hFF k k
    rw [if_pos rfl, hk, Complex.ofReal_zero, zero_smul] at h1
    exact conjTranspose_mul_self_eq_zero.mp h1
  have hp1 : ∑ k, ((p k : ℝ) : ℂ) = 1 := by
    have h1 : trace (of w : Matrix ι ι ℂ) = 1 := by
      have h2 := congrFun (congrFun (show ∑ i, (K i)ᴴ * K i = 1 from hK) x0) x0
      rw [Matrix.sum_apply, one_apply_eq] at h2
      rw [← h2]
      refine Finset.sum_congr rfl fun i _ => ?_
      rw [hw, Matrix.smul_apply, one_apply_eq, smul_eq_mul, mul_one]
      rfl
    rw [← h1, hV.eq, Matrix.mul_assoc, trace_mul_comm, Matrix.mul_assoc, hV.left, Matrix.mul_one, trace_diagonal]
  set P : Matrix r r ℂ := ∑ k, ((p k : ℂ))⁻¹ • (F k * (F k)ᴴ) with hP
  have hPF : ∀ k, P * F k = F k := by
    intro k
    rw [hP, Matrix.sum_mul, Finset.sum_eq_single k]
    · rw [Matrix.smul_mul, Matrix.mul_assoc, hFF, if_pos rfl, Matrix.mul_smul, Matrix.mul_one, smul_smul]
      by_cases hk : p k = 0
      · rw [hF0 k hk, smul_zero]
      · rw [inv_mul_cancel₀ (by exact_mod_cast hk), one_smul]
    · intro l _ hl
      rw [Matrix.smul_mul, Matrix.mul_assoc, hFF, if_neg hl, zero_smul, Matrix.mul_zero, smul_zero]
    · simp
  have hPH : Pᴴ = P := by
    rw [hP, conjTranspose_sum]
    refine Finset.sum_congr rfl fun k _ => ?_
    rw [conjTranspose_smul, conjTranspose_mul, conjTranspose_conjTranspose]
    congr 1
    simp
  have hPP : P * P = P := by
    conv_lhs => rw [hP]
    rw [Matrix.sum_mul, hP]
    refine Finset.sum_congr rfl fun k _ => ?_
    rw [Matrix.smul_mul, Matrix.mul_assoc]
    congr 2
    rw [← hP, ← hPH, ← conjTranspose_mul, hPF]
  refine ⟨Sum.elim (fun k => (((√(p k))⁻¹ : ℝ) : ℂ) • (F k)ᴴ) fun u => single x0 u (1 : ℂ) * (1 - P), ?_, ?_⟩
  · unfold Spec.TracePreserving
    rw [Fintype.sum_sum_type]
    simp only [Sum.elim_inl, Sum.elim_inr]
    have h1 : ∑ k, ((((√(p k))⁻¹ : ℝ) : ℂ) • (F k)ᴴ)ᴴ * ((((√(p k))⁻¹ : ℝ) : ℂ) • (F k)ᴴ) = P := by
      rw [hP]
      refine Finset.sum_congr rfl fun k _ => ?_
      rw [conjTranspose_smul, conjTranspose_conjTranspose, Matrix.smul_mul, Matrix.mul_smul, smul_smul]
      congr 1
      rw [show star (((√(p k))⁻¹ : ℝ) : ℂ) = (((√(p k))⁻¹ : ℝ) : ℂ) from Complex.conj_ofReal _, ← Complex.ofReal_mul,
        ← mul_inv, Real.mul_self_sqrt (hV.nonneg k), Complex.ofReal_inv]
    have h2 : ∑ u : r, (single x0 u (1 : ℂ) * (1 - P))ᴴ * (single x0 u (1 : ℂ) * (1 - P)) = 1 - P := by
      have h3 : ∑ u : r, single u u (1 : ℂ) = 1 := by
        ext a b
        simp only [Matrix.sum_apply, single_apply, one_apply]
        by_cases hab : a = b
        · subst hab; simp
        · rw [if_neg hab]
          refine Finset.sum_eq_zero fun u _ => if_neg ?_
          rintro ⟨rfl, rfl⟩
          exact hab rfl
      calc _ = ∑ u : r, (1 - P) * single u u (1 : ℂ) * (1 - P) := by
            refine Finset.sum_congr rfl fun u _ => ?_
            rw [conjTranspose_mul, conjTranspose_sub, conjTranspose_one, hPH, conjTranspose_single, star_one]
            rw [Matrix.mul_assoc, ← Matrix.mul_assoc (single u x0 1), single_mul_single_same, mul_one, Matrix.mul_assoc]
        _ = (1 - P) * (1 - P) := by rw [← Matrix.sum_mul, ← Matrix.mul_sum, h3, Matrix.mul_one]
        _ = 1 - P := by rw [Matrix.mul_sub, Matrix.mul_one, Matrix.sub_mul, Matrix.one_mul, hPP, sub_self, sub_zero]
    rw [h1, h2, add_sub_cancel]
  · have hRK : ∀ k i, ((((√(p k))⁻¹ : ℝ) : ℂ) • (F k)ᴴ) * K i = (((√(p k) : ℝ) : ℂ) * star (V i k)) • 1 := by
      intro k i
      rw [hKF i, Matrix.smul_mul, Matrix.mul_sum, Finset.sum_eq_single k]
      · rw [Matrix.mul_smul, hFF, if_pos rfl, smul_smul, smul_smul]
        congr 1
        rw [mul_right_comm, ← Complex.ofReal_mul]
        congr 2
        nth_rewrite 2 [← Real.mul_self_sqrt (hV.nonneg k)]
        by_cases hk : √(p k) = 0
        · simp [hk]
        · field_simp
      · intro l _ hl
        rw [Matrix.mul_smul, hFF, if_neg (Ne.symm hl), zero_smul, smul_zero]
      · simp
    have hQK : ∀ (u : r) i, (single x0 u (1 : ℂ) * (1 - P)) * K i = 0 := by
      intro u i
      rw [Matrix.mul_assoc, hKF i, Matrix.mul_sum, Finset.sum_eq_zero, Matrix.mul_zero]
      intro l _
      rw [Matrix.mul_smul, Matrix.sub_mul, Matrix.one_mul, hPF, sub_self, smul_zero]
    intro X
    unfold Spec.applyKraus
    rw [Fintype.sum_sum_type]
    simp only [Sum.elim_inl, Sum.elim_inr]
    have hform : ∀ B : Matrix c r ℂ, B * (∑ i, K i * X * (K i)ᴴ) * Bᴴ = ∑ i, (B * K i) * X * (B * K i)ᴴ := by
      intro B
      rw [Matrix.mul_sum, Matrix.sum_mul]
      refine Finset.sum_congr rfl fun i _ => ?_
      simp only [conjTranspose_mul, Matrix.mul_assoc]
    have h2 : ∀ u : r, single x0 u (1 : ℂ) * (1 - P) * (∑ l, K l * X * (K l)ᴴ) * (single x0 u (1 : ℂ) * (1 - P))ᴴ = 0 := by
      intro u
      rw [hform]
      simp only [hQK, Matrix.zero_mul, Finset.sum_const_zero]
    have h1 : ∀ k, (((√(p k))⁻¹ : ℝ) : ℂ) • (F k)ᴴ * (∑ l, K l * X * (K l)ᴴ) * ((((√(p k))⁻¹ : ℝ) : ℂ) • (F k)ᴴ)ᴴ =
        ((p k : ℝ) : ℂ) • X := by
      intro k
      rw [hform]
      simp only [hRK, conjTranspose_smul, conjTranspose_one, Matrix.smul_mul, Matrix.mul_smul, Matrix.one_mul, Matrix.mul_one,
        smul_smul]
      rw [← Finset.sum_smul]
      congr 1
      have h3 := congrFun (congrFun hV.left k) k
      rw [Matrix.mul_apply, one_apply_eq] at h3
      calc _ = ∑ i, ((p k : ℝ) : ℂ) * (Vᴴ k i * V i k) := by
            refine Finset.sum_congr rfl fun i _ => ?_
            rw [star_mul, star_star, show star ((√(p k) : ℝ) : ℂ) = ((√(p k) : ℝ) : ℂ) from Complex.conj_ofReal _,
              conjTranspose_apply]
            nth_rewrite 3 [← Real.mul_self_sqrt (hV.nonneg k)]
            push_cast
            ring
        _ = _ := by rw [← Finset.mul_sum, h3, mul_one]
    simp only [h1, h2, Finset.sum_const_zero, add_zero]
    rw [← Finset.sum_smul, hp1, one_smul]

/-- A matrix with the same expectation in all states is a multiple of the identity. -/
theorem const_expectation {A : Matrix c c ℂ} {a : ℂ} (h : ∀ ρ : Matrix c c ℂ, ρ.PosSemidef → ρ.trace = 1 → trace (A * ρ) = a) :
    A = a • 1 := by
  have hv : ∀ v : c → ℂ, star v ⬝ᵥ (A - a • 1) *ᵥ v = 0 := by
    intro v
    by_cases h0 : v = 0
    · simp [h0]
    · have hne : star v ⬝ᵥ v ≠ 0 := fun h1 => h0 (dotProduct_star_self_eq_zero.mp h1)
      have hpsd : (vecMulVec v (star v)).PosSemidef := posSemidef_vecMulVec_self_star v
      have htr : trace (vecMulVec v (star v)) = star v ⬝ᵥ v := by rw [trace_vecMulVec, dotProduct_comm]
      have hre : ∃ t : ℝ, 0 ≤ t ∧ star v ⬝ᵥ v = (t : ℂ) := by
        refine ⟨(star v ⬝ᵥ v).re, ?_, ?_⟩
        · exact (Complex.le_def.mp (dotProduct_star_self_nonneg v)).1
        · have := (Complex.le_def.mp (dotProduct_star_self_nonneg v)).2
          apply Complex.ext
          · rfl
          · exact this.symm
      obtain ⟨t, ht, hte⟩ := hre
      have h1 := h (((t⁻¹ : ℝ) : ℂ) • vecMulVec v (star v)) (hpsd.smul (by exact_mod_cast inv_nonneg.mpr ht)) (by
        rw [trace_smul, htr, hte, smul_eq_mul, ← Complex.ofReal_mul, inv_mul_cancel₀, Complex.ofReal_one]
        rintro rfl
        exact hne (by rw [hte, Complex.ofReal_zero]))
      have h2 : trace (A * vecMulVec v (star v)) = star v ⬝ᵥ A *ᵥ v := by
        rw [mul_vecMulVec, trace_vecMulVec, dotProduct_comm]
      rw [Matrix.mul_smul, trace_smul, h2, smul_eq_mul] at h1
      have ht0 : (t : ℂ) ≠ 0 := by rw [← hte]; exact hne
      rw [Matrix.sub_mulVec, dotProduct_sub, smul_mulVec, one_mulVec, dotProduct_smul, hte, smul_eq_mul, ← h1]
      push_cast
      field_simp
      ring
  have hB : ∀ x y, (A - a • 1 : Matrix c c ℂ) x y = 0 := by
    have hq : ∀ (x y : c) (s : ℂ), (A - a • 1 : Matrix c c ℂ) x x + s * (A - a • 1 : Matrix c c ℂ) x y +
        star s * (A - a • 1 : Matrix c c ℂ) y x + star s * s * (A - a • 1 : Matrix c c ℂ) y y = 0 := by
      intro x y s
      have h1 := hv (Pi.single x 1 + s • Pi.single y 1)
      rw [star_add, star_smul, mulVec_add, mulVec_smul, add_dotProduct, dotProduct_add, dotProduct_add, smul_dotProduct,
        smul_dotProduct, dotProduct_smul, dotProduct_smul] at h1
      simp only [Pi.star_single, star_one, single_dotProduct, mulVec_single_one, col_apply, smul_eq_mul, one_mul] at h1
      rw [← h1]
      ring
    intro x y
    have d : ∀ z, (A - a • 1 : Matrix c c ℂ) z z = 0 := by
      intro z
      have := hq z z 0
      simpa using this
    have h1 := hq x y 1
    have h2 := hq x y Complex.I
    rw [d, d] at h1 h2
    simp only [star_one, one_mul, mul_zero, add_zero, zero_add] at h1 h2
    rw [show star Complex.I = -Complex.I from Complex.conj_I] at h2
    have h3 : Complex.I * ((A - a • 1 : Matrix c c ℂ) x y - (A - a • 1 : Matrix c c ℂ) y x) = 0 := by
      rw [← h2]; ring
    have h4 := (mul_eq_zero.mp h3).resolve_left Complex.I_ne_zero
    linear_combination (h1 + h4) / 2
  ext x y
  have := hB x y
  rw [Matrix.sub_apply] at this
  exact sub_eq_zero.mp this

omit [DecidableEq ι] [Fintype ι] [DecidableEq r] in
/-- The environment is left in one state exactly when the products are multiples of the identity. -/
theorem const_exchange [Nonempty c] {K : ι → Matrix r c ℂ} :
    (∃ W : Matrix ι ι ℂ, ∀ ρ : Matrix c c ℂ, ρ.PosSemidef → ρ.trace = 1 → Spec.entropyExchange K ρ = W) ↔
      ∀ i j, ∃ w : ℂ, (K i)ᴴ * K j = w • 1 := by
  have hW : ∀ ρ i j, Spec.entropyExchange K ρ i j = trace ((K j)ᴴ * K i * ρ) := by
    intro ρ i j
    show trace (K i * ρ * (K j)ᴴ) = _
    rw [trace_mul_comm, ← Matrix.mul_assoc]
  constructor
  · rintro ⟨W, h⟩ i j
    refine ⟨W j i, const_expectation fun ρ h1 h2 => ?_⟩
    rw [← hW, h ρ h1 h2]
  · intro h
    choose w hw using h
    refine ⟨fun i j => w j i, fun ρ _ h2 => ?_⟩
    funext i j
    rw [hW, hw, Matrix.smul_mul, Matrix.one_mul, trace_smul, h2, smul_eq_mul, mul_one]

end PyQ
