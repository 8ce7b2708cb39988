import Verif.Props.NearTP
import Verif.Props.Additive
import Verif.Props.Continuity
import Verif.Lemmas.Recovery

/-! # A channel within the tolerance of the constructor is an exact channel after a nearly trivial filter -/

namespace PyQ

open Matrix Spec
open scoped ComplexOrder

/-- Operators within the tolerance are operators of an exact channel times one matrix with eigenvalues near one. -/
theorem near_factor {l r c : ℕ} {K : Fin l → Matrix (Fin r) (Fin c) ℂ} (h : NearlyTP K) (hc : c < 10 ^ 5) :
    ∃ (K' : Fin l → Matrix (Fin r) (Fin c) ℂ) (V : Matrix (Fin c) (Fin c) ℂ) (w : Fin c → ℝ), TracePreserving K' ∧
      Vᴴ * V = 1 ∧ V * Vᴴ = 1 ∧ (∀ k, K k = K' k * (V * diagonal (fun i => (w i : ℂ)) * Vᴴ)) ∧
      ∀ i, |w i - 1| ≤ (c : ℝ) / 10 ^ 5 := by
  have hS : (∑ k, (K k)ᴴ * K k).PosSemidef := posSemidef_sum _ fun k _ => posSemidef_conjTranspose_mul_self (K k)
  obtain ⟨V, p, hV, -⟩ := exists_eigen hS
  have hp : ∀ i, |p i - 1| ≤ (c : ℝ) / 10 ^ 5 := by
    intro i
    have hherm : (∑ k, (K k)ᴴ * K k - 1).IsHermitian := hS.isHermitian.sub isHermitian_one
    have hrow : ∀ x, ∑ y, ‖(∑ k, (K k)ᴴ * K k - 1) x y‖ ≤ (c : ℝ) / 10 ^ 5 := by
      intro x
      refine (Finset.sum_le_sum fun y _ => (h x y).le).trans ?_
      simp [div_eq_mul_inv]
    have hpr : (V * Matrix.single i i (1 : ℂ) * Vᴴ).PosSemidef := by
      refine PosSemidef.mul_mul_conjTranspose_same ?_ V
      rw [← diagonal_single]
      refine PosSemidef.diagonal fun j => ?_
      by_cases hj : j = i
      · subst hj; simp
      · simp [hj]
    have htr : trace (V * Matrix.single i i (1 : ℂ) * Vᴴ) = 1 := by
      rw [Matrix.trace_mul_comm, ← Matrix.mul_assoc, hV.left, Matrix.one_mul, trace_single_eq_same]
    have hb := trace_mul_le hherm hrow hpr
    rw [Matrix.sub_mul, Matrix.one_mul, trace_sub, eigen_diag hV, htr, Complex.one_re, mul_one, ← Complex.ofReal_one,
      ← Complex.ofReal_sub, Complex.norm_real, Real.norm_eq_abs] at hb
    exact hb
  have hc' : (c : ℝ) / 10 ^ 5 < 1 := by
    rw [div_lt_one (by norm_num)]
    exact_mod_cast hc
  have hpos : ∀ i, 0 < p i := by
    intro i
    have := (abs_le.1 (hp i)).1
    linarith
  have hsq : ∀ i, 0 < √(p i) := fun i => Real.sqrt_pos.2 (hpos i)
  have hmul : ∀ f g : Fin c → ℂ, V * diagonal f * Vᴴ * (V * diagonal g * Vᴴ) = V * diagonal (fun i => f i * g i) * Vᴴ := by
    intro f g
    rw [← diagonal_mul_diagonal]
    simp only [Matrix.mul_assoc]
    rw [← Matrix.mul_assoc Vᴴ V, hV.left, Matrix.one_mul]
  have hone : ∀ f : Fin c → ℂ, (∀ i, f i = 1) → V * diagonal f * Vᴴ = 1 := by
    intro f hf
    rw [show f = fun _ => 1 from funext hf, diagonal_one, Matrix.mul_one, hV.right]
  have hne : ∀ i, ((√(p i) : ℝ) : ℂ) ≠ 0 := fun i => by exact_mod_cast (hsq i).ne'
  have hpp : ∀ i, (p i : ℂ) = ((√(p i) : ℝ) : ℂ) * ((√(p i) : ℝ) : ℂ) := fun i => by
    rw [← Complex.ofReal_mul, Real.mul_self_sqrt (hpos i).le]
  refine ⟨fun k => K k * (V * diagonal (fun i => (((√(p i) : ℝ) : ℂ))⁻¹) * Vᴴ), V, fun i => √(p i), ?_, hV.left, hV.right, ?_, ?_⟩
  · have hH : (V * diagonal (fun i => (((√(p i) : ℝ) : ℂ))⁻¹) * Vᴴ)ᴴ = V * diagonal (fun i => (((√(p i) : ℝ) : ℂ))⁻¹) * Vᴴ := by
      rw [conjTranspose_mul, conjTranspose_mul, conjTranspose_conjTranspose, diagonal_conjTranspose, Matrix.mul_assoc]
      congr 3
      funext i
      simp
    unfold TracePreserving
    simp only [conjTranspose_mul (K _), hH]
    have e : ∀ k, V * diagonal (fun i => (((√(p i) : ℝ) : ℂ))⁻¹) * Vᴴ * (K k)ᴴ *
        (K k * (V * diagonal (fun i => (((√(p i) : ℝ) : ℂ))⁻¹) * Vᴴ)) =
        V * diagonal (fun i => (((√(p i) : ℝ) : ℂ))⁻¹) * Vᴴ * ((K k)ᴴ * K k) *
        (V * diagonal (fun i => (((√(p i) : ℝ) : ℂ))⁻¹) * Vᴴ) := fun k => by simp only [Matrix.mul_assoc]
    rw [Finset.sum_congr rfl fun k _ => e k, ← Finset.sum_mul, ← Finset.mul_sum, hV.eq, hmul, hmul]
    refine hone _ fun i => ?_
    have := hne i
    rw [hpp i]
    field_simp
  · intro k
    rw [Matrix.mul_assoc, hmul, hone _ fun i => inv_mul_cancel₀ (hne i), Matrix.mul_one]
  · intro i
    refine le_trans ?_ (hp i)
    have e : p i - 1 = (√(p i) - 1) * (√(p i) + 1) := by
      have := Real.mul_self_sqrt (hpos i).le
      linear_combination -this
    rw [e, abs_mul, abs_of_pos (by linarith [hsq i] : 0 < √(p i) + 1)]
    nlinarith [abs_nonneg (√(p i) - 1), hsq i]

theorem prod_near_one {n : ℕ} (u : Fin n → ℝ) {δ : ℝ} (hu : ∀ t, |u t - 1| ≤ δ) : |∏ t, u t - 1| ≤ (1 + δ) ^ n - 1 := by
  have h := prod_sub_prod_le Finset.univ (fun t => (u t : ℂ)) fun _ => 1
  have e1 : ∏ t, (u t : ℂ) - ∏ t : Fin n, (1 : ℂ) = ((∏ t, u t - 1 : ℝ) : ℂ) := by push_cast; simp
  rw [e1, Complex.norm_real, Real.norm_eq_abs] at h
  refine h.trans ?_
  have e2 : ∀ t, ‖(1 : ℂ)‖ + ‖(u t : ℂ) - 1‖ = 1 + |u t - 1| := fun t => by
    rw [norm_one, ← Complex.ofReal_one, ← Complex.ofReal_sub, Complex.norm_real, Real.norm_eq_abs]
  rw [Finset.prod_congr rfl fun t _ => e2 t]
  simp only [norm_one, Finset.prod_const_one]
  have : ∏ t : Fin n, (1 + |u t - 1|) ≤ ∏ _t : Fin n, (1 + δ) :=
    Finset.prod_le_prod (fun t _ => by positivity) fun t _ => by linarith [hu t]
  rw [Finset.prod_const, Finset.card_univ, Fintype.card_fin] at this
  linarith

/-- The same for `n` uses. -/
theorem near_factor_pow {l r c : ℕ} {K K' : Fin l → Matrix (Fin r) (Fin c) ℂ} {V : Matrix (Fin c) (Fin c) ℂ} {w : Fin c → ℝ}
    {δ : ℝ} (h1 : Vᴴ * V = 1) (h2 : V * Vᴴ = 1) (hK : ∀ k, K k = K' k * (V * diagonal (fun i => (w i : ℂ)) * Vᴴ))
    (hw : ∀ i, |w i - 1| ≤ δ) (n : ℕ) :
    ∃ (U : Matrix (Fin (c ^ n)) (Fin (c ^ n)) ℂ) (u : Fin (c ^ n) → ℝ), Uᴴ * U = 1 ∧ U * Uᴴ = 1 ∧
      (∀ k, tensorPow K n k = tensorPow K' n k * (U * diagonal (fun i => (u i : ℂ)) * Uᴴ)) ∧
      ∀ i, |u i - 1| ≤ (1 + δ) ^ n - 1 := by
  refine ⟨tensorProd fun _ => V, fun x => ∏ t, w (digit x t), ?_, ?_, ?_, fun i => prod_near_one _ fun t => hw _⟩
  · rw [tensorProd_conjTranspose, tensorProd_mul]
    simp only [h1]
    exact tensorProd_one
  · rw [tensorProd_conjTranspose, tensorProd_mul]
    simp only [h2]
    exact tensorProd_one
  · intro k
    have e : (diagonal fun x : Fin (c ^ n) => ((∏ t, w (digit x t) : ℝ) : ℂ)) =
        tensorProd fun _ : Fin n => diagonal fun i => (w i : ℂ) := by
      rw [tensorProd_diagonal]
      congr 1
      funext x
      push_cast
      rfl
    rw [e, tensorProd_conjTranspose, tensorProd_mul, tensorProd_mul]
    unfold tensorPow
    rw [tensorProd_mul]
    congr 1
    funext t
    exact hK _

/-- What the filter does to a state, compared with the state from both sides. -/
theorem filter_split {N : ℕ} {U : Matrix (Fin N) (Fin N) ℂ} {u : Fin N → ℝ} (h1 : Uᴴ * U = 1) (h2 : U * Uᴴ = 1) {ε : ℝ}
    (h0 : 0 < ε) (hu : ∀ i, |u i - 1| ≤ ε) {ρ : Matrix (Fin N) (Fin N) ℂ} (hρ : IsDensity ρ) :
    ∃ P Z Q R : Matrix (Fin N) (Fin N) ℂ, P.PosSemidef ∧ Z.PosSemidef ∧ Q.PosSemidef ∧ R.PosSemidef ∧
      U * diagonal (fun i => (u i : ℂ)) * Uᴴ * ρ * (U * diagonal (fun i => (u i : ℂ)) * Uᴴ)ᴴ + Z = ρ + P ∧
      U * diagonal (fun i => (u i : ℂ)) * Uᴴ * ρ * (U * diagonal (fun i => (u i : ℂ)) * Uᴴ)ᴴ + Q = ρ + R ∧
      (trace P).re ≤ 2 * ε + ε ^ 2 ∧ (trace Q).re ≤ 2 * ε := by
  obtain ⟨Y, hY⟩ : ∃ Y, Y = U * diagonal (fun i => ((u i - 1 : ℝ) : ℂ)) * Uᴴ := ⟨_, rfl⟩
  have hH : U * diagonal (fun i => (u i : ℂ)) * Uᴴ = 1 + Y := by
    have e : U * (1 : Matrix (Fin N) (Fin N) ℂ) * Uᴴ = 1 := by rw [Matrix.mul_one, h2]
    rw [hY, ← e, ← diagonal_one, ← Matrix.add_mul, ← Matrix.mul_add, diagonal_add]
    congr 3
    funext i
    push_cast
    ring
  have hYH : Yᴴ = Y := by
    rw [hY, conjTranspose_mul, conjTranspose_mul, conjTranspose_conjTranspose, diagonal_conjTranspose, Matrix.mul_assoc]
    congr 3
    funext i
    simp
  have hYY : Y * Y = U * diagonal (fun i => (((u i - 1) ^ 2 : ℝ) : ℂ)) * Uᴴ := by
    rw [hY]
    simp only [Matrix.mul_assoc]
    rw [← Matrix.mul_assoc Uᴴ U, h1, Matrix.one_mul, ← Matrix.mul_assoc (diagonal _) (diagonal _), diagonal_mul_diagonal]
    congr 3
    funext i
    push_cast
    ring
  have htr : (trace (Y * ρ * Y)).re ≤ ε ^ 2 := by
    obtain ⟨B, hB⟩ : ∃ B, B = Uᴴ * ρ * U := ⟨_, rfl⟩
    have hBp : B.PosSemidef := by
      have := hρ.1.mul_mul_conjTranspose_same Uᴴ
      rw [conjTranspose_conjTranspose] at this
      rw [hB]; exact this
    have hBt : trace B = 1 := by
      rw [hB, Matrix.trace_mul_comm, ← Matrix.mul_assoc, h2, Matrix.one_mul, hρ.2]
    have e : trace (Y * ρ * Y) = ∑ i, (((u i - 1) ^ 2 : ℝ) : ℂ) * B i i := by
      rw [Matrix.trace_mul_comm, ← Matrix.mul_assoc, hYY, Matrix.mul_assoc, Matrix.mul_assoc, Matrix.trace_mul_comm, Matrix.mul_assoc,
        ← hB, trace]
      refine Finset.sum_congr rfl fun i _ => ?_
      rw [diag_apply, diagonal_mul]
    have hd : ∀ i, 0 ≤ (B i i).re := fun i => (Complex.le_def.1 (hBp.diag_nonneg (i := i))).1
    rw [e, Complex.re_sum]
    calc ∑ i, ((((u i - 1) ^ 2 : ℝ) : ℂ) * B i i).re = ∑ i, (u i - 1) ^ 2 * (B i i).re :=
          Finset.sum_congr rfl fun i _ => Complex.re_ofReal_mul _ _
      _ ≤ ∑ i, ε ^ 2 * (B i i).re := Finset.sum_le_sum fun i _ => by
          refine mul_le_mul_of_nonneg_right ?_ (hd i)
          rw [← sq_abs]
          exact pow_le_pow_left₀ (abs_nonneg _) (hu i) 2
      _ = ε ^ 2 * (trace B).re := by rw [← Finset.mul_sum, trace, Complex.re_sum]; rfl
      _ = ε ^ 2 := by rw [hBt]; simp
  have hYp : (Y * ρ * Y).PosSemidef := by
    have := hρ.1.mul_mul_conjTranspose_same Y
    rwa [hYH] at this
  have hε : (0 : ℂ) ≤ (ε : ℂ) := by exact_mod_cast h0.le
  have hεi : (0 : ℂ) ≤ ((ε⁻¹ : ℝ) : ℂ) := by exact_mod_cast (inv_pos.2 h0).le
  have hεi' : (0 : ℂ) ≤ ((1 + ε⁻¹ : ℝ) : ℂ) := by
    have := inv_pos.2 h0
    exact_mod_cast (by linarith : (0 : ℝ) ≤ 1 + ε⁻¹)
  have hsq : ∀ s : ℂ, star s = s → ((((ε : ℂ) • (1 : Matrix (Fin N) (Fin N) ℂ)) + s • Y) * ρ * (((ε : ℂ) • 1) + s • Y)).PosSemidef := by
    intro s hs
    have := hρ.1.mul_mul_conjTranspose_same (((ε : ℂ) • (1 : Matrix (Fin N) (Fin N) ℂ)) + s • Y)
    rw [conjTranspose_add, conjTranspose_smul, conjTranspose_smul, conjTranspose_one, hYH, hs,
      show star (ε : ℂ) = (ε : ℂ) from Complex.conj_ofReal ε] at this
    exact this
  have hεc : ((ε⁻¹ : ℝ) : ℂ) * (ε : ℂ) = 1 := by
    rw [← Complex.ofReal_mul, inv_mul_cancel₀ h0.ne', Complex.ofReal_one]
  have hexp : ∀ s : ℂ, s * s = 1 → ((ε⁻¹ : ℝ) : ℂ) • ((((ε : ℂ) • (1 : Matrix (Fin N) (Fin N) ℂ)) + s • Y) * ρ * (((ε : ℂ) • 1) + s • Y)) =
      (ε : ℂ) • ρ + s • (Y * ρ + ρ * Y) + ((ε⁻¹ : ℝ) : ℂ) • (Y * ρ * Y) := by
    intro s hs
    have e : (((ε : ℂ) • (1 : Matrix (Fin N) (Fin N) ℂ)) + s • Y) * ρ * (((ε : ℂ) • 1) + s • Y) =
        ((ε : ℂ) * (ε : ℂ)) • ρ + ((ε : ℂ) * s) • (Y * ρ + ρ * Y) + (s * s) • (Y * ρ * Y) := by
      simp only [Matrix.add_mul, Matrix.mul_add, Matrix.smul_mul, Matrix.mul_smul, Matrix.one_mul, Matrix.mul_one, smul_smul, smul_add]
      rw [mul_comm s (ε : ℂ)]
      abel
    rw [e, hs, one_smul, smul_add, smul_add, smul_smul, smul_smul, ← mul_assoc, ← mul_assoc, hεc, one_mul, one_mul]
  have hσ : (1 + Y) * ρ * (1 + Y)ᴴ = ρ + (Y * ρ + ρ * Y) + Y * ρ * Y := by
    rw [conjTranspose_add, conjTranspose_one, hYH]
    simp only [Matrix.add_mul, Matrix.mul_add, Matrix.one_mul, Matrix.mul_one]
    abel
  have htrs : ∀ (a b : ℝ), (trace ((a : ℂ) • ρ + (b : ℂ) • (Y * ρ * Y))).re = a + b * (trace (Y * ρ * Y)).re := by
    intro a b
    rw [trace_add, trace_smul, trace_smul, hρ.2, smul_eq_mul, smul_eq_mul, mul_one, Complex.add_re, Complex.ofReal_re,
      Complex.re_ofReal_mul]
  refine ⟨(ε : ℂ) • ρ + ((1 + ε⁻¹ : ℝ) : ℂ) • (Y * ρ * Y), ((ε⁻¹ : ℝ) : ℂ) • ((((ε : ℂ) • (1 : Matrix (Fin N) (Fin N) ℂ)) + (-1 : ℂ) • Y) * ρ * (((ε : ℂ) • 1) + (-1 : ℂ) • Y)),
    (ε : ℂ) • ρ + ((ε⁻¹ : ℝ) : ℂ) • (Y * ρ * Y),
    Y * ρ * Y + ((ε⁻¹ : ℝ) : ℂ) • ((((ε : ℂ) • (1 : Matrix (Fin N) (Fin N) ℂ)) + (1 : ℂ) • Y) * ρ * (((ε : ℂ) • 1) + (1 : ℂ) • Y)),
    (hρ.1.smul hε).add (hYp.smul hεi'), (hsq (-1) (by simp)).smul hεi, (hρ.1.smul hε).add (hYp.smul hεi),
    hYp.add ((hsq 1 (by simp)).smul hεi), ?_, ?_, ?_, ?_⟩
  · rw [hH, hσ, hexp (-1) (by norm_num), Complex.ofReal_add, add_smul, Complex.ofReal_one, one_smul, neg_smul, one_smul]
    abel
  · rw [hH, hσ, hexp 1 (by norm_num), one_smul]
    abel
  · rw [htrs]
    have : (1 + ε⁻¹) * (trace (Y * ρ * Y)).re ≤ (1 + ε⁻¹) * ε ^ 2 :=
      mul_le_mul_of_nonneg_left htr (by have := inv_pos.2 h0; linarith)
    have e : (1 + ε⁻¹) * ε ^ 2 = ε ^ 2 + ε := by field_simp
    linarith
  · rw [htrs]
    have : ε⁻¹ * (trace (Y * ρ * Y)).re ≤ ε⁻¹ * ε ^ 2 := mul_le_mul_of_nonneg_left htr (inv_pos.2 h0).le
    have e : ε⁻¹ * ε ^ 2 = ε := by field_simp
    linarith

/-- A probability is at most the trace. -/
theorem effect_le {N : ℕ} {E A : Matrix (Fin N) (Fin N) ℂ} (hE : E.PosSemidef) (hE1 : (1 - E).PosSemidef) (hA : A.PosSemidef) :
    0 ≤ (trace (E * A)).re ∧ (trace (E * A)).re ≤ (trace A).re := by
  have key : ∀ {B : Matrix (Fin N) (Fin N) ℂ}, B.PosSemidef → 0 ≤ (trace (B * A)).re := by
    intro B hB
    obtain ⟨V, q, hq, -⟩ := exists_eigen hB
    obtain ⟨C, -, hC', hC⟩ := eigen_sqrt hq
    have := hA.mul_mul_conjTranspose_same C
    rw [hC'] at this
    rw [← hC, Matrix.mul_assoc, Matrix.trace_mul_comm]
    exact (Complex.le_def.1 this.trace_nonneg).1
  refine ⟨key hE, ?_⟩
  have := key hE1
  rw [Matrix.sub_mul, Matrix.one_mul, trace_sub, Complex.sub_re] at this
  linarith

/-- The entropy of a multiple of a state. -/
theorem specSum_smul_psd {N : ℕ} {A : Matrix (Fin N) (Fin N) ℂ} (hA : A.PosSemidef) {t : ℝ} (ht : 0 ≤ t) :
    specSum Real.negMulLog ((t : ℂ) • A) = t * specSum Real.negMulLog A + Real.negMulLog t * (trace A).re := by
  obtain ⟨V, p, hp, hc⟩ := exists_eigen hA
  have htA : ((t : ℂ) • A).PosSemidef := hA.smul (by exact_mod_cast ht)
  have hch : ((t : ℂ) • A).charpoly = ∏ i, (Polynomial.X - Polynomial.C ((t * p i : ℝ) : ℂ)) := by
    have e : (t : ℂ) • A = V * diagonal (fun i => ((t * p i : ℝ) : ℂ)) * Vᴴ := by
      rw [hp.eq, ← Matrix.smul_mul, ← Matrix.mul_smul]
      congr 2
      ext i j
      by_cases h : i = j
      · subst h; simp
      · simp [h]
    rw [e, Matrix.charpoly_mul_comm, ← Matrix.mul_assoc, hp.left, Matrix.one_mul, charpoly_diagonal]
  rw [specSum_eq htA hch Real.negMulLog_zero, specSum_eq hA hc Real.negMulLog_zero, eigen_trace hp, Complex.ofReal_re,
    Finset.mul_sum, Finset.mul_sum, ← Finset.sum_add_distrib]
  refine Finset.sum_congr rfl fun i _ => ?_
  rw [Real.negMulLog_mul]
  ring

/-- Rescaling the state rescales the coherent information: the logarithms of the weight cancel. -/
theorem krausInfo_smul {l p q : ℕ} (K : Fin l → Matrix (Fin p) (Fin q) ℂ) {ρ : Matrix (Fin q) (Fin q) ℂ} (hρ : ρ.PosSemidef) {t : ℝ}
    (ht : 0 ≤ t) : krausInfo K ((t : ℂ) • ρ) = t * krausInfo K ρ := by
  unfold krausInfo
  rw [applyKraus_smul, exchange_smul, specSum_smul_psd (applyKraus_posSemidef _ hρ) ht, specSum_smul_psd (exchange_posSemidef _ hρ) ht,
    exchange_trace]
  ring

theorem krausInfo_abs_le {l p q : ℕ} (K : Fin l → Matrix (Fin p) (Fin q) ℂ) (hK : TracePreserving K) {ρ : Matrix (Fin q) (Fin q) ℂ}
    (hρ : IsDensity ρ) : |krausInfo K ρ| ≤ max (Real.log p) (Real.log l) := by
  obtain ⟨d1, d2⟩ := kraus_densities K ρ hK hρ
  have a1 := entropy_nonneg d1
  have a2 := specSum_le_log d1
  have b1 := entropy_nonneg d2
  have b2 := specSum_le_log d2
  have := le_max_left (Real.log p) (Real.log l)
  have := le_max_right (Real.log p) (Real.log l)
  unfold krausInfo
  rw [abs_le]
  constructor <;> linarith

theorem mixNats_nonneg {T : ℝ} (hT : 0 ≤ T) : 0 ≤ mixNats T := by
  rw [← choice_nats hT]
  have h : 0 < 1 + T := by linarith
  have h1 : 1 / (1 + T) ≤ 1 := by rw [div_le_one h]; linarith
  have h0 : 0 ≤ 1 / (1 + T) := by positivity
  exact mul_nonneg h.le (add_nonneg (Real.negMulLog_nonneg h0 h1) (Real.negMulLog_nonneg (by linarith) (by linarith)))

/-- A filter within `ε` of the identity before an exact channel changes the coherent information little. -/
theorem krausInfo_filter {l p N : ℕ} (K : Fin l → Matrix (Fin p) (Fin N) ℂ) (hK : TracePreserving K)
    {U : Matrix (Fin N) (Fin N) ℂ} {u : Fin N → ℝ} (h1 : Uᴴ * U = 1) (h2 : U * Uᴴ = 1) {ε : ℝ}
    (h0 : 0 < ε) (hu : ∀ i, |u i - 1| ≤ ε) {ρ σ : Matrix (Fin N) (Fin N) ℂ} (hρ : IsDensity ρ)
    (hσ : σ = U * diagonal (fun i => (u i : ℂ)) * Uᴴ * ρ * (U * diagonal (fun i => (u i : ℂ)) * Uᴴ)ᴴ)
    (ht : ‖trace σ - 1‖ ≤ ε) :
    |krausInfo K σ - krausInfo K ρ| ≤ (3 * ε + ε ^ 2) * (Real.log p + Real.log l) + 2 * mixNats (3 * ε + ε ^ 2) +
      ε * max (Real.log p) (Real.log l) := by
  obtain ⟨P, Z, -, -, hP, hZ, -, -, hs, -, tP, -⟩ := filter_split h1 h2 h0 hu hρ
  rw [← hσ] at hs
  have hσp : σ.PosSemidef := by rw [hσ]; exact hρ.1.mul_mul_conjTranspose_same _
  obtain ⟨t, htd⟩ : ∃ t, t = (trace σ).re := ⟨_, rfl⟩
  have htσ : trace σ = (t : ℂ) := by
    have := (Complex.le_def.1 hσp.trace_nonneg).2
    rw [htd]
    exact Complex.ext rfl (by simpa using this.symm)
  rw [htσ, ← Complex.ofReal_one, ← Complex.ofReal_sub, Complex.norm_real, Real.norm_eq_abs] at ht
  have hl : 0 ≤ Real.log p := Real.log_natCast_nonneg p
  have hl' : 0 ≤ Real.log l := Real.log_natCast_nonneg l
  have hmix : 0 ≤ mixNats (3 * ε + ε ^ 2) := mixNats_nonneg (by positivity)
  rcases (show 0 ≤ t from htd ▸ (Complex.le_def.1 hσp.trace_nonneg).1).eq_or_lt with hz | ht0
  · have hσ0 : σ = ((0 : ℝ) : ℂ) • ρ := by
      rw [Complex.ofReal_zero, zero_smul]
      exact hσp.trace_eq_zero_iff.1 (by rw [htσ, ← hz, Complex.ofReal_zero])
    have hε1 : 1 ≤ ε := by rw [← hz] at ht; simpa using ht
    rw [hσ0, krausInfo_smul K hρ.1 le_rfl, zero_mul, zero_sub, abs_neg]
    have k1 := krausInfo_abs_le K hK hρ
    have k2 : 0 ≤ max (Real.log p) (Real.log l) := le_max_of_le_left hl
    have k3 : 0 ≤ (3 * ε + ε ^ 2) * (Real.log p + Real.log l) := by positivity
    nlinarith
  obtain ⟨τ, hτd⟩ : ∃ τ, τ = ((t⁻¹ : ℝ) : ℂ) • σ := ⟨_, rfl⟩
  have hτ : IsDensity τ := by
    refine ⟨hτd ▸ hσp.smul (by exact_mod_cast (inv_pos.2 ht0).le), ?_⟩
    rw [hτd, trace_smul, htσ, smul_eq_mul, ← Complex.ofReal_mul, inv_mul_cancel₀ ht0.ne', Complex.ofReal_one]
  have hστ : σ = (t : ℂ) • τ := by
    rw [hτd, smul_smul, ← Complex.ofReal_mul, mul_inv_cancel₀ ht0.ne', Complex.ofReal_one, one_smul]
  obtain ⟨T, hT⟩ : ∃ T, T = 3 * ε + ε ^ 2 := ⟨_, rfl⟩
  have hTpos : 0 < T := by rw [hT]; positivity
  have hre : ∀ {A : Matrix (Fin N) (Fin N) ℂ}, A.PosSemidef → trace A = (((trace A).re : ℝ) : ℂ) := fun hA =>
    Complex.ext rfl (by simpa using (Complex.le_def.1 hA.trace_nonneg).2.symm)
  have hZt : (trace Z).re = 1 + (trace P).re - t := by
    have := congrArg (fun A => (trace A).re) hs
    simp only [trace_add, Complex.add_re, htσ, hρ.2, Complex.ofReal_re, Complex.one_re] at this
    linarith
  have hab := abs_le.1 ht
  have m1 : 0 ≤ max (1 - t) 0 := le_max_right _ _
  have m2 : 0 ≤ max (t - 1) 0 := le_max_right _ _
  have m3 : max (1 - t) 0 ≤ ε := max_le (by linarith) h0.le
  have m4 : max (t - 1) 0 - max (1 - t) 0 = t - 1 := by
    rcases le_total t 1 with h | h
    · rw [max_eq_right (by linarith), max_eq_left (by linarith)]; ring
    · rw [max_eq_left (by linarith), max_eq_right (by linarith)]; ring
  obtain ⟨s, hsd⟩ : ∃ s, s = T - (trace P).re - max (1 - t) 0 := ⟨_, rfl⟩
  have hs0 : 0 ≤ s := by rw [hsd, hT]; linarith
  have hTi : (0 : ℂ) ≤ ((T⁻¹ : ℝ) : ℂ) := by exact_mod_cast (inv_pos.2 hTpos).le
  have dens : ∀ {A : Matrix (Fin N) (Fin N) ℂ} (x : ℝ), A.PosSemidef → 0 ≤ x → (trace A).re + x + s = T →
      IsDensity (((T⁻¹ : ℝ) : ℂ) • (A + (x : ℂ) • τ + (s : ℂ) • ρ)) := by
    intro A x hA hx hsum
    refine ⟨((hA.add (hτ.1.smul (by exact_mod_cast hx))).add (hρ.1.smul (by exact_mod_cast hs0))).smul hTi, ?_⟩
    rw [trace_smul, trace_add, trace_add, trace_smul, trace_smul, hρ.2, hτ.2, hre hA, smul_eq_mul, smul_eq_mul, smul_eq_mul,
      mul_one, mul_one, ← Complex.ofReal_add, ← Complex.ofReal_add, hsum, ← Complex.ofReal_mul, inv_mul_cancel₀ hTpos.ne',
      Complex.ofReal_one]
  have D1 := dens (max (1 - t) 0) hP m1 (by rw [hsd]; ring)
  have D2 := dens (max (t - 1) 0) hZ m2 (by rw [hsd, hZt]; linarith)
  have hsm : ∀ A : Matrix (Fin N) (Fin N) ℂ, (T : ℂ) • (((T⁻¹ : ℝ) : ℂ) • A) = A := fun A => by
    rw [smul_smul, ← Complex.ofReal_mul, mul_inv_cancel₀ hTpos.ne', Complex.ofReal_one, one_smul]
  have hbal : ρ + (T : ℂ) • (((T⁻¹ : ℝ) : ℂ) • (P + ((max (1 - t) 0 : ℝ) : ℂ) • τ + (s : ℂ) • ρ)) =
      τ + (T : ℂ) • (((T⁻¹ : ℝ) : ℂ) • (Z + ((max (t - 1) 0 : ℝ) : ℂ) • τ + (s : ℂ) • ρ)) := by
    rw [hsm, hsm]
    have e1 : τ + ((max (t - 1) 0 : ℝ) : ℂ) • τ = (t : ℂ) • τ + ((max (1 - t) 0 : ℝ) : ℂ) • τ := by
      have e2 : ((max (t - 1) 0 : ℝ) : ℂ) = (t : ℂ) - 1 + ((max (1 - t) 0 : ℝ) : ℂ) := by
        rw [← Complex.ofReal_one, ← Complex.ofReal_sub, ← Complex.ofReal_add]
        congr 1
        linarith
      rw [e2, add_smul, sub_smul, one_smul]
      abel
    calc ρ + (P + ((max (1 - t) 0 : ℝ) : ℂ) • τ + (s : ℂ) • ρ) = (ρ + P) + ((max (1 - t) 0 : ℝ) : ℂ) • τ + (s : ℂ) • ρ := by abel
      _ = (σ + Z) + ((max (1 - t) 0 : ℝ) : ℂ) • τ + (s : ℂ) • ρ := by rw [hs]
      _ = ((t : ℂ) • τ + ((max (1 - t) 0 : ℝ) : ℂ) • τ) + Z + (s : ℂ) • ρ := by rw [← hστ]; abel
      _ = (τ + ((max (t - 1) 0 : ℝ) : ℂ) • τ) + Z + (s : ℂ) • ρ := by rw [e1]
      _ = _ := by abel
  generalize hP' : ((T⁻¹ : ℝ) : ℂ) • (P + ((max (1 - t) 0 : ℝ) : ℂ) • τ + (s : ℂ) • ρ) = P' at D1 hbal
  generalize hZ' : ((T⁻¹ : ℝ) : ℂ) • (Z + ((max (t - 1) 0 : ℝ) : ℂ) • τ + (s : ℂ) • ρ) = Z' at D2 hbal
  have close : |krausInfo K τ - krausInfo K ρ| ≤ T * (Real.log p + Real.log l) + 2 * mixNats T := by
    obtain ⟨a1, a2⟩ := kraus_densities K ρ hK hρ
    obtain ⟨b1, b2⟩ := kraus_densities K τ hK hτ
    obtain ⟨p1, p2⟩ := kraus_densities K P' hK D1
    obtain ⟨q1, q2⟩ := kraus_densities K Z' hK D2
    have eo : applyKraus K ρ + (T : ℂ) • applyKraus K P' = applyKraus K τ + (T : ℂ) • applyKraus K Z' := by
      rw [← Spec.applyKraus_smul, ← Spec.applyKraus_add, hbal, Spec.applyKraus_add, Spec.applyKraus_smul]
    have ex : Spec.entropyExchange K ρ + (T : ℂ) • Spec.entropyExchange K P' =
        Spec.entropyExchange K τ + (T : ℂ) • Spec.entropyExchange K Z' := by
      rw [← exchange_smul, ← exchange_add, hbal, exchange_add, exchange_smul]
    have o1 := entropy_close a1 b1 q1 p1 hTpos.le eo
    have o2 := entropy_close b1 a1 p1 q1 hTpos.le eo.symm
    have x1 := entropy_close a2 b2 q2 p2 hTpos.le ex
    have x2 := entropy_close b2 a2 p2 q2 hTpos.le ex.symm
    unfold krausInfo
    rw [abs_le]
    constructor <;> linarith
  rw [← hT]
  have hk : krausInfo K σ = t * krausInfo K τ := by rw [hστ, krausInfo_smul K hτ.1 ht0.le]
  have hsplit : krausInfo K σ - krausInfo K ρ = (krausInfo K τ - krausInfo K ρ) + (t - 1) * krausInfo K τ := by rw [hk]; ring
  rw [hsplit]
  refine (abs_add_le _ _).trans (add_le_add close ?_)
  rw [abs_mul]
  exact mul_le_mul ht (krausInfo_abs_le K hK hτ) (abs_nonneg _) h0.le

end PyQ
