import Verif.Lemmas.Recovery
import Mathlib.Analysis.SpecialFunctions.BinaryEntropy

/-!
# The quantum Fano inequality
-/

namespace PyQ

open Matrix Polynomial
open scoped ComplexOrder Kronecker

section Finite

variable {ι κ m R r : Type} [Fintype ι] [Fintype κ] [Fintype m] [Fintype R] [Fintype r] [DecidableEq ι] [DecidableEq κ] [DecidableEq m]
  [DecidableEq R] [DecidableEq r]

/-- The relative entropy of matrices of trace one is not negative. -/
theorem relEnt_nonneg {J V U : Matrix r r ℂ} {p q : r → ℝ} (hJ : Eigen J V p) (hU : Uᴴ * U = 1) (hU' : U * Uᴴ = 1) (h1 : trace J = 1)
    (hq : ∀ j, 0 ≤ q j) (hq1 : ∑ j, q j = 1) (hs : Supported p q (Uᴴ * V)) : 0 ≤ relEnt p q (Uᴴ * V) := by
  have h := overlap_ge hJ hU' h1 hq hs
  have hc : (Uᴴ * V)ᴴ * (Uᴴ * V) = 1 := by
    rw [conjTranspose_mul, conjTranspose_conjTranspose, Matrix.mul_assoc, ← Matrix.mul_assoc U, hU', Matrix.one_mul, hJ.left]
  have hc' : (Uᴴ * V)ᴴᴴ * (Uᴴ * V)ᴴ = 1 := by
    rw [conjTranspose_conjTranspose, conjTranspose_mul, conjTranspose_conjTranspose, Matrix.mul_assoc, ← Matrix.mul_assoc V,
      hJ.right, Matrix.one_mul, hU]
  have hp1 : ∑ i, p i = 1 := by
    have := eigen_trace hJ
    rw [h1] at this
    exact_mod_cast this.symm
  have h2 : ∑ j, ∑ i, ‖(Uᴴ * V) j i‖ ^ 2 * (Real.sqrt (p i) * Real.sqrt (q j)) ≤ 1 := by
    have h3 : ∑ j, ∑ i, ‖(Uᴴ * V) j i‖ ^ 2 * (Real.sqrt (p i) * Real.sqrt (q j)) ≤
        ∑ j, ∑ i, (‖(Uᴴ * V) j i‖ ^ 2 * p i + ‖(Uᴴ * V)ᴴ i j‖ ^ 2 * q j) / 2 := by
      refine Finset.sum_le_sum fun j _ => Finset.sum_le_sum fun i _ => ?_
      rw [conjTranspose_apply, norm_star, ← mul_add, mul_div_assoc]
      refine mul_le_mul_of_nonneg_left ?_ (sq_nonneg _)
      nlinarith [sq_nonneg (Real.sqrt (p i) - Real.sqrt (q j)), Real.mul_self_sqrt (hJ.nonneg i), Real.mul_self_sqrt (hq j)]
    refine h3.trans (le_of_eq ?_)
    simp only [← Finset.sum_div, Finset.sum_add_distrib]
    rw [Finset.sum_comm]
    simp only [← Finset.sum_mul, weights_col hc, weights_col hc', one_mul, hp1, hq1]
    norm_num
  have h4 := h.trans h2
  rw [← Real.exp_zero, Real.exp_le_exp] at h4
  linarith

/-- The entropy of the input is at most that of the output plus that of the exchange matrix. -/
theorem entropy_triangle (K : κ → Matrix m R ℂ) (hK : Spec.TracePreserving K) {ρ : Matrix R R ℂ} (hρ : ρ.PosSemidef)
    (h1 : trace ρ = 1) :
    specSum Real.negMulLog ρ ≤ specSum Real.negMulLog (Spec.applyKraus K ρ) + specSum Real.negMulLog (Spec.entropyExchange K ρ) := by
  have hex := Spec.exchange_posSemidef K hρ
  have hout := Spec.applyKraus_posSemidef K hρ
  obtain ⟨-, x, -, hx⟩ := exists_eigen hρ
  obtain ⟨U, u, hU, hu⟩ := exists_eigen hout
  obtain ⟨W, v, hW, hv⟩ := exists_eigen hex
  rw [specSum_eq hρ hx Real.negMulLog_zero, specSum_eq hout hu Real.negMulLog_zero, specSum_eq hex hv Real.negMulLog_zero]
  obtain ⟨S, hS⟩ := exists_factor hρ
  set M : Matrix (m × κ) R ℂ := Matrix.of fun z y => (K z.2 * S) z.1 y with hM
  have hMM : Mᴴ * M = Sᴴ * S := by
    have e : Sᴴ * S = ∑ k, (K k * S)ᴴ * (K k * S) := by
      simp only [conjTranspose_mul, Matrix.mul_assoc]
      simp only [← Matrix.mul_assoc (K _)ᴴ]
      rw [← Matrix.mul_sum, ← Matrix.sum_mul, hK, Matrix.one_mul]
    rw [e]
    ext y y'
    rw [Matrix.mul_apply, Fintype.sum_prod_type_right, Matrix.sum_apply]
    refine Finset.sum_congr rfl fun k _ => ?_
    rw [Matrix.mul_apply]
    rfl
  have hJ : (M * Mᴴ).PosSemidef := posSemidef_self_mul_conjTranspose M
  obtain ⟨V, p, hV, hp⟩ := exists_eigen hJ
  have hsp : ∑ i, Real.negMulLog (x i) = ∑ i, Real.negMulLog (p i) := by
    refine sum_eq_of_charpoly (p := Fintype.card (m × κ)) (q := Fintype.card R) hx hp ?_ _ Real.negMulLog_zero
    have e : ρ.charpoly = (Mᴴ * M).charpoly := by
      have := charpoly_mul_comm' S Sᴴ
      rw [hMM, hS]
      exact mul_left_cancel₀ (pow_ne_zero _ X_ne_zero) this
    rw [e]
    exact charpoly_mul_comm' Mᴴ M
  have happ : ∀ b k b' k', (M * Mᴴ) (b, k) (b', k') = (K k * ρ * (K k')ᴴ) b b' := by
    intro b k b' k'
    rw [show K k * ρ * (K k')ᴴ = (K k * S) * (K k' * S)ᴴ by
      rw [conjTranspose_mul, hS]; simp only [Matrix.mul_assoc], Matrix.mul_apply, Matrix.mul_apply]
    rfl
  have hfirst : firstPart (M * Mᴴ) = Spec.applyKraus K ρ := by
    ext b b'
    unfold firstPart Spec.applyKraus
    simp only [happ]
    rw [Matrix.sum_apply]
  have hsecond : secondPart (M * Mᴴ) = Spec.entropyExchange K ρ := by
    ext k k'
    unfold secondPart Spec.entropyExchange
    simp only [happ]
    rfl
  obtain ⟨hD, hsup⟩ := relEnt_parts hV (by rw [hfirst]; exact hU) (by rw [hsecond]; exact hW)
  have hUW := eigen_kron hU hW
  have hJ1 : trace (M * Mᴴ) = 1 := by
    rw [trace_mul_comm, hMM, trace_mul_comm, ← hS, h1]
  have hu1 : ∑ i, u i = 1 := by
    have := eigen_trace hU
    rw [Spec.applyKraus_trace _ hK, h1] at this
    exact_mod_cast this.symm
  have hv1 : ∑ i, v i = 1 := by
    have := eigen_trace hW
    rw [Spec.exchange_trace, Spec.applyKraus_trace _ hK, h1] at this
    exact_mod_cast this.symm
  have h0 := relEnt_nonneg hV hUW.left hUW.right hJ1 hUW.nonneg (by
    rw [Fintype.sum_prod_type]
    simp only [← Finset.mul_sum, hv1, mul_one, hu1]) hsup
  rw [hD] at h0
  rw [hsp]
  linarith

/-- The entropy of a state with overlap `F` with a pure one. -/
theorem entropy_overlap {J : Matrix r r ℂ} (hJ : J.PosSemidef) (h1 : trace J = 1) (φ : r → ℂ) (hφ : star φ ⬝ᵥ φ = 1) {F : ℝ}
    (hF : star φ ⬝ᵥ (J *ᵥ φ) = (F : ℂ)) : specSum Real.negMulLog J ≤ Real.qaryEntropy (Fintype.card r) (1 - F) := by
  have hΦ : (vecMulVec φ (star φ)).PosSemidef := posSemidef_vecMulVec_self_star φ
  obtain ⟨V, q, hV, -⟩ := exists_eigen hΦ
  have hidem : vecMulVec φ (star φ) * vecMulVec φ (star φ) = vecMulVec φ (star φ) := by
    rw [vecMulVec_mul_vecMulVec, hφ, one_smul]
  have hq1 : ∑ i, q i = 1 := by
    have := eigen_trace hV
    rw [trace_vecMulVec, dotProduct_comm, hφ] at this
    exact_mod_cast this.symm
  have hqq : ∀ i, q i * q i = q i := by
    intro i
    have e : diagonal (fun i => (q i : ℂ)) = Vᴴ * vecMulVec φ (star φ) * V := by
      rw [hV.eq, show Vᴴ * (V * diagonal (fun i => (q i : ℂ)) * Vᴴ) * V =
        (Vᴴ * V) * diagonal (fun i => (q i : ℂ)) * (Vᴴ * V) by simp only [Matrix.mul_assoc], hV.left, Matrix.one_mul,
        Matrix.mul_one]
    have e2 : diagonal (fun i => (q i : ℂ)) * diagonal (fun i => (q i : ℂ)) = diagonal (fun i => (q i : ℂ)) := by
      rw [e]
      calc Vᴴ * vecMulVec φ (star φ) * V * (Vᴴ * vecMulVec φ (star φ) * V) =
          Vᴴ * (vecMulVec φ (star φ) * (V * Vᴴ) * vecMulVec φ (star φ)) * V := by simp only [Matrix.mul_assoc]
        _ = _ := by rw [hV.right, Matrix.mul_one, hidem]
    have := congrFun (congrFun e2 i) i
    rw [diagonal_mul_diagonal, diagonal_apply_eq, diagonal_apply_eq] at this
    exact_mod_cast this
  have h01 : ∀ i, q i = 0 ∨ q i = 1 := fun i => by
    rcases mul_eq_zero.mp (show q i * (q i - 1) = 0 by rw [mul_sub, hqq]; ring) with h | h
    · exact Or.inl h
    · exact Or.inr (by linarith)
  obtain ⟨i0, hi0⟩ : ∃ i, q i = 1 := by
    by_contra hcon
    push Not at hcon
    have : ∑ i, q i = 0 := Finset.sum_eq_zero fun i _ => (h01 i).resolve_right (hcon i)
    rw [hq1] at this
    exact one_ne_zero this
  have hother : ∀ i, i ≠ i0 → q i = 0 := by
    have h2 : ∑ i ∈ Finset.univ.erase i0, q i = 0 := by
      have := Finset.add_sum_erase Finset.univ q (Finset.mem_univ i0)
      rw [hq1, hi0] at this
      linarith
    intro i hi
    exact (Finset.sum_eq_zero_iff_of_nonneg fun i _ => hV.nonneg i).mp h2 i (by simp [hi])
  have hdiag : (diagonal fun i => (q i : ℂ)) = Matrix.single i0 i0 1 := by
    ext i j
    rw [diagonal_apply, Matrix.single_apply]
    by_cases h : i = j
    · subst h
      by_cases h' : i0 = i
      · subst h'; simp [hi0]
      · simp [h', hother i (Ne.symm h')]
    · rw [if_neg h, if_neg]
      rintro ⟨rfl, rfl⟩
      exact h rfl
  set A : Matrix r r ℂ := Vᴴ * J * V with hA
  have hAp : A.PosSemidef := hJ.conjTranspose_mul_mul_same V
  have hAF : A i0 i0 = (F : ℂ) := by
    rw [← trace_mul_single_one A i0, ← hdiag, hA, Matrix.mul_assoc, Matrix.mul_assoc, trace_mul_comm,
      Matrix.mul_assoc, ← hV.eq, mul_vecMulVec, trace_vecMulVec, dotProduct_comm, hF]
  obtain ⟨-, w, -, hw⟩ := exists_eigen hJ
  have hcp : A.charpoly = J.charpoly := by
    have e : A = Vᴴ * (J * V) := by rw [hA, Matrix.mul_assoc]
    have := charpoly_mul_comm' Vᴴ (J * V)
    rw [Matrix.mul_assoc J, hV.right, Matrix.mul_one, ← e] at this
    exact mul_left_cancel₀ (pow_ne_zero _ X_ne_zero) this
  rw [specSum_eq hJ hw Real.negMulLog_zero]
  have hs := schur_entropy A hAp w (by rw [hcp]; exact hw)
  refine hs.trans ?_
  set t : r → ℝ := fun i => (A i i).re with ht
  have t0 : ∀ i, 0 ≤ t i := fun i => (Complex.le_def.mp (hAp.diag_nonneg (i := i))).1
  have tF : t i0 = F := by rw [ht]; simp only [hAF, Complex.ofReal_re]
  have t1 : ∑ i, t i = 1 := by
    have : trace A = 1 := by
      rw [hA, Matrix.mul_assoc, trace_mul_comm, Matrix.mul_assoc, hV.right, Matrix.mul_one, h1]
    have := congrArg Complex.re this
    rwa [trace, Complex.re_sum, Complex.one_re] at this
  rw [← Finset.add_sum_erase Finset.univ _ (Finset.mem_univ i0)]
  have hrest : ∑ i ∈ Finset.univ.erase i0, t i = 1 - F := by
    have := Finset.add_sum_erase Finset.univ t (Finset.mem_univ i0)
    rw [t1, tF] at this
    linarith
  have hF1 : 0 ≤ 1 - F := hrest ▸ Finset.sum_nonneg fun i _ => t0 i
  have hcard : ((Finset.univ.erase i0).card : ℝ) = ((Fintype.card r : ℤ) - 1 : ℤ) := by
    rw [Finset.card_erase_of_mem (Finset.mem_univ i0), Finset.card_univ, Nat.cast_pred (Fintype.card_pos_iff.mpr ⟨i0⟩)]
    push_cast
    ring
  have hmain : ∑ i ∈ Finset.univ.erase i0, Real.negMulLog (t i) ≤
      Real.negMulLog (1 - F) + (1 - F) * Real.log ((Finset.univ.erase i0).card : ℝ) := by
    rcases Nat.eq_zero_or_pos (Finset.univ.erase i0).card with h0 | h0
    · rw [Finset.card_eq_zero] at h0
      rw [h0, Finset.sum_empty] at hrest
      rw [h0, Finset.sum_empty, ← hrest]
      simp
    · have hc0 : (0 : ℝ) < ((Finset.univ.erase i0).card : ℝ) := Nat.cast_pos.mpr h0
      obtain ⟨c, hc⟩ : ∃ c : ℝ, c = ((Finset.univ.erase i0).card : ℝ) := ⟨_, rfl⟩
      rw [← hc] at hc0 ⊢
      have hj := Real.concaveOn_negMulLog.le_map_sum (t := Finset.univ.erase i0) (w := fun _ => c⁻¹) (p := t)
        (fun _ _ => (inv_pos.mpr hc0).le) (by rw [Finset.sum_const, nsmul_eq_mul, ← hc, mul_inv_cancel₀ hc0.ne'])
        (fun i _ => t0 i)
      simp only [smul_eq_mul, ← Finset.mul_sum] at hj
      rw [hrest] at hj
      have hj2 := mul_le_mul_of_nonneg_left hj hc0.le
      rw [← mul_assoc, mul_inv_cancel₀ hc0.ne', one_mul] at hj2
      refine hj2.trans (le_of_eq ?_)
      rcases eq_or_lt_of_le hF1 with h2 | h2
      · rw [← h2]; simp
      · unfold Real.negMulLog
        rw [Real.log_mul (inv_pos.mpr hc0).ne' h2.ne', Real.log_inv]
        field_simp
        ring
  have hfin : Real.qaryEntropy (Fintype.card r) (1 - F) =
      Real.negMulLog F + (Real.negMulLog (1 - F) + (1 - F) * Real.log ((Finset.univ.erase i0).card : ℝ)) := by
    unfold Real.qaryEntropy
    rw [Real.binEntropy_eq_negMulLog_add_negMulLog_one_sub, hcard, sub_sub_cancel]
    ring
  change Real.negMulLog (t i0) + ∑ i ∈ Finset.univ.erase i0, Real.negMulLog (t i) ≤ _
  rw [hfin, tF]
  linarith

/-- **The Fano inequality**: the entropy of the exchange matrix is at most the entropy of a source that is right with
probability `F`, the entanglement fidelity. -/
theorem exchange_le (L : κ → Matrix R R ℂ) (hL : Spec.TracePreserving L) {ρ : Matrix R R ℂ} (hρ : ρ.PosSemidef) (h1 : trace ρ = 1) :
    specSum Real.negMulLog (Spec.entropyExchange L ρ) ≤
      Real.qaryEntropy (Fintype.card R * Fintype.card R) (1 - ∑ k, ‖trace (L k * ρ)‖ ^ 2) := by
  obtain ⟨S, hS⟩ := exists_factor hρ
  have hJ := jointState_posSemidef L S
  have hex := Spec.exchange_posSemidef L hρ
  have e1 : specSum Real.negMulLog (Spec.entropyExchange L ρ) = specSum Real.negMulLog (jointState L S) := by
    refine specSum_congr (p := Fintype.card (R × R)) (q := Fintype.card κ) hex hJ ?_ Real.negMulLog_zero
    rw [hS]
    exact (exchange_jointState L S).symm
  rw [e1, ← Fintype.card_prod]
  refine entropy_overlap hJ ?_ (fun z => S z.1 z.2) ?_ ?_
  · have : trace (jointState L S) = trace (firstPart (jointState L S)) := by
      rw [trace, Fintype.sum_prod_type]
      rfl
    rw [this, firstPart_jointState, ← hS, Spec.applyKraus_trace _ hL, h1]
  · rw [← h1, hS, trace_mul_comm, trace, dotProduct, Fintype.sum_prod_type_right]
    refine Finset.sum_congr rfl fun y _ => ?_
    rw [diag_apply, Matrix.mul_apply]
    rfl
  · set M : Matrix (R × R) κ ℂ := Matrix.of fun z k => (L k * S) z.1 z.2 with hM
    have hj : jointState L S = M * Mᴴ := rfl
    have ht : ∀ k, (Mᴴ *ᵥ fun z : R × R => S z.1 z.2) k = star (trace (L k * ρ)) := by
      intro k
      rw [hS, ← Matrix.mul_assoc, trace_mul_comm, trace, mulVec, dotProduct, Fintype.sum_prod_type_right, star_sum]
      refine Finset.sum_congr rfl fun y _ => ?_
      rw [diag_apply, Matrix.mul_apply, star_sum]
      refine Finset.sum_congr rfl fun x _ => ?_
      simp only [hM, conjTranspose_apply, of_apply, star_mul', star_star]
      ring
    have hstar : ∀ f : R × R → ℂ, star f ᵥ* M = star (Mᴴ *ᵥ f) := fun f => by rw [star_mulVec, conjTranspose_conjTranspose]
    rw [hj, ← mulVec_mulVec, dotProduct_mulVec, hstar]
    simp only [dotProduct, Pi.star_apply, ht, star_star]
    push_cast
    refine Finset.sum_congr rfl fun k _ => ?_
    rw [Complex.star_def, Complex.mul_conj, Complex.normSq_eq_norm_sq]
    push_cast
    rfl

/-- **The converse**: a recovery with entanglement fidelity `F` bounds the loss of coherent information. -/
theorem loss_le (B : ι → Matrix R m ℂ) (hB : Spec.TracePreserving B) (K : κ → Matrix m R ℂ) (hK : Spec.TracePreserving K)
    {ρ : Matrix R R ℂ} (hρ : ρ.PosSemidef) (h1 : trace ρ = 1) :
    specSum Real.negMulLog ρ - krausInfo K ρ ≤
      2 * Real.qaryEntropy (Fintype.card R * Fintype.card R) (1 - ∑ j, ∑ k, ‖trace (B j * K k * ρ)‖ ^ 2) := by
  set L : ι × κ → Matrix R R ℂ := fun z => B z.1 * K z.2 with hLdef
  have hL : Spec.TracePreserving L := by
    unfold Spec.TracePreserving
    rw [Fintype.sum_prod_type_right]
    have : ∀ k, ∑ j, (L (j, k))ᴴ * L (j, k) = (K k)ᴴ * K k := by
      intro k
      simp only [hLdef, conjTranspose_mul, Matrix.mul_assoc]
      simp only [← Matrix.mul_assoc (B _)ᴴ]
      rw [← Matrix.mul_sum, ← Matrix.sum_mul, hB, Matrix.one_mul]
    simp only [this]
    exact hK
  have hf := exchange_le L hL hρ h1
  have ht := entropy_triangle L hL hρ h1
  rw [Fintype.sum_prod_type] at hf
  obtain ⟨-, w, -, hw⟩ := exists_eigen (Spec.applyKraus_posSemidef K hρ)
  obtain ⟨-, v, -, hv⟩ := exists_eigen (Spec.exchange_posSemidef K hρ)
  obtain ⟨-, w', -, hw'⟩ := exists_eigen (Spec.applyKraus_posSemidef L hρ)
  obtain ⟨-, v', -, hv'⟩ := exists_eigen (Spec.exchange_posSemidef L hρ)
  have hd := kraus_data_processing B hB K L (fun ρ => applyKraus_comp B K ρ) hρ hw hv hw' hv'
  rw [← specSum_eq (Spec.applyKraus_posSemidef K hρ) hw Real.negMulLog_zero,
    ← specSum_eq (Spec.exchange_posSemidef K hρ) hv Real.negMulLog_zero,
    ← specSum_eq (Spec.applyKraus_posSemidef L hρ) hw' Real.negMulLog_zero,
    ← specSum_eq (Spec.exchange_posSemidef L hρ) hv' Real.negMulLog_zero] at hd
  unfold krausInfo
  linarith

end Finite

end PyQ
