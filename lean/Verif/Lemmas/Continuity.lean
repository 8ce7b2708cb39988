import Verif.Props.StdChannels

/-! # How much entropies change with the state -/

namespace PyQ

open Matrix Spec
open scoped ComplexOrder

variable {N : ℕ}

theorem entropy_nonneg {σ : Matrix (Fin N) (Fin N) ℂ} (hσ : IsDensity σ) : 0 ≤ specSum Real.negMulLog σ := by
  obtain ⟨V, w, hw, hc⟩ := exists_eigen hσ.1
  have hs : ∑ i, w i = 1 := by
    have := eigen_trace hw
    rw [hσ.2] at this
    exact_mod_cast this.symm
  rw [specSum_eq hσ.1 hc Real.negMulLog_zero]
  exact Finset.sum_nonneg fun i _ => Real.negMulLog_nonneg (hw.nonneg i)
    (hs ▸ Finset.single_le_sum (fun j _ => hw.nonneg j) (Finset.mem_univ i))

/-- What the entropy of the choice costs, in nats. -/
noncomputable def mixNats (T : ℝ) : ℝ := (1 + T) * Real.log (1 + T) - T * Real.log T

theorem choice_nats {T : ℝ} (hT : 0 ≤ T) :
    (1 + T) * (Real.negMulLog (1 / (1 + T)) + Real.negMulLog (1 - 1 / (1 + T))) = mixNats T := by
  have h1 : 0 < 1 + T := by linarith
  have e : 1 - 1 / (1 + T) = T / (1 + T) := by field_simp; ring
  rw [e]
  unfold Real.negMulLog mixNats
  rcases hT.eq_or_lt with rfl | hT
  · simp
  rw [Real.log_div hT.ne' h1.ne', one_div, Real.log_inv]
  field_simp
  ring

/-- Two states that become equal when the same weight of something else is added to each have nearly the same entropy. -/
theorem entropy_close {A B P Q : Matrix (Fin N) (Fin N) ℂ} (hA : IsDensity A) (hB : IsDensity B) (hP : IsDensity P)
    (hQ : IsDensity Q) {T : ℝ} (hT : 0 ≤ T) (h : A + (T : ℂ) • Q = B + (T : ℂ) • P) :
    specSum Real.negMulLog A - specSum Real.negMulLog B ≤ T * Real.log N + mixNats T := by
  have h1 : 0 < 1 + T := by linarith
  set p := 1 / (1 + T) with hp
  have p0 : 0 ≤ p := by positivity
  have p1 : p ≤ 1 := by rw [hp, div_le_one h1]; linarith
  have q0 : 0 ≤ 1 - p := by linarith
  have hq : 1 - p = p * T := by rw [hp]; field_simp; ring
  have hM : ∀ {X Y : Matrix (Fin N) (Fin N) ℂ}, IsDensity X → IsDensity Y →
      ((p : ℂ) • X + ((1 - p : ℝ) : ℂ) • Y).PosSemidef := fun hX hY =>
    (hX.1.smul (show (0 : ℂ) ≤ (p : ℂ) by exact_mod_cast p0)).add
      (hY.1.smul (show (0 : ℂ) ≤ ((1 - p : ℝ) : ℂ) by exact_mod_cast q0))
  have hom : (p : ℂ) • A + ((1 - p : ℝ) : ℂ) • Q = (p : ℂ) • B + ((1 - p : ℝ) : ℂ) • P := by
    rw [hq, Complex.ofReal_mul, mul_smul, mul_smul, ← smul_add, ← smul_add, h]
  have c1 := entropy_concave p0 p1 hA.1 hQ.1 (hM hA hQ)
  have c2 := entropy_mix_le p0 p1 hB.1 hP.1 hB.2 hP.2 (hM hB hP)
  rw [hom] at c1
  have c3 := c1.trans c2
  have n1 := entropy_nonneg hQ
  have n2 := specSum_le_log hP
  have c4 := choice_nats hT
  rw [← hp] at c4
  have hpT : p * (1 + T) = 1 := by rw [hp]; field_simp
  generalize specSum Real.negMulLog A = a at *
  generalize specSum Real.negMulLog B = b at *
  generalize specSum Real.negMulLog P = x at *
  generalize specSum Real.negMulLog Q = y at *
  generalize Real.negMulLog p + Real.negMulLog (1 - p) = z at *
  rw [hq] at c3
  have c5 := mul_le_mul_of_nonneg_left c3 h1.le
  have e1 : (1 + T) * (p * a + p * T * y) = a + T * y := by linear_combination (a + T * y) * hpT
  have e2 : (1 + T) * (p * b + p * T * x + z) = b + T * x + mixNats T := by
    rw [← c4]; linear_combination (b + T * x) * hpT
  rw [e1, e2] at c5
  have := mul_le_mul_of_nonneg_left n2 hT
  have := mul_nonneg hT n1
  linarith

/-- The sum of the absolute values of the eigenvalues is at most that of the entries. -/
theorem eigen_abs_le {H V : Matrix (Fin N) (Fin N) ℂ} {w : Fin N → ℝ} (hl : Vᴴ * V = 1) (hr : V * Vᴴ = 1)
    (h : H = V * diagonal (fun i => (w i : ℂ)) * Vᴴ) : ∑ i, |w i| ≤ ∑ i, ∑ j, ‖H i j‖ := by
  have hD : diagonal (fun i => (w i : ℂ)) = Vᴴ * H * V := by
    rw [h]
    simp only [← Matrix.mul_assoc]
    rw [hl, Matrix.one_mul, Matrix.mul_assoc, hl, Matrix.mul_one]
  have hw : ∀ i, |w i| ≤ ∑ j, ∑ k, ‖H j k‖ * ((‖V j i‖ ^ 2 + ‖V k i‖ ^ 2) / 2) := by
    intro i
    have e : (w i : ℂ) = ∑ k, ∑ j, star (V j i) * H j k * V k i := by
      have := congrFun (congrFun hD i) i
      rw [diagonal_apply_eq, Matrix.mul_apply] at this
      rw [this]
      refine Finset.sum_congr rfl fun k _ => ?_
      rw [Matrix.mul_apply, Finset.sum_mul]
      rfl
    have e2 : |w i| = ‖(w i : ℂ)‖ := by rw [Complex.norm_real, Real.norm_eq_abs]
    rw [e2, e, Finset.sum_comm]
    refine (norm_sum_le _ _).trans (Finset.sum_le_sum fun j _ => (norm_sum_le _ _).trans (Finset.sum_le_sum fun k _ => ?_))
    rw [norm_mul, norm_mul, norm_star]
    have := norm_nonneg (H j k)
    have h2 : ‖V j i‖ * ‖V k i‖ ≤ (‖V j i‖ ^ 2 + ‖V k i‖ ^ 2) / 2 := by nlinarith [sq_nonneg (‖V j i‖ - ‖V k i‖)]
    calc ‖V j i‖ * ‖H j k‖ * ‖V k i‖ = ‖H j k‖ * (‖V j i‖ * ‖V k i‖) := by ring
      _ ≤ _ := mul_le_mul_of_nonneg_left h2 this
  have hrow : ∀ j, ∑ i, ‖V j i‖ ^ 2 = 1 := by
    intro j
    have := congrFun (congrFun hr j) j
    rw [Matrix.mul_apply, Matrix.one_apply_eq] at this
    have e : ∀ i, V j i * Vᴴ i j = ((‖V j i‖ ^ 2 : ℝ) : ℂ) := fun i => by
      rw [conjTranspose_apply]
      push_cast
      exact Complex.mul_conj' _
    simp only [e] at this
    exact_mod_cast this
  refine (Finset.sum_le_sum fun i _ => hw i).trans ?_
  rw [Finset.sum_comm]
  refine Finset.sum_le_sum fun j _ => ?_
  rw [Finset.sum_comm]
  refine Finset.sum_le_sum fun k _ => ?_
  rw [← Finset.mul_sum, ← Finset.sum_div, Finset.sum_add_distrib, hrow, hrow]
  simp

/-- The difference of two states is a difference of states times half the sum of its entries. -/
theorem exists_split {A B : Matrix (Fin N) (Fin N) ℂ} (hA : IsDensity A) (hB : IsDensity B) {T : ℝ}
    (hT : ∑ i, ∑ j, ‖A i j - B i j‖ ≤ 2 * T) :
    0 ≤ T ∧ ∃ P Q : Matrix (Fin N) (Fin N) ℂ, IsDensity P ∧ IsDensity Q ∧ A + (T : ℂ) • Q = B + (T : ℂ) • P := by
  have hn : 0 ≤ ∑ i, ∑ j, ‖A i j - B i j‖ := Finset.sum_nonneg fun _ _ => Finset.sum_nonneg fun _ _ => norm_nonneg _
  have hT0 : 0 ≤ T := by linarith
  refine ⟨hT0, ?_⟩
  rcases hT0.eq_or_lt with h0 | hpos
  · subst h0
    refine ⟨A, A, hA, hA, ?_⟩
    have : A = B := by
      ext i j
      have h1 := (Finset.sum_eq_zero_iff_of_nonneg fun i _ => Finset.sum_nonneg fun j _ => norm_nonneg (A i j - B i j)).1
        (le_antisymm (by linarith) hn) i (Finset.mem_univ i)
      have h2 := (Finset.sum_eq_zero_iff_of_nonneg fun j _ => norm_nonneg (A i j - B i j)).1 h1 j (Finset.mem_univ j)
      exact sub_eq_zero.mp (norm_eq_zero.mp h2)
    rw [this]
  obtain ⟨w, V, hl, hr, hd, -⟩ := hermitian_diag (A - B) (hA.1.isHermitian.sub hB.1.isHermitian)
  have hH : A - B = V * diagonal (fun i => (w i : ℂ)) * Vᴴ := by rw [← hd, Matrix.mul_assoc, hr, Matrix.mul_one]
  have habs := eigen_abs_le hl hr hH
  have hpart : ∀ f : Fin N → ℝ, trace (V * diagonal (fun i => (f i : ℂ)) * Vᴴ) = ((∑ i, f i : ℝ) : ℂ) := by
    intro f
    rw [Matrix.trace_mul_comm, ← Matrix.mul_assoc, hl, Matrix.one_mul, trace_diagonal]
    push_cast; rfl
  have hpos' : ∀ f : Fin N → ℝ, (∀ i, 0 ≤ f i) → (V * diagonal (fun i => (f i : ℂ)) * Vᴴ).PosSemidef := fun f hf =>
    (posSemidef_diagonal_iff.mpr fun i => by exact_mod_cast hf i).mul_mul_conjTranspose_same V
  have hsum : ∑ i, w i = 0 := by
    have := hpart w
    rw [← hH, trace_sub, hA.2, hB.2, sub_self] at this
    exact_mod_cast this.symm
  set t := ∑ i, max (w i) 0 with ht
  have ht' : ∑ i, max (-w i) 0 = t := by
    have key : ∑ i, (max (-w i) 0 - max (w i) 0) = -∑ i, w i := by
      rw [← Finset.sum_neg_distrib]
      refine Finset.sum_congr rfl fun i _ => ?_
      rcases le_total (w i) 0 with h | h
      · rw [max_eq_left (by linarith), max_eq_right h]; ring
      · rw [max_eq_right (by linarith), max_eq_left h]; ring
    rw [Finset.sum_sub_distrib, hsum, neg_zero] at key
    linarith
  have h2t : 2 * t ≤ 2 * T := by
    have : 2 * t = ∑ i, |w i| := by
      rw [two_mul]
      nth_rewrite 2 [← ht']
      rw [ht, ← Finset.sum_add_distrib]
      refine Finset.sum_congr rfl fun i _ => ?_
      rcases le_total (w i) 0 with h | h
      · rw [max_eq_left (by linarith : (0 : ℝ) ≤ -w i), max_eq_right h, abs_of_nonpos h, zero_add]
      · rw [max_eq_right (by linarith : -w i ≤ (0 : ℝ)), max_eq_left h, abs_of_nonneg h, add_zero]
    rw [this]
    exact habs.trans hT
  have hrest : 0 ≤ T - t := by linarith
  have hTi : 0 ≤ T⁻¹ := by positivity
  have hdens : ∀ f : Fin N → ℝ, (∀ i, 0 ≤ f i) → ∑ i, f i = t →
      IsDensity (((T⁻¹ : ℝ) : ℂ) • (V * diagonal (fun i => (f i : ℂ)) * Vᴴ + ((T - t : ℝ) : ℂ) • A)) := by
    intro f hf hs
    refine ⟨((hpos' f hf).add (hA.1.smul (show (0 : ℂ) ≤ ((T - t : ℝ) : ℂ) by exact_mod_cast hrest))).smul
      (show (0 : ℂ) ≤ ((T⁻¹ : ℝ) : ℂ) by exact_mod_cast hTi), ?_⟩
    rw [trace_smul, trace_add, hpart, hs, trace_smul, hA.2, smul_eq_mul, smul_eq_mul, mul_one, ← Complex.ofReal_add,
      ← Complex.ofReal_mul, add_sub_cancel, inv_mul_cancel₀ hpos.ne', Complex.ofReal_one]
  refine ⟨_, _, hdens _ (fun i => le_max_right (w i) 0) rfl, hdens _ (fun i => le_max_right (-w i) 0) ht', ?_⟩
  rw [smul_smul, smul_smul, ← Complex.ofReal_mul, mul_inv_cancel₀ hpos.ne', Complex.ofReal_one, one_smul, one_smul,
    ← sub_eq_zero]
  have hdiff : V * diagonal (fun i => ((max (w i) 0 : ℝ) : ℂ)) * Vᴴ - V * diagonal (fun i => ((max (-w i) 0 : ℝ) : ℂ)) * Vᴴ =
      A - B := by
    rw [hH, ← Matrix.sub_mul, ← Matrix.mul_sub, diagonal_sub]
    congr 3
    funext i
    rw [← Complex.ofReal_sub]
    congr 1
    rcases le_total (w i) 0 with h | h
    · rw [max_eq_left (by linarith : (0 : ℝ) ≤ -w i), max_eq_right h]; ring
    · rw [max_eq_right (by linarith : -w i ≤ (0 : ℝ)), max_eq_left h]; ring
  generalize V * diagonal (fun i => ((max (w i) 0 : ℝ) : ℂ)) * Vᴴ = X at hdiff ⊢
  generalize V * diagonal (fun i => ((max (-w i) 0 : ℝ) : ℂ)) * Vᴴ = Y at hdiff ⊢
  have e : A + (Y + ((T - t : ℝ) : ℂ) • A) - (B + (X + ((T - t : ℝ) : ℂ) • A)) = (A - B) - (X - Y) := by abel
  rw [e, hdiff, sub_self]

theorem exchange_add {κ m R : Type} [Fintype m] [Fintype R] (K : κ → Matrix m R ℂ) (ρ σ : Matrix R R ℂ) :
    Spec.entropyExchange K (ρ + σ) = Spec.entropyExchange K ρ + Spec.entropyExchange K σ := by
  funext i j
  simp [Spec.entropyExchange, Matrix.mul_add, Matrix.add_mul, trace_add]

theorem exchange_smul {κ m R : Type} [Fintype m] [Fintype R] (K : κ → Matrix m R ℂ) (z : ℂ) (ρ : Matrix R R ℂ) :
    Spec.entropyExchange K (z • ρ) = z • Spec.entropyExchange K ρ := by
  funext i j
  simp [Spec.entropyExchange, trace_smul]

/-- The coherent information of two states that differ little. -/
theorem krausInfo_close {l p q : ℕ} (K : Fin l → Matrix (Fin p) (Fin q) ℂ) (hK : TracePreserving K)
    {A B : Matrix (Fin q) (Fin q) ℂ} (hA : IsDensity A) (hB : IsDensity B) {T : ℝ}
    (hT : ∑ i, ∑ j, ‖A i j - B i j‖ ≤ 2 * T) :
    krausInfo K A - krausInfo K B ≤ T * (Real.log p + Real.log l) + 2 * mixNats T := by
  obtain ⟨hT0, P, Q, hP, hQ, h⟩ := exists_split hA hB hT
  obtain ⟨a1, a2⟩ := kraus_densities K A hK hA
  obtain ⟨b1, b2⟩ := kraus_densities K B hK hB
  obtain ⟨p1, p2⟩ := kraus_densities K P hK hP
  obtain ⟨q1, q2⟩ := kraus_densities K Q hK hQ
  have o := entropy_close a1 b1 p1 q1 hT0 (by
    rw [← Spec.applyKraus_smul, ← Spec.applyKraus_add, h, Spec.applyKraus_add, Spec.applyKraus_smul])
  have x := entropy_close b2 a2 q2 p2 hT0 (by
    rw [← exchange_smul, ← exchange_add, ← h, exchange_add, exchange_smul])
  unfold krausInfo
  linarith

end PyQ
