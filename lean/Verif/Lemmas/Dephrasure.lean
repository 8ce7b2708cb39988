import Verif.Lemmas.StdChannels

/-!
# The entropy of a mixture of two products of mixtures of vectors, for the dephrasure channel
-/

namespace PyQ

open Matrix Polynomial Spec
open scoped ComplexOrder

theorem specSum_gram {E κ : Type} [Fintype E] [DecidableEq E] [Fintype κ] [DecidableEq κ] (G : Matrix E κ ℂ) {f : ℝ → ℝ}
    (hf : f 0 = 0) : specSum f (G * Gᴴ) = specSum f (Gᴴ * G) :=
  specSum_congr (posSemidef_self_mul_conjTranspose G) (posSemidef_conjTranspose_mul_self G) (charpoly_mul_comm' G Gᴴ) hf

/-- Two states of a qubit's label with a common overlap `s`. -/
noncomputable def overlapMat (lam : Fin 2 → ℝ) (s : ℝ) : Matrix (Fin 2) (Fin 2) ℂ :=
  fun x y => ((√(lam x) * √(lam y) * (if x = y then 1 else s) : ℝ) : ℂ)

/-- A square root of it. -/
noncomputable def overlapFactor (lam : Fin 2 → ℝ) (s : ℝ) : Matrix (Fin 2) (Fin 2) ℂ :=
  fun i x => ((√(lam x) * (if i = 0 then (if x = 0 then 1 else s) else (if x = 0 then 0 else √(1 - s ^ 2))) : ℝ) : ℂ)

/-- The vectors of the words, as columns. -/
noncomputable def wordCols {m n : ℕ} (c : Fin 2 → Fin 2 → Fin m → ℂ) (lam : Fin 2 → ℝ) :
    Matrix (Fin (m ^ n)) (Fin 2 × (Fin n → Fin 2)) ℂ :=
  fun i k => ((√(lam k.1) : ℝ) : ℂ) * ∏ t, c (k.2 t) k.1 (digit i t)

/-- The entropy of a mixture of two vectors with overlap `s`, with weights `t` and `1 - t`. -/
noncomputable def overlapNats (t s : ℝ) : ℝ := choiceNats ((1 + √(1 - 4 * t * (1 - t) * (1 - s ^ 2))) / 2)

section
variable {lam : Fin 2 → ℝ} (hl : ∀ x, 0 ≤ lam x) (h1 : lam 0 + lam 1 = 1)
include hl h1

theorem overlapMat_trace (s : ℝ) : trace (overlapMat lam s) = 1 := by
  rw [trace, Fin.sum_univ_two]
  simp only [diag_apply, overlapMat, if_true, mul_one, Real.mul_self_sqrt (hl _)]
  exact_mod_cast h1

omit h1 in
theorem overlapMat_psd {s : ℝ} (hs : s ^ 2 ≤ 1) : (overlapMat lam s).PosSemidef := by
  have : overlapMat lam s = (overlapFactor lam s)ᴴ * overlapFactor lam s := by
    have hq := Real.mul_self_sqrt (sub_nonneg.mpr hs)
    ext x y
    rw [Matrix.mul_apply, Fin.sum_univ_two]
    simp only [conjTranspose_apply, overlapMat, overlapFactor, Complex.star_def, Complex.conj_ofReal]
    rw [← Complex.ofReal_mul, ← Complex.ofReal_mul, ← Complex.ofReal_add]
    congr 1
    fin_cases x <;> fin_cases y <;> simp <;>
      first | (ring1) | linear_combination (-(√(lam 1) * √(lam 1))) * hq
  rw [this]
  exact posSemidef_conjTranspose_mul_self _

theorem overlapMat_entropy {s : ℝ} (hs : s ^ 2 ≤ 1) :
    specSum Real.negMulLog (overlapMat lam s) = overlapNats (lam 0) s := by
  have hl1 : lam 1 = 1 - lam 0 := by linarith
  set u := √(1 - 4 * lam 0 * (1 - lam 0) * (1 - s ^ 2)) with hu
  have hnn : 0 ≤ 1 - 4 * lam 0 * (1 - lam 0) * (1 - s ^ 2) := by
    have := hl 0
    have := hl 1
    nlinarith [sq_nonneg (1 - 2 * lam 0), mul_nonneg (mul_nonneg (hl 0) (hl 1)) (sq_nonneg s)]
  have huu : u * u = 1 - 4 * lam 0 * (1 - lam 0) * (1 - s ^ 2) := Real.mul_self_sqrt hnn
  have q0 := Real.mul_self_sqrt (hl 0)
  have q1 := Real.mul_self_sqrt (hl 1)
  rw [specSum_eq (w := ![(1 + u) / 2, 1 - (1 + u) / 2]) (overlapMat_psd hl hs) ?_ Real.negMulLog_zero]
  · rw [Fin.sum_univ_two]
    rfl
  · rw [charpoly_fin_two, overlapMat_trace hl h1, det_fin_two, Fin.prod_univ_two]
    have hd : overlapMat lam s 0 0 * overlapMat lam s 1 1 - overlapMat lam s 0 1 * overlapMat lam s 1 0 =
        (((1 + u) / 2 * (1 - (1 + u) / 2) : ℝ) : ℂ) := by
      simp only [overlapMat]
      rw [← Complex.ofReal_mul, ← Complex.ofReal_mul, ← Complex.ofReal_sub]
      congr 1
      simp only [if_true, mul_one]
      rw [if_neg (by decide), if_neg (by decide), q0, q1]
      rw [show √(lam 0) * √(lam 1) * s * (√(lam 1) * √(lam 0) * s) = (√(lam 0) * √(lam 0)) * (√(lam 1) * √(lam 1)) * s ^ 2 by ring,
        q0, q1, hl1]
      linear_combination (1 / 4 : ℝ) * huu
    rw [hd]
    simp only [cons_val_zero, cons_val_one, Complex.ofReal_mul, C_mul, Complex.ofReal_sub, C_sub, Complex.ofReal_one, C_1]
    ring

end

theorem overlapNats_zero (t : ℝ) : overlapNats t 0 = choiceNats t := by
  unfold overlapNats
  rw [show 1 - 4 * t * (1 - t) * (1 - 0 ^ 2) = (1 - 2 * t) ^ 2 by ring, Real.sqrt_sq_eq_abs]
  unfold choiceNats
  rcases le_total 0 (1 - 2 * t) with h | h
  · rw [abs_of_nonneg h, show (1 + (1 - 2 * t)) / 2 = 1 - t by ring, sub_sub_cancel, add_comm]
  · rw [abs_of_nonpos h, show (1 + -(1 - 2 * t)) / 2 = t by ring]

theorem overlapNats_one (t : ℝ) : overlapNats t 1 = 0 := by
  unfold overlapNats choiceNats
  norm_num

/-- The states of `n` systems that are a mixture of two products. -/
theorem two_states {m n : ℕ} (c : Fin 2 → Fin 2 → Fin m → ℂ) (w s : Fin 2 → ℝ) {lam : Fin 2 → ℝ} (hl : ∀ x, 0 ≤ lam x)
    (h1 : lam 0 + lam 1 = 1) (hw : ∀ a, 0 ≤ w a) (hs : ∀ a, s a ^ 2 ≤ 1)
    (gram : ∀ a x b y, ∑ i, star (c a x i) * c b y i = if a = b then ((w a * (if x = y then 1 else s a) : ℝ) : ℂ) else 0) :
    specSum Real.negMulLog (∑ x, (lam x : ℂ) • tensorProd fun _ : Fin n => ∑ a, vecMulVec (c a x) (star (c a x))) =
      ∑ A : Fin n → Fin 2, ((∏ t, w (A t)) * overlapNats (lam 0) (∏ t, s (A t)) + Real.negMulLog (∏ t, w (A t))) := by
  have hl2 : ∀ x, ((√(lam x) : ℝ) : ℂ) * ((√(lam x) : ℝ) : ℂ) = lam x := fun x => by
    rw [← Complex.ofReal_mul, Real.mul_self_sqrt (hl x)]
  have hG : ∀ i k, wordCols (n := n) c lam i k = ((√(lam k.1) : ℝ) : ℂ) * ∏ t, c (k.2 t) k.1 (digit i t) := fun _ _ => rfl
  generalize wordCols (n := n) c lam = G at hG
  have e1 : (∑ x, (lam x : ℂ) • tensorProd fun _ : Fin n => ∑ a, vecMulVec (c a x) (star (c a x))) = G * Gᴴ := by
    ext i j
    rw [Matrix.sum_apply, Matrix.mul_apply, Fintype.sum_prod_type]
    refine Finset.sum_congr rfl fun x _ => ?_
    rw [Matrix.smul_apply, tensorProd]
    simp only [Matrix.sum_apply]
    rw [prod_sum_pi, smul_eq_mul, Finset.mul_sum]
    refine Finset.sum_congr rfl fun A _ => ?_
    simp only [hG, conjTranspose_apply, vecMulVec_apply, Pi.star_apply, star_mul', star_prod, Complex.star_def, Complex.conj_ofReal,
      Finset.prod_mul_distrib]
    rw [← hl2 x]
    ring
  have e2 : Gᴴ * G = blockDiagonal fun A : Fin n → Fin 2 =>
      ((∏ t, w (A t) : ℝ) : ℂ) • overlapMat lam (∏ t, s (A t)) := by
    ext ⟨x, A⟩ ⟨y, B⟩
    rw [Matrix.mul_apply, blockDiagonal_apply]
    have : ∀ i, Gᴴ (x, A) i * G i (y, B) = ((√(lam x) : ℝ) : ℂ) * ((√(lam y) : ℝ) : ℂ) *
        ∏ t, (star (c (A t) x (digit i t)) * c (B t) y (digit i t)) := by
      intro i
      simp only [hG, conjTranspose_apply, star_mul', star_prod, Complex.star_def, Complex.conj_ofReal, Finset.prod_mul_distrib]
      ring
    simp only [this]
    rw [← Finset.mul_sum, sum_digits (fun d => ∏ t, (star (c (A t) x (d t)) * c (B t) y (d t))),
      ← prod_sum_pi (fun t i => star (c (A t) x i) * c (B t) y i)]
    simp only [gram]
    by_cases hAB : A = B
    · subst hAB
      simp only [if_true]
      rw [Matrix.smul_apply, overlapMat, smul_eq_mul, ← Complex.ofReal_prod, ← Complex.ofReal_mul, ← Complex.ofReal_mul,
        ← Complex.ofReal_mul, Finset.prod_mul_distrib]
      congr 1
      have : (∏ t, if x = y then (1 : ℝ) else s (A t)) = if x = y then 1 else ∏ t, s (A t) := by
        split_ifs <;> simp
      rw [this]
      ring
    · rw [if_neg hAB]
      obtain ⟨t, ht⟩ := Function.ne_iff.mp hAB
      rw [Finset.prod_eq_zero (Finset.mem_univ t) (if_neg ht), mul_zero]
  have hs' : ∀ A : Fin n → Fin 2, (∏ t, s (A t)) ^ 2 ≤ 1 := fun A => by
    rw [← Finset.prod_pow]
    exact Finset.prod_le_one (fun _ _ => sq_nonneg _) fun t _ => hs _
  have hw' : ∀ A : Fin n → Fin 2, 0 ≤ ∏ t, w (A t) := fun A => Finset.prod_nonneg fun t _ => hw _
  rw [e1, specSum_gram G Real.negMulLog_zero, e2, blockDiagonal_specSum
    (fun A => (overlapMat_psd hl (hs' A)).smul (by exact_mod_cast hw' A)) Real.negMulLog_zero]
  refine Finset.sum_congr rfl fun A _ => ?_
  rw [specSum_smul (overlapMat_psd hl (hs' A)) (overlapMat_trace hl h1 _) (hw' A), overlapMat_entropy hl h1 (hs' A)]

theorem prod_pick {n : ℕ} (s : Fin 2 → ℝ) (z : Fin 2) (hz : ∀ a, a ≠ z → s a = 0) (A : Fin n → Fin 2) (hA : A ≠ fun _ => z) :
    ∏ t, s (A t) = 0 := by
  obtain ⟨t, ht⟩ := Function.ne_iff.mp hA
  exact Finset.prod_eq_zero (Finset.mem_univ t) (hz _ ht)

/-- If only one letter has overlap, only one word has. -/
theorem one_word {n : ℕ} (w s : Fin 2 → ℝ) (hw : w 0 + w 1 = 1) (z : Fin 2) (hz : ∀ a, a ≠ z → s a = 0) (t : ℝ) :
    ∑ A : Fin n → Fin 2, (∏ t, w (A t)) * overlapNats t (∏ t, s (A t)) =
      (1 - w z ^ n) * choiceNats t + w z ^ n * overlapNats t (s z ^ n) := by
  have tot : ∑ A : Fin n → Fin 2, ∏ t, w (A t) = 1 := by
    have := prod_sum_pi (fun (_ : Fin n) a => ((w a : ℝ) : ℂ))
    rw [Fin.sum_univ_two, ← Complex.ofReal_add, hw, Complex.ofReal_one, Finset.prod_const_one] at this
    exact_mod_cast this.symm
  have hzz : ∀ v : Fin 2 → ℝ, ∏ _t : Fin n, v z = v z ^ n := fun v => by simp
  have : ∀ A : Fin n → Fin 2, (∏ t, w (A t)) * overlapNats t (∏ t, s (A t)) = (∏ t, w (A t)) * choiceNats t +
      if A = (fun _ => z) then w z ^ n * (overlapNats t (s z ^ n) - choiceNats t) else 0 := by
    intro A
    split_ifs with h
    · subst h
      rw [hzz, hzz]
      ring
    · rw [prod_pick s z hz A h, overlapNats_zero, add_zero]
  simp only [this]
  rw [Finset.sum_add_distrib, ← Finset.sum_mul, tot, Finset.sum_ite_eq' Finset.univ]
  simp only [Finset.mem_univ, if_true]
  ring

/-! ### The channel -/

variable {p q : ℝ}

theorem dephrasure_tp (p0 : 0 ≤ p) (p1 : p ≤ 1) (q0 : 0 ≤ q) (q1 : q ≤ 1) : TracePreserving (dephrasure p q) := by
  have e0 := amp_mul_self p0
  have e1 := amp_mul_self (sub_nonneg.mpr p1)
  have e2 := amp_mul_self q0
  have e3 := amp_mul_self (sub_nonneg.mpr q1)
  push_cast at e1 e3
  rw [tp_apply]
  intro i j
  fin_cases i <;> fin_cases j <;>
    simp [dephrasure, Fin.sum_univ_four, Fin.sum_univ_three, amp_conj, amp_mul (sub_nonneg.mpr p1),
      amp_mul (sub_nonneg.mpr q1)] <;>
    linear_combination amp (1 - q) * amp (1 - q) * (e0 + e1) + e2 + e3

/-- The vectors of the output. -/
noncomputable def outVec (q : ℝ) : Fin 2 → Fin 2 → Fin 3 → ℂ :=
  ![![![amp (1 - q), 0, 0], ![0, amp (1 - q), 0]], ![![0, 0, amp q], ![0, 0, amp q]]]

/-- The vectors of the environment. -/
noncomputable def envVec (p q : ℝ) : Fin 2 → Fin 2 → Fin 4 → ℂ :=
  ![![![amp (1 - q) * amp (1 - p), amp (1 - q) * amp p, 0, 0], ![amp (1 - q) * amp (1 - p), -(amp (1 - q) * amp p), 0, 0]],
    ![![0, 0, amp q, 0], ![0, 0, 0, amp q]]]

/-- The state `|x><x|`. -/
noncomputable def basisState (x : Fin 2) : Matrix (Fin 2) (Fin 2) ℂ := fun i j => if i = x ∧ j = x then 1 else 0

theorem dephrasure_out (p0 : 0 ≤ p) (p1 : p ≤ 1) (q1 : q ≤ 1) (x : Fin 2) :
    applyKraus (dephrasure p q) (basisState x) = ∑ a, vecMulVec (outVec q a x) (star (outVec q a x)) := by
  have e0 := amp_mul_self p0
  have e1 := amp_mul_self (sub_nonneg.mpr p1)
  push_cast at e1
  ext i j
  rw [applyKraus_apply, Matrix.sum_apply, Fin.sum_univ_two]
  fin_cases x <;> fin_cases i <;> fin_cases j <;>
    simp [dephrasure, basisState, outVec, Fin.sum_univ_four, Fin.sum_univ_two, amp_conj, amp_mul (sub_nonneg.mpr p1),
      amp_mul (sub_nonneg.mpr q1), vecMulVec_apply] <;>
    linear_combination amp (1 - q) * amp (1 - q) * (e0 + e1)

theorem dephrasure_env (p1 : p ≤ 1) (q1 : q ≤ 1) (x : Fin 2) :
    entropyExchange (dephrasure p q) (basisState x) = ∑ a, vecMulVec (envVec p q a x) (star (envVec p q a x)) := by
  ext i j
  rw [exchange_apply, Matrix.sum_apply, Fin.sum_univ_two]
  fin_cases x <;> fin_cases i <;> fin_cases j <;>
    simp [-mul_eq_mul_left_iff, -mul_eq_mul_right_iff, dephrasure, basisState, envVec, Fin.sum_univ_three, Fin.sum_univ_two, amp_conj, amp_mul (sub_nonneg.mpr p1),
      amp_mul (sub_nonneg.mpr q1), vecMulVec_apply] <;>
    ring

/-- The state with weight `lam x` on "all systems are `x`". -/
noncomputable def catState (n : ℕ) (lam : Fin 2 → ℝ) : Matrix (Fin (2 ^ n)) (Fin (2 ^ n)) ℂ :=
  ∑ x, (lam x : ℂ) • tensorProd fun _ : Fin n => basisState x

theorem dephrasure_cat (p0 : 0 ≤ p) (p1 : p ≤ 1) (q0 : 0 ≤ q) (q1 : q ≤ 1) (n : ℕ) {lam : Fin 2 → ℝ} (hl : ∀ x, 0 ≤ lam x)
    (h1 : lam 0 + lam 1 = 1) : krausInfo (tensorPow (dephrasure p q) n) (catState n lam) =
      ((1 - q) ^ n - q ^ n) * choiceNats (lam 0) - (1 - q) ^ n * overlapNats (lam 0) ((1 - 2 * p) ^ n) := by
  have e0 := amp_mul_self p0
  have e1 := amp_mul_self (sub_nonneg.mpr p1)
  have e2 := amp_mul_self q0
  have e3 := amp_mul_self (sub_nonneg.mpr q1)
  push_cast at e1 e3
  have hw : ∀ a, 0 ≤ (![1 - q, q] : Fin 2 → ℝ) a := by
    intro a
    fin_cases a
    · exact sub_nonneg.mpr q1
    · exact q0
  have hw1 : (![1 - q, q] : Fin 2 → ℝ) 0 + (![1 - q, q] : Fin 2 → ℝ) 1 = 1 := by simp
  have o1 : applyKraus (tensorPow (dephrasure p q) n) (catState n lam) =
      ∑ x, (lam x : ℂ) • tensorProd fun _ : Fin n => ∑ a, vecMulVec (outVec q a x) (star (outVec q a x)) := by
    unfold catState
    rw [Fin.sum_univ_two, Fin.sum_univ_two, applyKraus_add, applyKraus_smul, applyKraus_smul, applyKraus_tensor,
      applyKraus_tensor]
    simp only [dephrasure_out p0 p1 q1]
  have o2 : entropyExchange (tensorPow (dephrasure p q) n) (catState n lam) =
      ∑ x, (lam x : ℂ) • tensorProd fun _ : Fin n => ∑ a, vecMulVec (envVec p q a x) (star (envVec p q a x)) := by
    unfold catState
    rw [exchange_tensorPow, Fin.sum_univ_two, Fin.sum_univ_two, applyKraus_add, applyKraus_smul, applyKraus_smul,
      applyKraus_tensor, applyKraus_tensor]
    simp only [applyKraus_compl, dephrasure_env p1 q1]
  unfold krausInfo
  rw [o1, o2, two_states (outVec q) ![1 - q, q] ![0, 1] hl h1 hw (by intro a; fin_cases a <;> simp) ?_,
    two_states (envVec p q) ![1 - q, q] ![1 - 2 * p, 0] hl h1 hw ?_ ?_]
  · rw [Finset.sum_add_distrib, Finset.sum_add_distrib, one_word ![1 - q, q] ![0, 1] hw1 1 (by intro a ha; fin_cases a <;> simp_all) (lam 0),
      one_word ![1 - q, q] ![1 - 2 * p, 0] hw1 0 (by intro a ha; fin_cases a <;> simp_all) (lam 0)]
    simp only [cons_val_zero, cons_val_one, one_pow, overlapNats_one]
    ring
  · intro a
    fin_cases a
    · show (1 - 2 * p) ^ 2 ≤ 1
      nlinarith
    · simp
  · intro a x b y
    rw [Fin.sum_univ_four]
    fin_cases a <;> fin_cases x <;> fin_cases b <;> fin_cases y <;> simp [envVec, amp_conj] <;>
      first
      | exact e2
      | linear_combination amp (1 - q) * amp (1 - q) * (e0 + e1) + e3
      | linear_combination amp (1 - q) * amp (1 - q) * (e1 - e0) + (1 - 2 * (p : ℂ)) * e3
  · intro a x b y
    rw [Fin.sum_univ_three]
    fin_cases a <;> fin_cases x <;> fin_cases b <;> fin_cases y <;> simp [outVec, amp_conj] <;>
      first | exact e2 | exact e3

theorem basisState_psd (x : Fin 2) : IsDensity (basisState x) := by
  have : basisState x = diagonal (fun i => (((if i = x then 1 else 0 : ℝ)) : ℂ)) := by
    ext i j
    fin_cases x <;> fin_cases i <;> fin_cases j <;> simp [basisState]
  constructor
  · rw [this]
    exact posSemidef_diagonal_iff.mpr fun i => by split_ifs <;> simp
  · fin_cases x <;> simp [trace, basisState, Fin.sum_univ_two]

theorem catState_apply {n : ℕ} (lam : Fin 2 → ℝ) (i j : Fin (2 ^ n)) : catState n lam i j =
    ∑ x, if (digit i = fun _ => x) ∧ (digit j = fun _ => x) then ((lam x : ℝ) : ℂ) else 0 := by
  unfold catState
  rw [Matrix.sum_apply]
  refine Finset.sum_congr rfl fun x _ => ?_
  rw [Matrix.smul_apply, tensorProd, smul_eq_mul]
  split_ifs with h
  · obtain ⟨h1, h2⟩ := h
    rw [Finset.prod_eq_one, mul_one]
    intro t _
    simp [basisState, h1, h2]
  · have : ∃ t, ¬ (digit i t = x ∧ digit j t = x) := by
      by_contra hc
      push Not at hc
      exact h ⟨funext fun t => (hc t).1, funext fun t => (hc t).2⟩
    obtain ⟨t, ht⟩ := this
    rw [Finset.prod_eq_zero (Finset.mem_univ t), mul_zero]
    simp [basisState, ht]

theorem digits_zero {m n : ℕ} [NeZero m] (i : Fin (m ^ n)) : (digit i = fun _ => 0) ↔ (i : ℕ) = 0 := by
  constructor
  · intro h
    have h0 : digit (⟨0, Nat.pow_pos (NeZero.pos m)⟩ : Fin (m ^ n)) = fun _ => 0 := by
      funext t
      apply Fin.ext
      simp [digit]
    exact congrArg Fin.val (digit_injective (h.trans h0.symm))
  · intro h
    funext t
    apply Fin.ext
    simp [digit, h]

theorem digits_one {n : ℕ} (i : Fin (2 ^ n)) : (digit i = fun _ => (1 : Fin 2)) ↔ (i : ℕ) = 2 ^ n - 1 := by
  have hlast : digit (⟨2 ^ n - 1, Nat.sub_lt (Nat.two_pow_pos n) one_pos⟩ : Fin (2 ^ n)) = fun _ => (1 : Fin 2) := by
    funext t
    apply Fin.ext
    show (2 ^ n - 1) / 2 ^ (n - 1 - t) % 2 = 1
    have := Nat.testBit_two_pow_sub_one n (n - 1 - t)
    rw [Nat.testBit_eq_decide_div_mod_eq] at this
    have ht : n - 1 - (t : ℕ) < n := by omega
    simpa [ht] using this
  constructor
  · intro h
    exact congrArg Fin.val (digit_injective (h.trans hlast.symm))
  · intro h
    rw [← hlast]
    congr 1
    exact Fin.ext h

theorem catState_density {n : ℕ} {lam : Fin 2 → ℝ} (hl : ∀ x, 0 ≤ lam x) (h1 : lam 0 + lam 1 = 1) :
    IsDensity (catState n lam) := by
  constructor
  · exact posSemidef_sum _ fun x _ => (tensorProd_psd fun _ => (basisState_psd x).1).smul (by exact_mod_cast hl x)
  · unfold catState
    rw [trace_sum, Fin.sum_univ_two]
    simp only [trace_smul, tensorProd_trace, (basisState_psd _).2, Finset.prod_const_one, smul_eq_mul, mul_one]
    exact_mod_cast h1

end PyQ
