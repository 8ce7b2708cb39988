import Verif.Spec.PauliNoise
import Verif.Lemmas.PartialTranspose
import Verif.Lemmas.StdChannels
import Verif.Lemmas.WorstFidelity

/-!
# Pauli channels without coherent information
-/

namespace PyQ

open Matrix Spec
open scoped ComplexOrder

/-! ### Transposed Pauli channels -/

theorem pauliNoise_entry {w : Fin 4 → ℝ} (h : ∀ i, 0 ≤ w i) (x y x' y' : Fin 2) :
    ∑ k, pauliNoise w k x y * star (pauliNoise w k x' y') = ∑ k, (w k : ℂ) * (pauliOp k x y * star (pauliOp k x' y')) := by
  refine Finset.sum_congr rfl fun k _ => ?_
  simp only [pauliNoise, Matrix.smul_apply, smul_eq_mul, star_mul', amp_star]
  rw [← amp_mul_self (h k)]
  ring

theorem pauliNoise_tp {w : Fin 4 → ℝ} (h : ∀ i, 0 ≤ w i) (h1 : ∑ i, w i = 1) : TracePreserving (pauliNoise w) := by
  have h1' : (w 0 + w 1 + w 2 + w 3 : ℂ) = 1 := by
    rw [Fin.sum_univ_four] at h1
    exact_mod_cast h1
  rw [tp_apply]
  intro i j
  have e : ∀ k (x : Fin 2), star (pauliNoise w k x i) * pauliNoise w k x j = (w k : ℂ) * (star (pauliOp k x i) * pauliOp k x j) := by
    intro k x
    simp only [pauliNoise, Matrix.smul_apply, smul_eq_mul, star_mul', amp_star]
    rw [← amp_mul_self (h k)]
    ring
  simp only [e]
  fin_cases i <;> fin_cases j <;> simp [pauliOp, Fin.sum_univ_four, Fin.sum_univ_two] <;> first | ring1 | linear_combination h1'

/-- Transposing the input of a Pauli channel exchanges its probabilities. -/
theorem pauli_transposed {w : Fin 4 → ℝ} (h : ∀ i, 0 ≤ w i) (h1 : ∑ i, w i = 1) (hw : ∀ i, w i ≤ 1 / 2) (x y x' y' : Fin 2) :
    ∑ k, pauliNoise w k x y * star (pauliNoise w k x' y') =
      ∑ k, pauliNoise ![1 / 2 - w 2, 1 / 2 - w 3, 1 / 2 - w 0, 1 / 2 - w 1] k x y' *
        star (pauliNoise ![1 / 2 - w 2, 1 / 2 - w 3, 1 / 2 - w 0, 1 / 2 - w 1] k x' y) := by
  have h1' : (w 0 + w 1 + w 2 + w 3 : ℂ) = 1 := by
    rw [Fin.sum_univ_four] at h1
    exact_mod_cast h1
  rw [pauliNoise_entry h, pauliNoise_entry fun i => by
    fin_cases i <;> simp <;> linarith [hw 0, hw 1, hw 2, hw 3]]
  fin_cases x <;> fin_cases y <;> fin_cases x' <;> fin_cases y' <;>
    simp [pauliOp, Fin.sum_univ_four] <;> first | ring1 | linear_combination h1'

/-- Pauli noise where no error, and not the absence of errors, is more probable than a half. -/
theorem pauli_useless {w : Fin 4 → ℝ} (h : ∀ i, 0 ≤ w i) (h1 : ∑ i, w i = 1) (hw : ∀ i, w i ≤ 1 / 2) (n : ℕ)
    {ρ : Matrix (Fin (2 ^ n)) (Fin (2 ^ n)) ℂ} (hρ : ρ.PosSemidef) : krausInfo (tensorPow (pauliNoise w) n) ρ ≤ 0 :=
  transposable_nonpos _ _ (transposable_pow _ _ (pauli_transposed h h1 hw) n) hρ

/-! ### Depolarizing noise -/

theorem depolarizing_eq (p : ℝ) : depolarizing p = pauliNoise ![1 - p, p / 3, p / 3, p / 3] := by
  funext k
  fin_cases k <;> rfl

/-- What the environment does to get the output of the depolarizing channel with error probability `1/4`. -/
noncomputable def cloneBack : Fin 2 → Matrix (Fin 2) (Fin 4) ℂ := fun a => of fun x k => amp (1 / 2) * pauliOp k x a

theorem cloneBack_tp : TracePreserving cloneBack := by
  rw [tp_apply]
  intro i j
  have h := amp_half
  have h' : ∀ u v : ℂ, star (amp (1 / 2) * u) * (amp (1 / 2) * v) = 1 / 2 * (star u * v) := by
    intro u v
    rw [star_mul', amp_star]
    linear_combination (star u * v) * h
  simp only [cloneBack, of_apply, h']
  fin_cases i <;> fin_cases j <;> simp [pauliOp, Fin.sum_univ_two] <;> norm_num

theorem cloneBack_restores (ρ : Matrix (Fin 2) (Fin 2) ℂ) :
    applyKraus cloneBack (entropyExchange (depolarizing (1 / 4)) ρ) = applyKraus (depolarizing (1 / 4)) ρ := by
  have h := amp_half
  have hb : amp (1 / 12) * amp (1 / 12) = 1 / 12 := by
    rw [amp_mul_self (by norm_num)]; norm_num
  have ha : amp (1 - 1 / 4) = amp (1 / 12) * 3 := by
    have : (1 - 1 / 4 : ℝ) = 1 / 12 * 9 := by norm_num
    rw [this, amp_mul (by norm_num)]
    congr 1
    unfold amp
    rw [show (9 : ℝ) = 3 ^ 2 by norm_num, Real.sqrt_sq (by norm_num)]
    norm_num
  have hK : ∀ k x y, depolarizing (1 / 4) k x y = amp (1 / 12) * (![3, 1, 1, 1] k * pauliOp k x y) := by
    intro k x y
    rw [depolarizing_eq]
    have e3 : (1 / 4 / 3 : ℝ) = 1 / 12 := by norm_num
    fin_cases k <;> simp [pauliNoise, Matrix.smul_apply, e3, -one_div]
    rw [ha]
    ring
  have hW : ∀ i i', entropyExchange (depolarizing (1 / 4)) ρ i i' = 1 / 12 * ∑ x, ∑ y', (∑ y, ![3, 1, 1, 1] i * pauliOp i x y * ρ y y') *
      star (![3, 1, 1, 1] i' * pauliOp i' x y') := by
    intro i i'
    rw [exchange_apply, ← hb]
    simp only [hK, Finset.mul_sum, Finset.sum_mul, star_mul', amp_star]
    refine Finset.sum_congr rfl fun x _ => Finset.sum_congr rfl fun y' _ => Finset.sum_congr rfl fun y _ => ?_
    ring
  rw [depolarizing_out (by norm_num) (by norm_num)]
  ext x x'
  have hD : applyKraus cloneBack (entropyExchange (depolarizing (1 / 4)) ρ) x x' =
      1 / 2 * ∑ a, ∑ k', (∑ k, pauliOp k x a * entropyExchange (depolarizing (1 / 4)) ρ k k') * star (pauliOp k' x' a) := by
    rw [applyKraus_apply, ← h]
    simp only [cloneBack, of_apply, Finset.mul_sum, Finset.sum_mul, star_mul', amp_star]
    refine Finset.sum_congr rfl fun x _ => Finset.sum_congr rfl fun y' _ => Finset.sum_congr rfl fun y _ => ?_
    ring
  rw [hD]
  simp only [hW, Fin.sum_univ_two, Fin.sum_univ_four]
  fin_cases x <;> fin_cases x' <;> simp [pauliOp, trace, Fin.sum_univ_two] <;> ring_nf <;> simp [Complex.I_sq] <;> ring

/-- Depolarizing noise, then more of it. -/
theorem depolarizing_comp {p q : ℝ} (h0 : 0 ≤ p) (h1 : p ≤ 1) (q0 : 0 ≤ q) (q1 : q ≤ 1) {r : ℝ} (r0 : 0 ≤ r) (r1 : r ≤ 1)
    (hr : (1 - 4 * q / 3) * (1 - 4 * p / 3) = 1 - 4 * r / 3) (ρ : Matrix (Fin 2) (Fin 2) ℂ) :
    applyKraus (depolarizing r) ρ = applyKraus (depolarizing q) (applyKraus (depolarizing p) ρ) := by
  have t : trace (applyKraus (depolarizing p) ρ) = trace ρ := Spec.applyKraus_trace _ (depolarizing_tp h0 h1) ρ
  rw [depolarizing_out r0 r1, depolarizing_out q0 q1, t, depolarizing_out h0 h1]
  have hr' : (1 - 4 * q / 3 : ℂ) * (1 - 4 * p / 3) = 1 - 4 * r / 3 := by exact_mod_cast hr
  rw [smul_add, smul_smul, smul_smul, hr', add_assoc, ← add_smul]
  congr 2
  linear_combination (trace ρ / 2) * hr'

theorem depolarizing_useless {p : ℝ} (h0 : 1 / 4 ≤ p) (h1 : p ≤ 1) (n : ℕ) {ρ : Matrix (Fin (2 ^ n)) (Fin (2 ^ n)) ℂ}
    (hρ : ρ.PosSemidef) : krausInfo (tensorPow (depolarizing p) n) ρ ≤ 0 := by
  by_cases hp : p ≤ 1 / 2
  · have key := antidegradable_nonpos _ (tensorPow_tp _ n cloneBack_tp) _ (antidegradable_pow _ _ cloneBack_restores n) hρ
    refine (krausInfo_data_processing (tensorPow (depolarizing (3 * (4 * p - 1) / 8)) n)
      (tensorPow_tp _ n (depolarizing_tp (by linarith) (by linarith))) (tensorPow (depolarizing (1 / 4)) n)
      (tensorPow (depolarizing p) n) (fun σ => ?_) hρ).trans key
    rw [← applyKraus_comp_pow]
    refine Spec.sameChannel_tensorPow (fun σ => ?_) n σ
    rw [depolarizing_comp (p := 1 / 4) (q := 3 * (4 * p - 1) / 8) (by norm_num) (by norm_num) (by linarith) (by linarith)
      (by linarith) h1 (by ring)]
    unfold applyKraus
    simp only [Matrix.mul_sum, Matrix.sum_mul]
    rw [← sum_finProd fun i j => (depolarizing (3 * (4 * p - 1) / 8) i) * ((depolarizing (1 / 4) j) * σ *
      (depolarizing (1 / 4) j)ᴴ) * (depolarizing (3 * (4 * p - 1) / 8) i)ᴴ]
    simp only [conjTranspose_mul, Matrix.mul_assoc]
  · rw [depolarizing_eq]
    refine pauli_useless (fun i => ?_) ?_ (fun i => ?_) n hρ
    · fin_cases i <;> simp <;> linarith
    · simp [Fin.sum_univ_four]; ring
    · fin_cases i <;> simp <;> linarith

end PyQ
