import Verif.Props.Channel
import Mathlib.Analysis.InnerProductSpace.Positive

/-!
# C94: the trace error of an accepted channel
-/

namespace PyQ

open Matrix
open scoped ComplexOrder

/-- Off-diagonal entries of a positive semidefinite matrix are bounded by the mean of the diagonal entries. -/
theorem posSemidef_entry_le {ι : Type} [Fintype ι] [DecidableEq ι] {ρ : Matrix ι ι ℂ} (h : ρ.PosSemidef) (x y : ι) :
    2 * ‖ρ x y‖ ≤ (ρ x x).re + (ρ y y).re := by
  obtain ⟨l, v, rfl⟩ := posSemidef_iff_eq_sum_vecMulVec.mp h
  have hre : ∀ z, ((∑ k, vecMulVec (v k) (star (v k))) z z).re = ∑ k, ‖v k z‖ ^ 2 := by
    intro z
    rw [Matrix.sum_apply, Complex.re_sum]
    refine Finset.sum_congr rfl fun k _ => ?_
    rw [vecMulVec_apply, Pi.star_apply, show star (v k z) = (starRingEnd ℂ) (v k z) from rfl, Complex.mul_conj,
      Complex.ofReal_re, Complex.normSq_eq_norm_sq]
  rw [hre, hre, Matrix.sum_apply, ← Finset.sum_add_distrib]
  calc 2 * ‖∑ k, vecMulVec (v k) (star (v k)) x y‖ ≤ 2 * ∑ k, ‖vecMulVec (v k) (star (v k)) x y‖ := by
        gcongr
        exact norm_sum_le _ _
    _ = ∑ k, 2 * (‖v k x‖ * ‖v k y‖) := by
        rw [Finset.mul_sum]
        refine Finset.sum_congr rfl fun k _ => ?_
        rw [vecMulVec_apply, norm_mul, Pi.star_apply, norm_star]
    _ ≤ _ := Finset.sum_le_sum fun k _ => by nlinarith [sq_nonneg (‖v k x‖ - ‖v k y‖)]

/-- A Hermitian matrix whose rows have sums of absolute values at most `c` has expectation values at most `c`. -/
theorem trace_mul_le {ι : Type} [Fintype ι] [DecidableEq ι] {M ρ : Matrix ι ι ℂ} {c : ℝ} (hM : M.IsHermitian)
    (hc : ∀ x, ∑ y, ‖M x y‖ ≤ c) (h : ρ.PosSemidef) : ‖trace (M * ρ)‖ ≤ c * (trace ρ).re := by
  have hsym : ∀ x y, ‖M x y‖ = ‖M y x‖ := by
    intro x y
    rw [← hM.apply x y, norm_star]
  have hd : ∀ x, 0 ≤ (ρ x x).re := by
    intro x
    have := posSemidef_entry_le h x x
    have := norm_nonneg (ρ x x)
    linarith
  have h1 : 2 * ‖trace (M * ρ)‖ ≤ ∑ x, ∑ y, ‖M x y‖ * ((ρ x x).re + (ρ y y).re) := by
    simp only [trace, diag_apply, Matrix.mul_apply]
    calc 2 * ‖∑ x, ∑ y, M x y * ρ y x‖ ≤ 2 * ∑ x, ∑ y, ‖M x y * ρ y x‖ := by
          gcongr
          exact (norm_sum_le _ _).trans (Finset.sum_le_sum fun x _ => norm_sum_le _ _)
      _ = ∑ x, ∑ y, ‖M x y‖ * (2 * ‖ρ y x‖) := by
          rw [Finset.mul_sum]
          refine Finset.sum_congr rfl fun x _ => ?_
          rw [Finset.mul_sum]
          refine Finset.sum_congr rfl fun y _ => ?_
          rw [norm_mul]
          ring
      _ ≤ _ := Finset.sum_le_sum fun x _ => Finset.sum_le_sum fun y _ => by
          have := posSemidef_entry_le h y x
          exact mul_le_mul_of_nonneg_left (by linarith) (norm_nonneg _)
  have h2 : ∑ x, ∑ y, ‖M x y‖ * ((ρ x x).re + (ρ y y).re) = 2 * ∑ x, (∑ y, ‖M x y‖) * (ρ x x).re := by
    simp only [mul_add, Finset.sum_add_distrib]
    rw [Finset.sum_comm (f := fun x y => ‖M x y‖ * (ρ y y).re)]
    rw [two_mul]
    simp only [Finset.sum_mul]
    congr 1
    exact Finset.sum_congr rfl fun x _ => Finset.sum_congr rfl fun y _ => by rw [hsym]
  have h3 : ∑ x, (∑ y, ‖M x y‖) * (ρ x x).re ≤ c * (trace ρ).re := by
    rw [trace, Complex.re_sum, Finset.mul_sum]
    exact Finset.sum_le_sum fun x _ => mul_le_mul_of_nonneg_right (hc x) (hd x)
  linarith

theorem prod_sub_prod_le {ι : Type} (s : Finset ι) (a b : ι → ℂ) :
    ‖∏ i ∈ s, a i - ∏ i ∈ s, b i‖ ≤ ∏ i ∈ s, (‖b i‖ + ‖a i - b i‖) - ∏ i ∈ s, ‖b i‖ := by
  classical
  induction s using Finset.induction_on with
  | empty => simp
  | insert i s hi ih =>
    rw [Finset.prod_insert hi, Finset.prod_insert hi, Finset.prod_insert hi, Finset.prod_insert hi]
    have e : a i * ∏ j ∈ s, a j - b i * ∏ j ∈ s, b j =
        b i * (∏ j ∈ s, a j - ∏ j ∈ s, b j) + (a i - b i) * ∏ j ∈ s, a j := by ring
    have h1 : ‖∏ j ∈ s, a j‖ ≤ ∏ j ∈ s, (‖b j‖ + ‖a j - b j‖) := by
      rw [norm_prod]
      refine Finset.prod_le_prod (fun j _ => norm_nonneg _) fun j _ => ?_
      calc ‖a j‖ = ‖b j + (a j - b j)‖ := by congr 1; ring
        _ ≤ _ := norm_add_le _ _
    rw [e]
    refine (norm_add_le _ _).trans ?_
    rw [norm_mul, norm_mul]
    have h2 := mul_le_mul_of_nonneg_left ih (norm_nonneg (b i))
    have h3 := mul_le_mul_of_nonneg_left h1 (norm_nonneg (a i - b i))
    nlinarith

/-- Row sums of the deviation of a tensor power from the identity. -/
theorem tensor_row_le {d n : ℕ} (E : Matrix (Fin d) (Fin d) ℂ) {ε : ℝ} (hE : ∀ i j, ‖(E - 1) i j‖ ≤ ε)
    (x : Fin (d ^ n)) :
    ∑ y, ‖(Spec.tensorProd (fun _ : Fin n => E) - 1) x y‖ ≤ (1 + d * ε) ^ n - 1 := by
  have hone : ∀ y, (1 : Matrix (Fin (d ^ n)) (Fin (d ^ n)) ℂ) x y =
      ∏ t, (1 : Matrix (Fin d) (Fin d) ℂ) (Spec.digit x t) (Spec.digit y t) := by
    intro y
    rw [← Spec.tensorProd_one (a := d) (n := n)]
    rfl
  have hnorm : ∀ i j : Fin d, ‖(1 : Matrix (Fin d) (Fin d) ℂ) i j‖ = if i = j then 1 else 0 := by
    intro i j
    rw [Matrix.one_apply]
    split_ifs <;> simp
  have h1 : ∀ y, ‖(Spec.tensorProd (fun _ : Fin n => E) - 1) x y‖ ≤
      ∏ t, ((if Spec.digit x t = Spec.digit y t then 1 else 0) + ε) -
        ∏ t, (if Spec.digit x t = Spec.digit y t then (1 : ℝ) else 0) := by
    intro y
    rw [Matrix.sub_apply, hone y]
    refine (prod_sub_prod_le Finset.univ _ _).trans ?_
    simp only [hnorm]
    gcongr with t
    exact hE _ _
  refine (Finset.sum_le_sum fun y _ => h1 y).trans ?_
  rw [Finset.sum_sub_distrib]
  have hs : ∀ g : Fin d → Fin d → ℝ, ∑ y : Fin (d ^ n), ∏ t, g (Spec.digit x t) (Spec.digit y t) =
      ∏ t, ∑ j, g (Spec.digit x t) j := by
    intro g
    rw [Spec.sum_digits (fun k => ∏ t, g (Spec.digit x t) (k t)), Finset.prod_univ_sum, Fintype.piFinset_univ]
  rw [hs (fun i j => (if i = j then 1 else 0) + ε), hs (fun i j => if i = j then 1 else 0)]
  simp [Finset.sum_add_distrib]

/-- The deviation of the trace after `n` uses. -/
theorem near_trace {l r c n : ℕ} {K : Fin l → Matrix (Fin r) (Fin c) ℂ} (h : Spec.NearlyTP K)
    {ρ : Matrix (Fin (c ^ n)) (Fin (c ^ n)) ℂ} (hρ : Spec.IsDensity ρ) :
    ‖trace (Spec.applyKraus (Spec.tensorPow K n) ρ) - 1‖ ≤ (1 + c / 10 ^ 5) ^ n - 1 := by
  have hE : ∑ k, (Spec.tensorPow K n k)ᴴ * Spec.tensorPow K n k =
      Spec.tensorProd fun _ : Fin n => ∑ k, (K k)ᴴ * K k := by
    unfold Spec.tensorPow
    simp only [Spec.tensorProd_conjTranspose, Spec.tensorProd_mul]
    rw [Spec.tensorProd_sum (fun _ k => (K k)ᴴ * K k)]
  have htr : trace (Spec.applyKraus (Spec.tensorPow K n) ρ) =
      trace ((Spec.tensorProd fun _ : Fin n => ∑ k, (K k)ᴴ * K k) * ρ) := by
    rw [← hE, Finset.sum_mul, trace_sum, Spec.applyKraus, trace_sum]
    exact Finset.sum_congr rfl fun k _ => Matrix.trace_mul_cycle _ _ _
  have hherm : (Spec.tensorProd (fun _ : Fin n => ∑ k, (K k)ᴴ * K k) - 1).IsHermitian := by
    refine IsHermitian.sub ?_ isHermitian_one
    unfold IsHermitian
    rw [Spec.tensorProd_conjTranspose]
    congr 1
    funext t
    rw [conjTranspose_sum]
    exact Finset.sum_congr rfl fun k _ => by rw [conjTranspose_mul, conjTranspose_conjTranspose]
  have hb := trace_mul_le hherm (tensor_row_le (n := n) (∑ k, (K k)ᴴ * K k) fun i j => (h i j).le) hρ.1
  rw [Matrix.sub_mul, Matrix.one_mul, trace_sub, hρ.2, ← htr, Complex.one_re, mul_one] at hb
  rw [div_eq_mul_one_div]
  exact hb

variable {sp : Bool} {ops : Arr3 ℂ} {a b d e : ℕ} {orth : List ℕ} {o : KrausObj}

/-- C94.  For every channel that the constructor accepts, whether it preserves the trace exactly or not, `channel(rho, n)`
of a density matrix is positive semidefinite and its trace differs from one by at most `(1 + D 1e-5) ^ n - 1`, where `D`
is the dimension of the input of one use: for every history and number of uses. -/
theorem C94_channel (h : QChan.init sp ops a b d e orth = .ok o) (calls : List QChan.Call) (n : ℕ)
    (hsafe : Spec.SafeUses sp (calls.map QChan.Call.uses ++ [n])) (rho : Arr ℂ) (hr : rho.rows = (d ^ a) ^ n)
    (hc : rho.cols = (d ^ a) ^ n) (hrho : Spec.IsDensity (rho.mat ((d ^ a) ^ n) ((d ^ a) ^ n))) :
    ∃ out, (QChan.channel (QChan.history o calls) rho n false).1 = .ok out ∧
      out.rows = (e ^ b) ^ n ∧ out.cols = (e ^ b) ^ n ∧ (out.mat ((e ^ b) ^ n) ((e ^ b) ^ n)).PosSemidef ∧
      ‖trace (out.mat ((e ^ b) ^ n) ((e ^ b) ^ n)) - 1‖ ≤ (1 + (d ^ a : ℕ) / 10 ^ 5) ^ n - 1 := by
  obtain ⟨out, h1, h2, h3, h4⟩ := api_channel h calls n hsafe rho hr hc
  refine ⟨out, h1, h2, h3, ?_, ?_⟩
  · rw [h4]
    exact Spec.applyKraus_posSemidef _ hrho.1
  · rw [h4]
    exact near_trace ((qchanInit_iff sp ops a b d e orth).mp ⟨o, h⟩).2.2.2 hrho

/-- C94.  The same for the environment: `entropy_exchange(rho, n)` is positive semidefinite with the same bound on its
trace. -/
theorem C94_exchange (h : QChan.init sp ops a b d e orth = .ok o) (ho : sp = true ∨ orth = [])
    (calls : List QChan.Call) (n : ℕ)
    (hsafe : Spec.SafeUses sp (calls.map QChan.Call.uses ++ [n])) (rho : Arr ℂ) (hr : rho.rows = (d ^ a) ^ n)
    (hc : rho.cols = (d ^ a) ^ n) (hrho : Spec.IsDensity (rho.mat ((d ^ a) ^ n) ((d ^ a) ^ n))) :
    ∃ W, (QChan.entropyExchange (QChan.history o calls) rho n).1 = .ok [W] ∧
      W.rows = ops.len ^ n ∧ W.cols = ops.len ^ n ∧ (W.mat (ops.len ^ n) (ops.len ^ n)).PosSemidef ∧
      ‖trace (W.mat (ops.len ^ n) (ops.len ^ n)) - 1‖ ≤ (1 + (d ^ a : ℕ) / 10 ^ 5) ^ n - 1 := by
  obtain ⟨out, h1, h2, h3, h4⟩ := api_exchange h ho calls n hsafe rho hr hc
  refine ⟨out, h1, h2, h3, ?_, ?_⟩
  · rw [h4]
    exact Spec.exchange_posSemidef _ hrho.1
  · rw [h4, Spec.exchange_trace]
    exact near_trace ((qchanInit_iff sp ops a b d e orth).mp ⟨o, h⟩).2.2.2 hrho

/-- C94.  The error does accumulate: there is an accepted channel of a qubit, not trace preserving, for which the
trace of `channel(rho, n)` is `(1 + 8e-6 + 16e-12) ^ n` for every density matrix `rho`. -/
theorem C94_accumulates : ∃ o, QChan.init false (scalOps (1 + 4 / 10 ^ 6)) 1 1 2 2 [] = .ok o ∧
    ∀ (calls : List QChan.Call) (n : ℕ), Spec.SafeUses false (calls.map QChan.Call.uses ++ [n]) → ∀ rho : Arr ℂ,
      rho.rows = (2 ^ 1) ^ n → rho.cols = (2 ^ 1) ^ n → Spec.IsDensity (rho.mat ((2 ^ 1) ^ n) ((2 ^ 1) ^ n)) →
      ∃ out, (QChan.channel (QChan.history o calls) rho n false).1 = .ok out ∧
        trace (out.mat ((2 ^ 1) ^ n) ((2 ^ 1) ^ n)) = (1 + 8 / 10 ^ 6 + 16 / 10 ^ 12) ^ n := by
  obtain ⟨o, ho⟩ := init_tp false (scalOps (1 + 4 / 10 ^ 6)) 1 1 2 2 [] (by decide) rfl rfl (by
    intro o ho
    rw [isTP_scalar o (1 + 4 / 10 ^ 6) (by rw [ho]; rfl) (by rw [ho]; rfl) (by rw [ho]; rfl)
      (by intro i _ j _; rw [ho]; rfl), abs_lt]
    constructor <;> norm_num)
  refine ⟨o, ho, fun calls n hsafe rho hr hc hrho => ?_⟩
  obtain ⟨out, h1, -, -, h4⟩ := api_channel ho calls n hsafe rho hr hc
  refine ⟨out, h1, ?_⟩
  rw [h4]
  generalize rho.mat ((2 ^ 1) ^ n) ((2 ^ 1) ^ n) = ρ at hrho
  have hK : ∀ k, (scalOps (1 + 4 / 10 ^ 6)).ops 1 (2 ^ 1) (2 ^ 1) k = (1 + 4 / 10 ^ 6 : ℂ) • 1 := by
    intro k
    ext i j
    simp only [scalOps, Arr3.ops, Matrix.smul_apply, Matrix.one_apply, Fin.ext_iff, smul_eq_mul, mul_ite, mul_one,
      mul_zero]
    push_cast
    rfl
  have hE : ∑ k, (Spec.tensorPow ((scalOps (1 + 4 / 10 ^ 6)).ops 1 (2 ^ 1) (2 ^ 1)) n k)ᴴ *
      Spec.tensorPow ((scalOps (1 + 4 / 10 ^ 6)).ops 1 (2 ^ 1) (2 ^ 1)) n k =
      ((1 + 8 / 10 ^ 6 + 16 / 10 ^ 12) ^ n : ℂ) • 1 := by
    unfold Spec.tensorPow
    simp only [Spec.tensorProd_conjTranspose, Spec.tensorProd_mul, hK]
    rw [Finset.sum_const, Finset.card_univ, Fintype.card_fin, one_pow, one_smul]
    have : ((1 + 4 / 10 ^ 6 : ℂ) • (1 : Matrix (Fin (2 ^ 1)) (Fin (2 ^ 1)) ℂ))ᴴ * ((1 + 4 / 10 ^ 6 : ℂ) • 1) =
        (1 + 8 / 10 ^ 6 + 16 / 10 ^ 12 : ℂ) • 1 := by
      rw [conjTranspose_smul, conjTranspose_one, smul_mul_smul_comm, Matrix.one_mul]
      congr 1
      simp only [star_add, star_one, star_div₀, star_pow, star_ofNat]
      norm_num
    rw [this, ← Spec.tensorProd_one (a := 2 ^ 1) (n := n)]
    ext x y
    simp only [Spec.tensorProd, Matrix.smul_apply, smul_eq_mul, Finset.prod_mul_distrib, Finset.prod_const,
      Finset.card_univ, Fintype.card_fin]
  change trace (Spec.applyKraus (Spec.tensorPow ((scalOps (1 + 4 / 10 ^ 6)).ops 1 (2 ^ 1) (2 ^ 1)) n) ρ) = _
  rw [Spec.applyKraus, trace_sum]
  have : ∀ k, trace (Spec.tensorPow ((scalOps (1 + 4 / 10 ^ 6)).ops 1 (2 ^ 1) (2 ^ 1)) n k * ρ *
      (Spec.tensorPow ((scalOps (1 + 4 / 10 ^ 6)).ops 1 (2 ^ 1) (2 ^ 1)) n k)ᴴ) =
      trace ((Spec.tensorPow ((scalOps (1 + 4 / 10 ^ 6)).ops 1 (2 ^ 1) (2 ^ 1)) n k)ᴴ *
        Spec.tensorPow ((scalOps (1 + 4 / 10 ^ 6)).ops 1 (2 ^ 1) (2 ^ 1)) n k * ρ) := fun k =>
    Matrix.trace_mul_cycle _ _ _
  rw [Finset.sum_congr rfl fun k _ => this k, ← trace_sum, ← Finset.sum_mul, hE, Matrix.smul_mul, Matrix.one_mul,
    trace_smul, hrho.2, smul_eq_mul, mul_one]

/-- The hypotheses of `C94_channel` and `C94_exchange` are met by a channel that does not preserve the trace, for two
uses. -/
example : ∃ (o : KrausObj) (rho : Arr ℂ), QChan.init false (scalOps (1 + 4 / 10 ^ 6)) 1 1 2 2 [] = .ok o ∧
    Spec.SafeUses false (([] : List QChan.Call).map QChan.Call.uses ++ [2]) ∧ rho.rows = (2 ^ 1) ^ 2 ∧
    rho.cols = (2 ^ 1) ^ 2 ∧ Spec.IsDensity (rho.mat ((2 ^ 1) ^ 2) ((2 ^ 1) ^ 2)) := by
  obtain ⟨o, ho, -⟩ := C94_accumulates
  refine ⟨o, Arr.ofMat (vecMulVec (Pi.single 0 1) (star (Pi.single 0 1))), ho, ⟨by simp, by simp⟩, rfl, rfl, ?_⟩
  rw [Arr.ofMat_mat]
  refine ⟨posSemidef_vecMulVec_self_star _, ?_⟩
  rw [trace_vecMulVec]
  simp

end PyQ
