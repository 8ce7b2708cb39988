import Verif.Lemmas.StdChannels
import Verif.Props.StdChannels
import Verif.Lemmas.Nearby
import Verif.Lemmas.Dephrasure
import Mathlib.Analysis.Subadditive

/-! Lemmas for C126: blocks of uses. -/

namespace PyQ

open Matrix Spec
open scoped ComplexOrder

/-! ### Renumbering -/

section
variable {m κ R m' κ' R' : Type} [Fintype m] [Fintype κ] [Fintype R] [DecidableEq m] [DecidableEq κ] [DecidableEq R]
  [Fintype m'] [Fintype κ'] [Fintype R'] [DecidableEq m'] [DecidableEq κ'] [DecidableEq R']

theorem krausInfo_reindex (e₁ : κ' ≃ κ) (e₂ : m' ≃ m) (e₃ : R' ≃ R) (K : κ → Matrix m R ℂ) {X : Matrix R R ℂ} (hX : X.PosSemidef) :
    krausInfo (fun k => (K (e₁ k)).submatrix e₂ e₃) (X.submatrix e₃ e₃) = krausInfo K X := by
  have h1 : ∀ i j, (K i).submatrix e₂ e₃ * X.submatrix e₃ e₃ * ((K j).submatrix e₂ e₃)ᴴ = (K i * X * (K j)ᴴ).submatrix e₂ e₂ := by
    intro i j
    rw [conjTranspose_submatrix, submatrix_mul_equiv, submatrix_mul_equiv]
  have a1 : applyKraus (fun k => (K (e₁ k)).submatrix e₂ e₃) (X.submatrix e₃ e₃) = (applyKraus K X).submatrix e₂ e₂ := by
    unfold applyKraus
    simp only [h1]
    rw [e₁.sum_comp fun k => (K k * X * (K k)ᴴ).submatrix e₂ e₂]
    ext i j
    simp [Matrix.sum_apply]
  have a2 : entropyExchange (fun k => (K (e₁ k)).submatrix e₂ e₃) (X.submatrix e₃ e₃) = (entropyExchange K X).submatrix e₁ e₁ := by
    ext i j
    show trace _ = trace _
    rw [h1]
    unfold trace
    exact e₂.sum_comp fun x => (K (e₁ i) * X * (K (e₁ j))ᴴ) x x
  unfold krausInfo
  rw [a1, a2, specSum_submatrix e₂ (applyKraus_posSemidef K hX) Real.negMulLog_zero,
    specSum_submatrix e₁ (exchange_posSemidef K hX) Real.negMulLog_zero]

end

/-! ### Products of two systems -/

theorem kron_trace {a b : ℕ} (A : Matrix (Fin a) (Fin a) ℂ) (B : Matrix (Fin b) (Fin b) ℂ) : trace (kron A B) = trace A * trace B := by
  unfold trace
  simp only [diag_apply, kron]
  rw [sum_finProd fun i j => A i i * B j j, Finset.sum_mul_sum]

theorem kron_posSemidef {a b : ℕ} {A : Matrix (Fin a) (Fin a) ℂ} {B : Matrix (Fin b) (Fin b) ℂ} (hA : A.PosSemidef) (hB : B.PosSemidef) :
    (kron A B).PosSemidef := by
  obtain ⟨C, rfl⟩ := psd_factor hA
  obtain ⟨D, rfl⟩ := psd_factor hB
  rw [← kron_mul, ← kron_conjTranspose]
  exact posSemidef_conjTranspose_mul_self _

theorem kron_density {a b : ℕ} {A : Matrix (Fin a) (Fin a) ℂ} {B : Matrix (Fin b) (Fin b) ℂ} (hA : IsDensity A) (hB : IsDensity B) :
    IsDensity (kron A B) :=
  ⟨kron_posSemidef hA.1 hB.1, by rw [kron_trace, hA.2, hB.2, one_mul]⟩

theorem eigen_sum {a : ℕ} {A V : Matrix (Fin a) (Fin a) ℂ} {w : Fin a → ℝ} (h : Eigen A V w) (hA : trace A = 1) : ∑ i, w i = 1 := by
  rw [h.eq, trace_mul_cycle, h.left, Matrix.one_mul, trace_diagonal] at hA
  exact_mod_cast hA

theorem specSum_kron {a b : ℕ} {A : Matrix (Fin a) (Fin a) ℂ} {B : Matrix (Fin b) (Fin b) ℂ} (hA : IsDensity A) (hB : IsDensity B) :
    specSum Real.negMulLog (kron A B) = specSum Real.negMulLog A + specSum Real.negMulLog B := by
  obtain ⟨V, v, hv, hvc⟩ := exists_eigen hA.1
  obtain ⟨W, w, hw, hwc⟩ := exists_eigen hB.1
  have e : kron A B = kron V W * diagonal (fun i : Fin (a * b) => ((v i.divNat * w i.modNat : ℝ) : ℂ)) * (kron V W)ᴴ := by
    have hd : diagonal (fun i : Fin (a * b) => ((v i.divNat * w i.modNat : ℝ) : ℂ)) =
        kron (diagonal fun i => (v i : ℂ)) (diagonal fun i => (w i : ℂ)) := by
      ext i j
      unfold kron
      by_cases h : i = j
      · subst h; simp
      · rw [diagonal_apply_ne _ h]
        by_cases h1 : i.divNat = j.divNat
        · have h2 : i.modNat ≠ j.modNat := fun h2 => h (finProdFinEquiv.symm.injective (Prod.ext h1 h2))
          rw [diagonal_apply_ne _ h2, mul_zero]
        · rw [diagonal_apply_ne _ h1, zero_mul]
    rw [hd, kron_conjTranspose, kron_mul, kron_mul, ← hv.eq, ← hw.eq]
  have hU : (kron V W)ᴴ * kron V W = 1 := by
    rw [kron_conjTranspose, kron_mul, hv.left, hw.left, kron_one]
  rw [e, specSum_conj (posSemidef_diagonal_iff.mpr fun i => by exact_mod_cast mul_nonneg (hv.nonneg _) (hw.nonneg _)) hU Real.negMulLog_zero,
    specSum_diagonal (fun i => mul_nonneg (hv.nonneg _) (hw.nonneg _)) Real.negMulLog_zero,
    specSum_eq hA.1 hvc Real.negMulLog_zero, specSum_eq hB.1 hwc Real.negMulLog_zero]
  simp only [Real.negMulLog_mul]
  rw [sum_finProd fun i j => w j * Real.negMulLog (v i) + v i * Real.negMulLog (w j)]
  simp only [Finset.sum_add_distrib]
  rw [Finset.sum_comm]
  simp only [← Finset.mul_sum, ← Finset.sum_mul]
  rw [eigen_sum hv hA.2, eigen_sum hw hB.2]
  ring

theorem exchange_kron {l₁ l₂ a b c d : ℕ} (K : Fin l₁ → Matrix (Fin a) (Fin c) ℂ) (L : Fin l₂ → Matrix (Fin b) (Fin d) ℂ)
    (ρ : Matrix (Fin c) (Fin c) ℂ) (σ : Matrix (Fin d) (Fin d) ℂ) :
    entropyExchange (fun k : Fin (l₁ * l₂) => kron (K k.divNat) (L k.modNat)) (kron ρ σ) =
      kron (entropyExchange K ρ) (entropyExchange L σ) := by
  ext i j
  show trace _ = trace _ * trace _
  rw [kron_conjTranspose, kron_mul, kron_mul, kron_trace]

theorem krausInfo_kron {l₁ l₂ a b c d : ℕ} {K : Fin l₁ → Matrix (Fin a) (Fin c) ℂ} {L : Fin l₂ → Matrix (Fin b) (Fin d) ℂ}
    (hK : TracePreserving K) (hL : TracePreserving L) {ρ : Matrix (Fin c) (Fin c) ℂ} {σ : Matrix (Fin d) (Fin d) ℂ}
    (hρ : IsDensity ρ) (hσ : IsDensity σ) :
    krausInfo (fun k : Fin (l₁ * l₂) => kron (K k.divNat) (L k.modNat)) (kron ρ σ) = krausInfo K ρ + krausInfo L σ := by
  obtain ⟨a1, a2⟩ := kraus_densities K ρ hK hρ
  obtain ⟨b1, b2⟩ := kraus_densities L σ hL hσ
  unfold krausInfo
  rw [applyKraus_kron, exchange_kron, specSum_kron a1 b1, specSum_kron a2 b2]
  ring

/-! ### Digits of blocks -/

theorem digit_div {a n m : ℕ} (x : Fin (a ^ (n + m))) (t : Fin n) :
    digit x (Fin.castAdd m t) = digit (Fin.cast (pow_add a n m) x).divNat t := by
  apply Fin.ext
  show x.val / a ^ (n + m - 1 - t) % a = x.val / a ^ m / a ^ (n - 1 - t) % a
  rw [Nat.div_div_eq_div_mul, ← pow_add]
  congr 3
  omega

theorem digit_mod {a n m : ℕ} (x : Fin (a ^ (n + m))) (t : Fin m) :
    digit x (Fin.natAdd n t) = digit (Fin.cast (pow_add a n m) x).modNat t := by
  apply Fin.ext
  show x.val / a ^ (n + m - 1 - (n + t)) % a = x.val % a ^ m / a ^ (m - 1 - t) % a
  have ht := t.2
  have e1 : n + m - 1 - (n + t) = m - 1 - t := by omega
  have e2 : a ^ m = a ^ (m - 1 - t) * (a * a ^ t.val) := by
    rw [← pow_succ', ← pow_add]; congr 1; omega
  rw [e1, e2, Nat.mod_mul_right_div_self, Nat.mod_mul_right_mod]

theorem tensorPow_add {l a b : ℕ} (K : Fin l → Matrix (Fin a) (Fin b) ℂ) (n m : ℕ) (k : Fin (l ^ (n + m))) :
    tensorPow K (n + m) k = (kron (tensorPow K n (finCongr (pow_add l n m) k).divNat) (tensorPow K m (finCongr (pow_add l n m) k).modNat)).submatrix
      (finCongr (pow_add a n m)) (finCongr (pow_add b n m)) := by
  ext i j
  show ∏ t, K (digit k t) (digit i t) (digit j t) = (∏ t, K _ _ _) * ∏ t, K _ _ _
  rw [Fin.prod_univ_add]
  congr 1
  · refine Finset.prod_congr rfl fun t _ => ?_
    rw [digit_div, digit_div, digit_div]; rfl
  · refine Finset.prod_congr rfl fun t _ => ?_
    rw [digit_mod, digit_mod, digit_mod]; rfl

/-- Independent blocks of uses. -/
theorem krausInfo_blocks {l a b n m : ℕ} {K : Fin l → Matrix (Fin a) (Fin b) ℂ} (hK : TracePreserving K)
    {ρ : Matrix (Fin (b ^ n)) (Fin (b ^ n)) ℂ} {σ : Matrix (Fin (b ^ m)) (Fin (b ^ m)) ℂ} (hρ : IsDensity ρ) (hσ : IsDensity σ) :
    krausInfo (tensorPow K (n + m)) ((kron ρ σ).submatrix (finCongr (pow_add b n m)) (finCongr (pow_add b n m))) =
      krausInfo (tensorPow K n) ρ + krausInfo (tensorPow K m) σ := by
  have h1 := krausInfo_reindex (finCongr (pow_add l n m)) (finCongr (pow_add a n m)) (finCongr (pow_add b n m))
    (fun k : Fin (l ^ n * l ^ m) => kron (tensorPow K n k.divNat) (tensorPow K m k.modNat)) (kron_posSemidef hρ.1 hσ.1)
  have e : tensorPow K (n + m) = fun k => (kron (tensorPow K n (finCongr (pow_add l n m) k).divNat)
      (tensorPow K m (finCongr (pow_add l n m) k).modNat)).submatrix (finCongr (pow_add a n m)) (finCongr (pow_add b n m)) :=
    funext fun k => tensorPow_add K n m k
  rw [e, h1, krausInfo_kron (tensorPow_tp K n hK) (tensorPow_tp K m hK) hρ hσ]

theorem submatrix_density {a b : ℕ} (e : Fin a ≃ Fin b) {A : Matrix (Fin b) (Fin b) ℂ} (hA : IsDensity A) : IsDensity (A.submatrix e e) := by
  refine ⟨hA.1.submatrix e, ?_⟩
  rw [← hA.2]
  unfold trace
  exact e.sum_comp fun x => A x x

/-! ### Pure states -/

theorem krausInfo_pure {l p q : ℕ} (K : Fin l → Matrix (Fin p) (Fin q) ℂ) (ψ : Fin q → ℂ) : krausInfo K (vecMulVec ψ (star ψ)) = 0 := by
  let N : Matrix (Fin p) (Fin l) ℂ := fun x k => (K k *ᵥ ψ) x
  have hterm : ∀ k l, K k * vecMulVec ψ (star ψ) * (K l)ᴴ = vecMulVec (K k *ᵥ ψ) (star (K l *ᵥ ψ)) := by
    intro k l
    rw [mul_vecMulVec, vecMulVec_mul, star_mulVec]
  have h1 : applyKraus K (vecMulVec ψ (star ψ)) = N * Nᴴ := by
    unfold applyKraus
    ext x y
    rw [Matrix.sum_apply, Matrix.mul_apply]
    exact Finset.sum_congr rfl fun k _ => by rw [hterm]; rfl
  have h2 : entropyExchange K (vecMulVec ψ (star ψ)) = (Nᴴ * N)ᵀ := by
    ext i j
    show trace _ = _
    rw [hterm]
    rw [transpose_apply, Matrix.mul_apply]
    exact Finset.sum_congr rfl fun x _ => mul_comm _ _
  have h3 : specSum Real.negMulLog ((Nᴴ * N)ᵀ) = specSum Real.negMulLog (Nᴴ * N) :=
    specSum_congr (p := 0) (q := 0) (posSemidef_conjTranspose_mul_self N).transpose (posSemidef_conjTranspose_mul_self N)
      (by rw [charpoly_transpose]) Real.negMulLog_zero
  unfold krausInfo
  rw [h1, h2, h3, specSum_gram N Real.negMulLog_zero, sub_self]

theorem pureDensity {N : ℕ} (hN : 0 < N) : ∃ ψ : Fin N → ℂ, IsDensity (vecMulVec ψ (star ψ)) := by
  classical
  refine ⟨Pi.single ⟨0, hN⟩ 1, posSemidef_vecMulVec_self_star _, ?_⟩
  rw [trace_vecMulVec]
  simp [dotProduct, Pi.single_apply]

/-! ### The best exact value for `n` uses -/

/-- The supremum over all states of the coherent information, without cut-off, of `n` uses. -/
noncomputable def bestInfo {l a b : ℕ} (K : Fin l → Matrix (Fin a) (Fin b) ℂ) (n : ℕ) : ℝ :=
  sSup {x | ∃ ρ : Matrix (Fin (b ^ n)) (Fin (b ^ n)) ℂ, IsDensity ρ ∧ x = krausInfo (tensorPow K n) ρ / Real.log 2}

section
variable {l a b : ℕ} {K : Fin l → Matrix (Fin a) (Fin b) ℂ}

theorem krausInfo_le_log {l p q : ℕ} (K : Fin l → Matrix (Fin p) (Fin q) ℂ) (hK : TracePreserving K) {ρ : Matrix (Fin q) (Fin q) ℂ}
    (hρ : IsDensity ρ) : krausInfo K ρ ≤ Real.log p := by
  obtain ⟨d1, d2⟩ := kraus_densities K ρ hK hρ
  have a1 := entropy_nonneg d2
  have a2 := specSum_le_log d1
  unfold krausInfo
  linarith

theorem bestInfo_bound (hK : TracePreserving K) (n : ℕ) {ρ : Matrix (Fin (b ^ n)) (Fin (b ^ n)) ℂ} (hρ : IsDensity ρ) :
    krausInfo (tensorPow K n) ρ / Real.log 2 ≤ n * Real.logb 2 a := by
  have h := krausInfo_le_log (tensorPow K n) (tensorPow_tp K n hK) hρ
  rw [Nat.cast_pow, Real.log_pow] at h
  unfold Real.logb
  rw [← mul_div_assoc]
  exact div_le_div_of_nonneg_right h (Real.log_pos (by norm_num)).le

theorem bestInfo_bdd (hK : TracePreserving K) (n : ℕ) :
    BddAbove {x | ∃ ρ : Matrix (Fin (b ^ n)) (Fin (b ^ n)) ℂ, IsDensity ρ ∧ x = krausInfo (tensorPow K n) ρ / Real.log 2} := by
  refine ⟨n * Real.logb 2 a, ?_⟩
  rintro x ⟨ρ, hρ, rfl⟩
  exact bestInfo_bound hK n hρ

theorem le_bestInfo (hK : TracePreserving K) (n : ℕ) {ρ : Matrix (Fin (b ^ n)) (Fin (b ^ n)) ℂ} (hρ : IsDensity ρ) :
    krausInfo (tensorPow K n) ρ / Real.log 2 ≤ bestInfo K n :=
  le_csSup (bestInfo_bdd hK n) ⟨ρ, hρ, rfl⟩

theorem bestInfo_nonempty (hb : 0 < b) (n : ℕ) :
    {x | ∃ ρ : Matrix (Fin (b ^ n)) (Fin (b ^ n)) ℂ, IsDensity ρ ∧ x = krausInfo (tensorPow K n) ρ / Real.log 2}.Nonempty := by
  obtain ⟨ψ, hψ⟩ := pureDensity (N := b ^ n) (by positivity)
  exact ⟨_, _, hψ, rfl⟩

theorem bestInfo_nonneg (hK : TracePreserving K) (hb : 0 < b) (n : ℕ) : 0 ≤ bestInfo K n := by
  obtain ⟨ψ, hψ⟩ := pureDensity (N := b ^ n) (by positivity)
  have := le_bestInfo hK n hψ
  rwa [krausInfo_pure, zero_div] at this

theorem bestInfo_le (hK : TracePreserving K) (hb : 0 < b) (n : ℕ) : bestInfo K n ≤ n * Real.logb 2 a := by
  refine csSup_le (bestInfo_nonempty hb n) ?_
  rintro x ⟨ρ, hρ, rfl⟩
  exact bestInfo_bound hK n hρ

theorem bestInfo_near (hb : 0 < b) (n : ℕ) {δ : ℝ} (hδ : 0 < δ) :
    ∃ ρ : Matrix (Fin (b ^ n)) (Fin (b ^ n)) ℂ, IsDensity ρ ∧ bestInfo K n - δ < krausInfo (tensorPow K n) ρ / Real.log 2 := by
  obtain ⟨x, ⟨ρ, hρ, rfl⟩, hx⟩ := exists_lt_of_lt_csSup (bestInfo_nonempty (K := K) hb n) (show bestInfo K n - δ < sSup _ from sub_lt_self _ hδ)
  exact ⟨ρ, hρ, hx⟩

theorem bestInfo_superadd (hK : TracePreserving K) (hb : 0 < b) (n m : ℕ) : bestInfo K n + bestInfo K m ≤ bestInfo K (n + m) := by
  refine le_of_forall_pos_le_add fun δ hδ => ?_
  obtain ⟨ρ, hρ, h1⟩ := bestInfo_near (K := K) hb n (half_pos hδ)
  obtain ⟨σ, hσ, h2⟩ := bestInfo_near (K := K) hb m (half_pos hδ)
  have h3 := le_bestInfo hK (n + m) (submatrix_density (finCongr (pow_add b n m)) (kron_density hρ hσ))
  rw [krausInfo_blocks hK hρ hσ, add_div] at h3
  linarith

theorem bestInfo_rate (hK : TracePreserving K) (hb : 0 < b) : ∃ C : ℝ, (∀ n, 1 ≤ n → bestInfo K n / n ≤ C) ∧
    Filter.Tendsto (fun n : ℕ => bestInfo K n / n) Filter.atTop (nhds C) ∧ 0 ≤ C ∧ C ≤ Real.logb 2 a := by
  have hs : Subadditive fun n => -bestInfo K n := by
    intro n m
    have := bestInfo_superadd hK hb n m
    linarith
  have hle : ∀ n : ℕ, 1 ≤ n → bestInfo K n / n ≤ Real.logb 2 a := by
    intro n hn
    rw [div_le_iff₀ (by positivity), mul_comm]
    exact bestInfo_le hK hb n
  have hbdd : BddBelow (Set.range fun n : ℕ => -bestInfo K n / n) := by
    refine ⟨min 0 (-Real.logb 2 a), ?_⟩
    rintro x ⟨n, rfl⟩
    rcases Nat.eq_zero_or_pos n with rfl | hn
    · simp
    · have := hle n hn
      refine (min_le_right _ _).trans ?_
      simp only [neg_div]
      linarith
  have h1 := hs.tendsto_lim hbdd
  have h2 : ∀ n, 1 ≤ n → bestInfo K n / n ≤ -hs.lim := by
    intro n hn
    have := hs.lim_le_div hbdd (n := n) (by omega)
    rw [neg_div] at this
    linarith
  have h3 : Filter.Tendsto (fun n : ℕ => bestInfo K n / n) Filter.atTop (nhds (-hs.lim)) := by
    have := h1.neg
    refine this.congr fun n => ?_
    ring
  refine ⟨-hs.lim, h2, h3, ?_, ?_⟩
  · have := h2 1 le_rfl
    have h4 := bestInfo_nonneg hK hb 1
    simp only [Nat.cast_one, div_one] at this
    linarith
  · refine le_of_tendsto h3 ?_
    filter_upwards [Filter.eventually_ge_atTop 1] with n hn
    exact hle n hn

end

end PyQ
