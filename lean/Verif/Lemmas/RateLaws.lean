import Verif.Lemmas.Rate
import Verif.Lemmas.Degradable

/-! Lemmas for C127 and C128: uses of parallel channels, noise before a channel. -/

namespace PyQ

open Matrix Spec
open scoped ComplexOrder

/-! ### Taking digits apart -/

/-- A number in base `p * q` as a number in base `p` and one in base `q`. -/
def unzip (p q n : ℕ) : Fin ((p * q) ^ n) ≃ Fin (p ^ n * q ^ n) :=
  (digitEquiv (p * q) n).trans (((Equiv.arrowCongr (Equiv.refl _) finProdFinEquiv.symm).trans (Equiv.arrowProdEquivProdArrow _ _ _)).trans
    (((digitEquiv p n).symm.prodCongr (digitEquiv q n).symm).trans finProdFinEquiv))

theorem unzip_div {p q n : ℕ} (x : Fin ((p * q) ^ n)) (t : Fin n) : digit (unzip p q n x).divNat t = (digit x t).divNat := by
  have h : (unzip p q n x).divNat = (finProdFinEquiv.symm (unzip p q n x)).1 := rfl
  rw [h]
  unfold unzip
  simp only [Equiv.trans_apply, Equiv.symm_apply_apply, Equiv.prodCongr_apply, Prod.map_fst]
  rw [← digitEquiv_apply, Equiv.apply_symm_apply]
  simp only [digitEquiv_apply]
  rfl

theorem unzip_mod {p q n : ℕ} (x : Fin ((p * q) ^ n)) (t : Fin n) : digit (unzip p q n x).modNat t = (digit x t).modNat := by
  have h : (unzip p q n x).modNat = (finProdFinEquiv.symm (unzip p q n x)).2 := rfl
  rw [h]
  unfold unzip
  simp only [Equiv.trans_apply, Equiv.symm_apply_apply, Equiv.prodCongr_apply, Prod.map_snd]
  rw [← digitEquiv_apply, Equiv.apply_symm_apply]
  simp only [digitEquiv_apply]
  rfl

theorem tensorPow_kron {l₁ l₂ a b c d : ℕ} (K : Fin l₁ → Matrix (Fin a) (Fin c) ℂ) (L : Fin l₂ → Matrix (Fin b) (Fin d) ℂ) (n : ℕ)
    (k : Fin ((l₁ * l₂) ^ n)) :
    tensorPow (fun k : Fin (l₁ * l₂) => kron (K k.divNat) (L k.modNat)) n k =
      (kron (tensorPow K n (unzip l₁ l₂ n k).divNat) (tensorPow L n (unzip l₁ l₂ n k).modNat)).submatrix (unzip a b n) (unzip c d n) := by
  ext i j
  show ∏ t : Fin n, K _ _ _ * L _ _ _ = (∏ t : Fin n, K _ _ _) * ∏ t : Fin n, L _ _ _
  rw [Finset.prod_mul_distrib]
  congr 1 <;> refine Finset.prod_congr rfl fun t _ => ?_
  · rw [unzip_div, unzip_div, unzip_div]
  · rw [unzip_mod, unzip_mod, unzip_mod]

theorem applyKraus_reindex {m κ R m' κ' R' : Type} [Fintype m] [Fintype κ] [Fintype R] [Fintype m'] [Fintype κ'] [Fintype R']
    (e₁ : κ' ≃ κ) (e₂ : m' ≃ m) (e₃ : R' ≃ R) (K : κ → Matrix m R ℂ) (X : Matrix R R ℂ) :
    applyKraus (fun k => (K (e₁ k)).submatrix e₂ e₃) (X.submatrix e₃ e₃) = (applyKraus K X).submatrix e₂ e₂ := by
  have h1 : ∀ i, (K i).submatrix e₂ e₃ * X.submatrix e₃ e₃ * ((K i).submatrix e₂ e₃)ᴴ = (K i * X * (K i)ᴴ).submatrix e₂ e₂ := by
    intro i
    rw [conjTranspose_submatrix, submatrix_mul_equiv, submatrix_mul_equiv]
  unfold applyKraus
  simp only [h1]
  rw [e₁.sum_comp fun k => (K k * X * (K k)ᴴ).submatrix e₂ e₂]
  ext i j
  simp [Matrix.sum_apply]

/-- `n` uses of two channels side by side. -/
theorem applyKraus_side {l₁ l₂ a b c d : ℕ} (K : Fin l₁ → Matrix (Fin a) (Fin c) ℂ) (L : Fin l₂ → Matrix (Fin b) (Fin d) ℂ) (n : ℕ)
    (ρ : Matrix (Fin (c ^ n)) (Fin (c ^ n)) ℂ) (σ : Matrix (Fin (d ^ n)) (Fin (d ^ n)) ℂ) :
    applyKraus (tensorPow (fun k : Fin (l₁ * l₂) => kron (K k.divNat) (L k.modNat)) n) ((kron ρ σ).submatrix (unzip c d n) (unzip c d n)) =
      (kron (applyKraus (tensorPow K n) ρ) (applyKraus (tensorPow L n) σ)).submatrix (unzip a b n) (unzip a b n) := by
  have e : tensorPow (fun k : Fin (l₁ * l₂) => kron (K k.divNat) (L k.modNat)) n = fun k =>
      (kron (tensorPow K n (unzip l₁ l₂ n k).divNat) (tensorPow L n (unzip l₁ l₂ n k).modNat)).submatrix (unzip a b n) (unzip c d n) :=
    funext fun k => tensorPow_kron K L n k
  have h1 := applyKraus_reindex (unzip l₁ l₂ n) (unzip a b n) (unzip c d n)
    (fun k : Fin (l₁ ^ n * l₂ ^ n) => kron (tensorPow K n k.divNat) (tensorPow L n k.modNat)) (kron ρ σ)
  rw [e, h1, applyKraus_kron]

theorem krausInfo_side {l₁ l₂ a b c d : ℕ} {K : Fin l₁ → Matrix (Fin a) (Fin c) ℂ} {L : Fin l₂ → Matrix (Fin b) (Fin d) ℂ}
    (hK : TracePreserving K) (hL : TracePreserving L) (n : ℕ)
    {ρ : Matrix (Fin (c ^ n)) (Fin (c ^ n)) ℂ} {σ : Matrix (Fin (d ^ n)) (Fin (d ^ n)) ℂ} (hρ : IsDensity ρ) (hσ : IsDensity σ) :
    krausInfo (tensorPow (fun k : Fin (l₁ * l₂) => kron (K k.divNat) (L k.modNat)) n) ((kron ρ σ).submatrix (unzip c d n) (unzip c d n)) =
      krausInfo (tensorPow K n) ρ + krausInfo (tensorPow L n) σ := by
  have e : tensorPow (fun k : Fin (l₁ * l₂) => kron (K k.divNat) (L k.modNat)) n = fun k =>
      (kron (tensorPow K n (unzip l₁ l₂ n k).divNat) (tensorPow L n (unzip l₁ l₂ n k).modNat)).submatrix (unzip a b n) (unzip c d n) :=
    funext fun k => tensorPow_kron K L n k
  have h1 := krausInfo_reindex (unzip l₁ l₂ n) (unzip a b n) (unzip c d n)
    (fun k : Fin (l₁ ^ n * l₂ ^ n) => kron (tensorPow K n k.divNat) (tensorPow L n k.modNat)) (kron_posSemidef hρ.1 hσ.1)
  rw [e, h1, krausInfo_kron (tensorPow_tp K n hK) (tensorPow_tp L n hL) hρ hσ]

theorem kron_tp {l₁ l₂ a b c d : ℕ} {K : Fin l₁ → Matrix (Fin a) (Fin c) ℂ} {L : Fin l₂ → Matrix (Fin b) (Fin d) ℂ}
    (hK : TracePreserving K) (hL : TracePreserving L) : TracePreserving fun k : Fin (l₁ * l₂) => kron (K k.divNat) (L k.modNat) := by
  unfold TracePreserving at *
  simp only [kron_conjTranspose, kron_mul]
  rw [sum_finProd fun i j => kron ((K i)ᴴ * K i) ((L j)ᴴ * L j)]
  have h2 : ∀ i, ∑ j, kron ((K i)ᴴ * K i) ((L j)ᴴ * L j) = kron ((K i)ᴴ * K i) 1 := by
    intro i
    rw [← hL]
    ext x y
    simp only [Matrix.sum_apply, kron, Finset.mul_sum]
  simp only [h2]
  rw [← kron_one, ← hK]
  ext x y
  simp only [Matrix.sum_apply, kron, Finset.sum_mul]

theorem bestInfo_side {l₁ l₂ a b c d : ℕ} {K : Fin l₁ → Matrix (Fin a) (Fin c) ℂ} {L : Fin l₂ → Matrix (Fin b) (Fin d) ℂ}
    (hK : TracePreserving K) (hL : TracePreserving L) (hc : 0 < c) (hd : 0 < d) (n : ℕ) :
    bestInfo K n + bestInfo L n ≤ bestInfo (fun k : Fin (l₁ * l₂) => kron (K k.divNat) (L k.modNat)) n := by
  refine le_of_forall_pos_le_add fun δ hδ => ?_
  obtain ⟨ρ, hρ, h1⟩ := bestInfo_near (K := K) hc n (half_pos hδ)
  obtain ⟨σ, hσ, h2⟩ := bestInfo_near (K := L) hd n (half_pos hδ)
  have h3 := le_bestInfo (kron_tp hK hL) n (submatrix_density (unzip c d n) (kron_density hρ hσ))
  rw [krausInfo_side hK hL n hρ hσ, add_div] at h3
  linarith

/-! ### Noise before a channel -/

section
variable {m R S κ ι : Type} [Fintype m] [Fintype R] [Fintype S] [Fintype κ] [Fintype ι]
  [DecidableEq m] [DecidableEq R] [DecidableEq S] [DecidableEq κ] [DecidableEq ι]

/-- The operators of a channel `B` followed by `A`, with a record of which operator of `B` acted. -/
def recordOps (A : κ → Matrix m R ℂ) (B : ι → Matrix R S ℂ) : κ × ι → Matrix (m × ι) S ℂ :=
  fun k z => if z.2 = k.2 then (A k.1 * B k.2) z.1 else 0

theorem record_term (A : κ → Matrix m R ℂ) (B : ι → Matrix R S ℂ) (ρ : Matrix S S ℂ) (k l : κ × ι) (x y : m × ι) :
    (recordOps A B k * ρ * (recordOps A B l)ᴴ) x y =
      if x.2 = k.2 ∧ y.2 = l.2 then (A k.1 * (B k.2 * ρ * (B l.2)ᴴ) * (A l.1)ᴴ) x.1 y.1 else 0 := by
  have h : A k.1 * (B k.2 * ρ * (B l.2)ᴴ) * (A l.1)ᴴ = A k.1 * B k.2 * ρ * (A l.1 * B l.2)ᴴ := by
    rw [conjTranspose_mul]
    simp only [Matrix.mul_assoc]
  rw [h, Matrix.mul_apply, Matrix.mul_apply]
  simp only [Matrix.mul_apply (M := recordOps A B k), Matrix.mul_apply (M := A k.1 * B k.2), conjTranspose_apply]
  by_cases h1 : x.2 = k.2
  · by_cases h2 : y.2 = l.2
    · simp [recordOps, h1, h2]
    · simp [recordOps, h1, h2]
  · simp [recordOps, h1]

theorem record_apply (A : κ → Matrix m R ℂ) (B : ι → Matrix R S ℂ) (ρ : Matrix S S ℂ) :
    applyKraus (recordOps A B) ρ = blockDiagonal fun i => applyKraus A (B i * ρ * (B i)ᴴ) := by
  ext x y
  unfold applyKraus
  rw [Matrix.sum_apply, Fintype.sum_prod_type, blockDiagonal_apply]
  simp only [record_term]
  by_cases h : x.2 = y.2
  · rw [if_pos h, Matrix.sum_apply]
    refine Finset.sum_congr rfl fun k _ => ?_
    rw [Finset.sum_eq_single x.2]
    · rw [if_pos ⟨rfl, h.symm⟩]
    · intro i _ hi
      rw [if_neg fun h' => hi h'.1.symm]
    · simp
  · rw [if_neg h]
    refine Finset.sum_eq_zero fun k _ => Finset.sum_eq_zero fun i _ => ?_
    rw [if_neg fun h' => h (h'.1.trans h'.2.symm)]

theorem record_exchange (A : κ → Matrix m R ℂ) (B : ι → Matrix R S ℂ) (ρ : Matrix S S ℂ) :
    Spec.entropyExchange (recordOps A B) ρ = blockDiagonal fun i => Spec.entropyExchange A (B i * ρ * (B i)ᴴ) := by
  ext k l
  rw [blockDiagonal_apply]
  show trace _ = if k.2 = l.2 then trace _ else 0
  unfold trace
  simp only [diag_apply]
  rw [Fintype.sum_prod_type]
  simp only [record_term]
  by_cases h : k.2 = l.2
  · rw [if_pos h]
    refine Finset.sum_congr rfl fun x _ => ?_
    rw [Finset.sum_eq_single k.2]
    · rw [if_pos ⟨rfl, h⟩, h]
    · intro i _ hi
      rw [if_neg fun h' => hi h'.1]
    · simp
  · rw [if_neg h]
    refine Finset.sum_eq_zero fun x _ => Finset.sum_eq_zero fun i _ => ?_
    rw [if_neg fun h' => h (h'.1.symm.trans h'.2)]

theorem specSum_blocks {D : ι → Matrix m m ℂ} (hD : ∀ i, (D i).PosSemidef) :
    specSum Real.negMulLog (blockDiagonal D) = ∑ i, specSum Real.negMulLog (D i) := by
  choose V w hw hc using fun i => exists_eigen (hD i)
  have e : blockDiagonal D = blockDiagonal V * diagonal (fun z : m × ι => ((w z.2 z.1 : ℝ) : ℂ)) * (blockDiagonal V)ᴴ := by
    have hd : diagonal (fun z : m × ι => ((w z.2 z.1 : ℝ) : ℂ)) = blockDiagonal fun i => diagonal fun x => ((w i x : ℝ) : ℂ) := by
      rw [blockDiagonal_diagonal]
    rw [hd, blockDiagonal_conjTranspose, ← blockDiagonal_mul, ← blockDiagonal_mul]
    congr 1
    funext i
    exact (hw i).eq
  have hU : (blockDiagonal V)ᴴ * blockDiagonal V = 1 := by
    rw [blockDiagonal_conjTranspose, ← blockDiagonal_mul]
    have : (fun i => (V i)ᴴ * V i) = 1 := funext fun i => (hw i).left
    rw [this, blockDiagonal_one]
  rw [e, specSum_conj (posSemidef_diagonal_iff.mpr fun z => by exact_mod_cast (hw z.2).nonneg z.1) hU Real.negMulLog_zero,
    specSum_diagonal (w := fun z : m × ι => w z.2 z.1) (fun z => (hw z.2).nonneg z.1) Real.negMulLog_zero, Fintype.sum_prod_type, Finset.sum_comm]
  exact Finset.sum_congr rfl fun i _ => (specSum_eq (hD i) (hc i) Real.negMulLog_zero).symm

/-- The channel that forgets the record. -/
def forgetRecord : ι → Matrix m (m × ι) ℂ := fun i x z => if z = (x, i) then 1 else 0

theorem forgetRecord_tp : TracePreserving (forgetRecord (m := m) (ι := ι)) := by
  unfold TracePreserving
  ext z z'
  rw [Matrix.sum_apply]
  simp only [Matrix.mul_apply, conjTranspose_apply, forgetRecord]
  have h : ∀ (i : ι) (x : m), star (if z = (x, i) then (1 : ℂ) else 0) * (if z' = (x, i) then 1 else 0) =
      if i = z.2 then (if x = z.1 then (if z = z' then 1 else 0) else 0) else 0 := by
    intro i x
    by_cases h1 : i = z.2
    · by_cases h2 : x = z.1
      · subst h1 h2
        by_cases h3 : z = z'
        · subst h3; simp
        · have : z' ≠ (z.1, z.2) := fun h => h3 h.symm
          simp [h3, this]
      · have : z ≠ (x, i) := fun h => h2 (by rw [h])
        simp [h2, this]
    · have : z ≠ (x, i) := fun h => h1 (by rw [h])
      simp [h1, this]
  simp only [h]
  simp [Matrix.one_apply]

theorem forgetRecord_apply (D : ι → Matrix m m ℂ) : applyKraus forgetRecord (blockDiagonal D) = ∑ i, D i := by
  unfold applyKraus
  refine Finset.sum_congr rfl fun i _ => ?_
  ext x y
  rw [Matrix.mul_apply]
  simp only [Matrix.mul_apply, conjTranspose_apply, forgetRecord]
  simp only [apply_ite star, star_one, star_zero, ite_mul, one_mul, zero_mul, mul_ite, mul_one, mul_zero, Finset.sum_ite_eq', Finset.mem_univ,
    if_true, blockDiagonal_apply]
  rw [Finset.sum_eq_single (x, i)]
  · simp
  · intro z _ hz
    rw [if_neg hz]
    simp
  · simp

/-- Noise before a channel: the value is at most the sum of the values for the parts of the state. -/
theorem krausInfo_before {τ : Type} [Fintype τ] [DecidableEq τ] (A : κ → Matrix m R ℂ) (B : ι → Matrix R S ℂ) (T : τ → Matrix m S ℂ)
    (hT : ∀ ρ, applyKraus T ρ = applyKraus A (applyKraus B ρ)) {ρ : Matrix S S ℂ} (hρ : ρ.PosSemidef) :
    krausInfo T ρ ≤ ∑ i, krausInfo A (B i * ρ * (B i)ᴴ) := by
  have hpart : ∀ i, (B i * ρ * (B i)ᴴ).PosSemidef := fun i => hρ.mul_mul_conjTranspose_same (B i)
  have hsum : ∀ ρ, applyKraus A (applyKraus B ρ) = ∑ i, applyKraus A (B i * ρ * (B i)ᴴ) := by
    intro ρ
    unfold applyKraus
    rw [Finset.sum_comm]
    refine Finset.sum_congr rfl fun k _ => ?_
    rw [Matrix.mul_sum, Matrix.sum_mul]
  have h1 := krausInfo_data_processing forgetRecord forgetRecord_tp (recordOps A B) T
    (fun ρ => by rw [hT, record_apply, forgetRecord_apply, hsum]) hρ
  refine h1.trans (le_of_eq ?_)
  unfold krausInfo
  rw [record_apply, record_exchange, specSum_blocks fun i => applyKraus_posSemidef A (hpart i),
    specSum_blocks fun i => exchange_posSemidef A (hpart i), Finset.sum_sub_distrib]

end

/-- Noise before a channel never beats the best state of the channel alone. -/
theorem krausInfo_before_exists {l₁ l₂ l a b c : ℕ} {A : Fin l₁ → Matrix (Fin a) (Fin b) ℂ} {B : Fin l₂ → Matrix (Fin b) (Fin c) ℂ}
    {T : Fin l → Matrix (Fin a) (Fin c) ℂ} (hB : TracePreserving B) (hT : ∀ ρ, applyKraus T ρ = applyKraus A (applyKraus B ρ))
    {ρ : Matrix (Fin c) (Fin c) ℂ} (hρ : IsDensity ρ) : ∃ σ : Matrix (Fin b) (Fin b) ℂ, IsDensity σ ∧ krausInfo T ρ ≤ krausInfo A σ := by
  classical
  by_contra hno
  push Not at hno
  have hpart : ∀ i, (B i * ρ * (B i)ᴴ).PosSemidef := fun i => hρ.1.mul_mul_conjTranspose_same (B i)
  have hp : ∀ i, ∃ p : ℝ, 0 ≤ p ∧ trace (B i * ρ * (B i)ᴴ) = (p : ℂ) := by
    intro i
    have h0 := (hpart i).trace_nonneg
    refine ⟨(trace (B i * ρ * (B i)ᴴ)).re, ?_, ?_⟩
    · exact (Complex.le_def.mp h0).1
    · exact Complex.ext rfl ((Complex.le_def.mp h0).2.symm)
  choose p hp0 hpt using hp
  have hp1 : ∑ i, p i = 1 := by
    have h1 : trace (applyKraus B ρ) = 1 := (applyKraus_trace B hB ρ).trans hρ.2
    unfold applyKraus at h1
    rw [trace_sum] at h1
    simp only [hpt] at h1
    exact_mod_cast h1
  have hterm : ∀ i, krausInfo A (B i * ρ * (B i)ᴴ) ≤ p i * krausInfo T ρ ∧ (0 < p i → krausInfo A (B i * ρ * (B i)ᴴ) < p i * krausInfo T ρ) := by
    intro i
    rcases (hp0 i).eq_or_lt with h0 | h0
    · have hz : B i * ρ * (B i)ᴴ = 0 := by
        rw [← (hpart i).trace_eq_zero_iff, hpt, ← h0]; rfl
      refine ⟨?_, fun h => absurd h0 h.ne⟩
      rw [hz, ← h0, zero_mul]
      have := krausInfo_smul A (hpart i) (t := 0) le_rfl
      rw [hz, smul_zero, zero_mul] at this
      exact this.le
    · have hd : IsDensity (((p i)⁻¹ : ℝ) • (B i * ρ * (B i)ᴴ) : Matrix _ _ ℂ) := by
        refine ⟨?_, ?_⟩
        · have := (hpart i).smul (show (0 : ℂ) ≤ (((p i)⁻¹ : ℝ) : ℂ) by exact_mod_cast inv_nonneg.mpr h0.le)
          have e : ((((p i)⁻¹ : ℝ) : ℂ) • (B i * ρ * (B i)ᴴ)) = (((p i)⁻¹ : ℝ) • (B i * ρ * (B i)ᴴ) : Matrix _ _ ℂ) := by
            ext x y
            simp only [Matrix.smul_apply, Complex.real_smul, smul_eq_mul]
          rw [← e]
          exact this
        · rw [trace_smul, hpt, Complex.real_smul, ← Complex.ofReal_mul, inv_mul_cancel₀ h0.ne', Complex.ofReal_one]
      have h2 := hno _ hd
      have h3 : B i * ρ * (B i)ᴴ = ((p i : ℝ) : ℂ) • (((p i)⁻¹ : ℝ) • (B i * ρ * (B i)ᴴ) : Matrix _ _ ℂ) := by
        ext x y
        simp only [Matrix.smul_apply, Complex.real_smul, smul_eq_mul]
        rw [← mul_assoc, ← Complex.ofReal_mul, mul_inv_cancel₀ h0.ne', Complex.ofReal_one, one_mul]
      have h4 := krausInfo_smul A hd.1 h0.le
      rw [← h3] at h4
      rw [h4]
      exact ⟨(mul_le_mul_of_nonneg_left h2.le h0.le), fun _ => mul_lt_mul_of_pos_left h2 h0⟩
  have h5 := krausInfo_before A B T hT hρ.1
  obtain ⟨i, hi⟩ : ∃ i, 0 < p i := by
    by_contra h
    push Not at h
    have : ∑ i, p i ≤ 0 := Finset.sum_nonpos fun i _ => h i
    rw [hp1] at this
    norm_num at this
  have h6 : ∑ i, krausInfo A (B i * ρ * (B i)ᴴ) < ∑ i, p i * krausInfo T ρ :=
    Finset.sum_lt_sum (fun i _ => (hterm i).1) ⟨i, Finset.mem_univ i, (hterm i).2 hi⟩
  rw [← Finset.sum_mul, hp1, one_mul] at h6
  linarith

theorem bestInfo_before {l₁ l₂ l a b c : ℕ} {A : Fin l₁ → Matrix (Fin a) (Fin b) ℂ} {B : Fin l₂ → Matrix (Fin b) (Fin c) ℂ}
    {T : Fin l → Matrix (Fin a) (Fin c) ℂ} (hA : TracePreserving A) (hB : TracePreserving B) (hc : 0 < c) (n : ℕ)
    (hT : ∀ ρ, applyKraus (tensorPow T n) ρ = applyKraus (tensorPow A n) (applyKraus (tensorPow B n) ρ)) :
    bestInfo T n ≤ bestInfo A n ∧ bestInfo T n ≤ bestInfo B n := by
  constructor
  · refine le_of_forall_pos_le_add fun δ hδ => ?_
    obtain ⟨ρ, hρ, h1⟩ := bestInfo_near (K := T) hc n hδ
    obtain ⟨σ, hσ, h2⟩ := krausInfo_before_exists (tensorPow_tp B n hB) hT hρ
    have h3 := le_bestInfo hA n hσ
    have h4 := div_le_div_of_nonneg_right h2 (Real.log_nonneg one_le_two)
    linarith
  · refine le_of_forall_pos_le_add fun δ hδ => ?_
    obtain ⟨ρ, hρ, h1⟩ := bestInfo_near (K := T) hc n hδ
    have h2 := krausInfo_data_processing (tensorPow A n) (tensorPow_tp A n hA) (tensorPow B n) (tensorPow T n) hT hρ.1
    have h3 := le_bestInfo hB n hρ
    have h4 := div_le_div_of_nonneg_right h2 (Real.log_nonneg one_le_two)
    linarith

end PyQ

