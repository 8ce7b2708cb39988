import Mathlib.Data.Matrix.Block
import Verif.Lemmas.Mixture

/-!
# Channels whose environment can be made from the output, or the other way round
-/

namespace PyQ

open Matrix Polynomial
open scoped ComplexOrder Kronecker

section Finite

variable {ι κ κ' τ m m' R : Type} [Fintype ι] [Fintype κ] [Fintype κ'] [Fintype τ] [Fintype m] [Fintype m'] [Fintype R]
  [DecidableEq ι] [DecidableEq κ] [DecidableEq κ'] [DecidableEq τ] [DecidableEq m] [DecidableEq m'] [DecidableEq R]

/-! ### The complementary channel -/

/-- Kraus operators of the map from the input to the exchange matrix. -/
def complOps (K : κ → Matrix m R ℂ) : m → Matrix κ R ℂ := fun x => of fun k y => K k x y

omit [Fintype κ] [DecidableEq κ] [DecidableEq m] [DecidableEq R] in
theorem applyKraus_compl (K : κ → Matrix m R ℂ) (ρ : Matrix R R ℂ) :
    Spec.applyKraus (complOps K) ρ = Spec.entropyExchange K ρ := by
  ext k k'
  unfold Spec.applyKraus Spec.entropyExchange
  rw [Matrix.sum_apply]
  simp only [trace, diag_apply, Matrix.mul_apply, complOps, conjTranspose_apply, of_apply]

omit [Fintype m] [DecidableEq κ] [DecidableEq m] [DecidableEq R] in
theorem exchange_compl (K : κ → Matrix m R ℂ) (ρ : Matrix R R ℂ) :
    Spec.entropyExchange (complOps K) ρ = Spec.applyKraus K ρ := by
  ext k k'
  unfold Spec.applyKraus Spec.entropyExchange
  rw [Matrix.sum_apply]
  simp only [trace, diag_apply, Matrix.mul_apply, complOps, conjTranspose_apply, of_apply]

omit [DecidableEq κ] [DecidableEq m] in
theorem compl_tp (K : κ → Matrix m R ℂ) (hK : Spec.TracePreserving K) : Spec.TracePreserving (complOps K) := by
  unfold Spec.TracePreserving at hK ⊢
  rw [← hK]
  ext y y'
  simp only [Matrix.sum_apply, Matrix.mul_apply, complOps, conjTranspose_apply, of_apply]
  rw [Finset.sum_comm]

theorem krausInfo_compl (K : κ → Matrix m R ℂ) (ρ : Matrix R R ℂ) : krausInfo (complOps K) ρ = -krausInfo K ρ := by
  unfold krausInfo
  rw [applyKraus_compl, exchange_compl]
  ring

/-- Data processing in terms of `krausInfo`. -/
theorem krausInfo_data_processing (B : ι → Matrix m' m ℂ) (hB : Spec.TracePreserving B) (K : κ → Matrix m R ℂ)
    (L : κ' → Matrix m' R ℂ) (hL : ∀ ρ, Spec.applyKraus L ρ = Spec.applyKraus B (Spec.applyKraus K ρ)) {ρ : Matrix R R ℂ}
    (hρ : ρ.PosSemidef) : krausInfo L ρ ≤ krausInfo K ρ := by
  have h1 := Spec.applyKraus_posSemidef K hρ
  have h2 := Spec.exchange_posSemidef K hρ
  have h3 := Spec.applyKraus_posSemidef L hρ
  have h4 := Spec.exchange_posSemidef L hρ
  obtain ⟨-, w, -, hw⟩ := exists_eigen h1
  obtain ⟨-, v, -, hv⟩ := exists_eigen h2
  obtain ⟨-, w', -, hw'⟩ := exists_eigen h3
  obtain ⟨-, v', -, hv'⟩ := exists_eigen h4
  unfold krausInfo
  rw [specSum_eq h1 hw Real.negMulLog_zero, specSum_eq h2 hv Real.negMulLog_zero, specSum_eq h3 hw' Real.negMulLog_zero,
    specSum_eq h4 hv' Real.negMulLog_zero]
  exact kraus_data_processing B hB K L hL hρ hw hv hw' hv'

/-- If the output can be made from the environment, no state has positive coherent information. -/
theorem antidegradable_nonpos (B : ι → Matrix m κ ℂ) (hB : Spec.TracePreserving B) (K : κ → Matrix m R ℂ)
    (h : ∀ ρ, Spec.applyKraus B (Spec.entropyExchange K ρ) = Spec.applyKraus K ρ) {ρ : Matrix R R ℂ} (hρ : ρ.PosSemidef) :
    krausInfo K ρ ≤ 0 := by
  have := krausInfo_data_processing B hB (complOps K) K (fun ρ => by rw [applyKraus_compl, h]) hρ
  rw [krausInfo_compl] at this
  linarith

/-! ### Block diagonal matrices -/

theorem eigen_blockDiagonal {A V : τ → Matrix m m ℂ} {w : τ → m → ℝ} (h : ∀ i, Eigen (A i) (V i) (w i)) :
    Eigen (blockDiagonal A) (blockDiagonal V) fun z => w z.2 z.1 := by
  have hd : (diagonal fun z : m × τ => ((w z.2 z.1 : ℝ) : ℂ)) = blockDiagonal fun i => diagonal fun x => ((w i x : ℝ) : ℂ) := by
    rw [blockDiagonal_diagonal]
  refine ⟨?_, ?_, ?_, fun z => (h z.2).nonneg z.1⟩
  · rw [blockDiagonal_conjTranspose, ← blockDiagonal_mul]
    simp only [(h _).left]
    exact blockDiagonal_one
  · rw [blockDiagonal_conjTranspose, ← blockDiagonal_mul]
    simp only [(h _).right]
    exact blockDiagonal_one
  · rw [hd, blockDiagonal_conjTranspose, ← blockDiagonal_mul, ← blockDiagonal_mul]
    congr 1
    funext i
    exact (h i).eq

theorem eigen_posSemidef {A V : Matrix m m ℂ} {w : m → ℝ} (h : Eigen A V w) : A.PosSemidef := by
  rw [h.eq]
  exact (posSemidef_diagonal_iff.mpr fun i => by exact_mod_cast h.nonneg i).mul_mul_conjTranspose_same V

theorem blockDiagonal_posSemidef {A : τ → Matrix m m ℂ} (h : ∀ i, (A i).PosSemidef) : (blockDiagonal A).PosSemidef := by
  choose V w hw _ using fun i => exists_eigen (h i)
  exact eigen_posSemidef (eigen_blockDiagonal hw)

theorem blockDiagonal_specSum {A : τ → Matrix m m ℂ} (h : ∀ i, (A i).PosSemidef) {f : ℝ → ℝ} (hf : f 0 = 0) :
    specSum f (blockDiagonal A) = ∑ i, specSum f (A i) := by
  choose V w hw hc using fun i => exists_eigen (h i)
  rw [specSum_eq (blockDiagonal_posSemidef h) (eigen_charpoly (eigen_blockDiagonal hw)) hf, Fintype.sum_prod_type,
    Finset.sum_comm]
  exact Finset.sum_congr rfl fun i _ => (specSum_eq (h i) (hc i) hf).symm

/-- The entropy of a weighted state. -/
theorem specSum_smul {A : Matrix m m ℂ} (hA : A.PosSemidef) (tA : trace A = 1) {p : ℝ} (hp : 0 ≤ p) :
    specSum Real.negMulLog ((p : ℂ) • A) = p * specSum Real.negMulLog A + Real.negMulLog p := by
  obtain ⟨V, w, hw, hc⟩ := exists_eigen hA
  have sw : ∑ i, w i = 1 := by
    have := eigen_trace hw
    rw [tA] at this
    exact_mod_cast this.symm
  rw [specSum_eq (eigen_posSemidef (eigen_smul hw hp)) (eigen_charpoly (eigen_smul hw hp)) Real.negMulLog_zero,
    specSum_eq hA hc Real.negMulLog_zero]
  simp only [Real.negMulLog_mul, Finset.sum_add_distrib]
  rw [← Finset.sum_mul, ← Finset.mul_sum, sw]
  ring

/-! ### Linearity -/

omit [Fintype m] [DecidableEq κ] [DecidableEq m] [DecidableEq R] [DecidableEq τ] in
theorem applyKraus_mixture (K : κ → Matrix m R ℂ) (p : τ → ℂ) (ρ : τ → Matrix R R ℂ) :
    Spec.applyKraus K (∑ i, p i • ρ i) = ∑ i, p i • Spec.applyKraus K (ρ i) := by
  unfold Spec.applyKraus
  simp only [Matrix.mul_sum, Matrix.sum_mul, Matrix.mul_smul, Matrix.smul_mul, Finset.smul_sum]
  rw [Finset.sum_comm]

omit [Fintype κ] [DecidableEq κ] [DecidableEq m] [DecidableEq R] [DecidableEq τ] in
theorem exchange_mixture (K : κ → Matrix m R ℂ) (p : τ → ℂ) (ρ : τ → Matrix R R ℂ) :
    Spec.entropyExchange K (∑ i, p i • ρ i) = ∑ i, p i • Spec.entropyExchange K (ρ i) := by
  rw [← applyKraus_compl, applyKraus_mixture]
  simp only [applyKraus_compl]

omit [Fintype m] [DecidableEq m] in
theorem firstPart_blockDiagonal (A : τ → Matrix m m ℂ) : firstPart (blockDiagonal A) = ∑ i, A i := by
  ext x x'
  simp only [firstPart, blockDiagonal_apply, if_true, Matrix.sum_apply]

theorem applyKraus_blockDiagonal (B : ι → Matrix m' m ℂ) (A : τ → Matrix m m ℂ) :
    Spec.applyKraus (fun b => B b ⊗ₖ (1 : Matrix τ τ ℂ)) (blockDiagonal A) = blockDiagonal fun i => Spec.applyKraus B (A i) := by
  unfold Spec.applyKraus
  simp only [kronecker_one, blockDiagonal_conjTranspose, ← blockDiagonal_mul]
  ext ⟨x, i⟩ ⟨x', i'⟩
  simp only [Matrix.sum_apply, blockDiagonal_apply]
  split_ifs <;> simp

/-- The gain of entropy by mixing does not grow under a channel. -/
theorem holevo_mono (B : ι → Matrix m' m ℂ) (hB : Spec.TracePreserving B) (A : τ → Matrix m m ℂ)
    (hA : ∀ i, (A i).PosSemidef) :
    specSum Real.negMulLog (∑ i, Spec.applyKraus B (A i)) - ∑ i, specSum Real.negMulLog (Spec.applyKraus B (A i)) ≤
      specSum Real.negMulLog (∑ i, A i) - ∑ i, specSum Real.negMulLog (A i) := by
  have hJ := blockDiagonal_posSemidef hA
  have hBA := fun i => Spec.applyKraus_posSemidef B (hA i)
  have hJ' := blockDiagonal_posSemidef hBA
  have hF := posSemidef_sum Finset.univ fun i _ => hA i
  have hF' := posSemidef_sum Finset.univ fun i _ => hBA i
  obtain ⟨-, p, -, hp⟩ := exists_eigen hJ
  obtain ⟨-, q, -, hq⟩ := exists_eigen hF
  obtain ⟨-, p', -, hp'⟩ := exists_eigen hJ'
  obtain ⟨-, q', -, hq'⟩ := exists_eigen hF'
  have hlin : Spec.applyKraus B (∑ i, A i) = ∑ i, Spec.applyKraus B (A i) := by
    have := applyKraus_mixture B (fun _ : τ => 1) A
    simpa using this
  have key := conditional_entropy (R := τ) B hB hJ hp (by rw [firstPart_blockDiagonal]; exact hq)
    (by rw [applyKraus_blockDiagonal]; exact hp') (by rw [firstPart_blockDiagonal, hlin]; exact hq')
  rw [← blockDiagonal_specSum hA Real.negMulLog_zero, ← blockDiagonal_specSum hBA Real.negMulLog_zero,
    specSum_eq hJ hp Real.negMulLog_zero, specSum_eq hJ' hp' Real.negMulLog_zero, specSum_eq hF hq Real.negMulLog_zero,
    specSum_eq hF' hq' Real.negMulLog_zero]
  exact key

/-- If the environment can be made from the output, the coherent information is a concave function of the state. -/
theorem degradable_concave (D : ι → Matrix κ m ℂ) (hD : Spec.TracePreserving D) (K : κ → Matrix m R ℂ)
    (hK : Spec.TracePreserving K) (h : ∀ ρ, Spec.applyKraus D (Spec.applyKraus K ρ) = Spec.entropyExchange K ρ)
    (p : τ → ℝ) (hp : ∀ i, 0 ≤ p i) (ρ : τ → Matrix R R ℂ) (hρ : ∀ i, (ρ i).PosSemidef) (h1 : ∀ i, trace (ρ i) = 1) :
    ∑ i, p i * krausInfo K (ρ i) ≤ krausInfo K (∑ i, (p i : ℂ) • ρ i) := by
  have o := fun i => Spec.applyKraus_posSemidef K (hρ i)
  have x := fun i => Spec.exchange_posSemidef K (hρ i)
  have t := fun i => (Spec.applyKraus_trace K hK (ρ i)).trans (h1 i)
  have t' := fun i => (Spec.exchange_trace K (ρ i)).trans (t i)
  have key := holevo_mono D hD (fun i => (p i : ℂ) • Spec.applyKraus K (ρ i))
    fun i => (o i).smul (by exact_mod_cast hp i)
  have hs : ∀ i, Spec.applyKraus D ((p i : ℂ) • Spec.applyKraus K (ρ i)) = (p i : ℂ) • Spec.entropyExchange K (ρ i) := by
    intro i
    have := applyKraus_mixture D (fun _ : Unit => (p i : ℂ)) fun _ => Spec.applyKraus K (ρ i)
    simp only [Finset.univ_unique, Finset.sum_singleton] at this
    rw [this, h]
  simp only [hs, specSum_smul (o _) (t _) (hp _), specSum_smul (x _) (t' _) (hp _), Finset.sum_add_distrib] at key
  unfold krausInfo
  rw [applyKraus_mixture, exchange_mixture]
  simp only [mul_sub, Finset.sum_sub_distrib]
  linarith

/-! ### Symmetry -/

/-- Families with the same channel have exchange matrices with the same non-zero eigenvalues. -/
theorem exchange_specSum_same (K : κ → Matrix m R ℂ) (L : κ' → Matrix m R ℂ)
    (h : ∀ ρ, Spec.applyKraus K ρ = Spec.applyKraus L ρ) {ρ : Matrix R R ℂ} (hρ : ρ.PosSemidef) {f : ℝ → ℝ} (hf : f 0 = 0) :
    specSum f (Spec.entropyExchange K ρ) = specSum f (Spec.entropyExchange L ρ) := by
  obtain ⟨S, rfl⟩ := exists_factor hρ
  rw [← specSum_congr (jointState_posSemidef K S) (Spec.exchange_posSemidef K hρ) (exchange_jointState K S) hf,
    ← specSum_congr (jointState_posSemidef L S) (Spec.exchange_posSemidef L hρ) (exchange_jointState L S) hf,
    jointState_same K L h]

theorem specSum_conj {A V : Matrix m m ℂ} (hA : A.PosSemidef) (hV : Vᴴ * V = 1) {f : ℝ → ℝ} (hf : f 0 = 0) :
    specSum f (V * A * Vᴴ) = specSum f A := by
  refine specSum_congr (p := 0) (q := 0) (hA.mul_mul_conjTranspose_same V) hA ?_ hf
  rw [charpoly_mul_comm, ← Matrix.mul_assoc, hV, Matrix.one_mul]

/-- A rotation of the input that only rotates the output does not change the coherent information. -/
theorem krausInfo_covariant (K : κ → Matrix m R ℂ) {U : Matrix R R ℂ} {V : Matrix m m ℂ} (hV : Vᴴ * V = 1)
    (h : ∀ ρ, Spec.applyKraus K (U * ρ * Uᴴ) = V * Spec.applyKraus K ρ * Vᴴ) {ρ : Matrix R R ℂ} (hρ : ρ.PosSemidef) :
    krausInfo K (U * ρ * Uᴴ) = krausInfo K ρ := by
  have e1 : Spec.entropyExchange K (U * ρ * Uᴴ) = Spec.entropyExchange (fun k => K k * U) ρ := by
    ext i j
    unfold Spec.entropyExchange
    simp only [conjTranspose_mul, Matrix.mul_assoc]
  have e2 : Spec.entropyExchange (fun k => V * K k) ρ = Spec.entropyExchange K ρ := by
    ext i j
    unfold Spec.entropyExchange
    rw [conjTranspose_mul, ← Matrix.mul_assoc, trace_mul_comm]
    simp only [← Matrix.mul_assoc, hV, Matrix.one_mul]
  have hs : ∀ ρ, Spec.applyKraus (fun k => K k * U) ρ = Spec.applyKraus (fun k => V * K k) ρ := by
    intro ρ
    have h1 : Spec.applyKraus (fun k => K k * U) ρ = Spec.applyKraus K (U * ρ * Uᴴ) := by
      unfold Spec.applyKraus
      simp only [conjTranspose_mul, Matrix.mul_assoc]
    have h2 : Spec.applyKraus (fun k => V * K k) ρ = V * Spec.applyKraus K ρ * Vᴴ := by
      unfold Spec.applyKraus
      simp only [conjTranspose_mul, Matrix.mul_sum, Matrix.sum_mul, Matrix.mul_assoc]
    rw [h1, h2, h]
  unfold krausInfo
  rw [e1, exchange_specSum_same _ _ hs hρ Real.negMulLog_zero, e2, h,
    specSum_conj (Spec.applyKraus_posSemidef K hρ) hV Real.negMulLog_zero]

/-- Averaging a state over rotations that only rotate the output does not lower the coherent information. -/
theorem degradable_twirl (D : ι → Matrix κ m ℂ) (hD : Spec.TracePreserving D) (K : κ → Matrix m R ℂ)
    (hK : Spec.TracePreserving K) (h : ∀ ρ, Spec.applyKraus D (Spec.applyKraus K ρ) = Spec.entropyExchange K ρ)
    (U : τ → Matrix R R ℂ) (V : τ → Matrix m m ℂ) (hU : ∀ i, (U i)ᴴ * U i = 1) (hV : ∀ i, (V i)ᴴ * V i = 1)
    (hcov : ∀ i ρ, Spec.applyKraus K (U i * ρ * (U i)ᴴ) = V i * Spec.applyKraus K ρ * (V i)ᴴ)
    (p : τ → ℝ) (hp : ∀ i, 0 ≤ p i) (hp1 : ∑ i, p i = 1) {ρ : Matrix R R ℂ} (hρ : ρ.PosSemidef) (h1 : trace ρ = 1) :
    krausInfo K ρ ≤ krausInfo K (∑ i, (p i : ℂ) • (U i * ρ * (U i)ᴴ)) := by
  have key := degradable_concave D hD K hK h p hp (fun i => U i * ρ * (U i)ᴴ)
    (fun i => hρ.mul_mul_conjTranspose_same (U i)) fun i => by
      rw [trace_mul_comm, ← Matrix.mul_assoc, hU, Matrix.one_mul, h1]
  simp only [krausInfo_covariant K (hV _) (hcov _) hρ, ← Finset.sum_mul, hp1, one_mul] at key
  exact key

end Finite

end PyQ
