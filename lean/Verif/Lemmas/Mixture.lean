import Verif.Lemmas.CoherentDP
import Mathlib.Data.Matrix.ColumnRowPartitioned
import Mathlib.Analysis.SpecialFunctions.Log.NegMulLog

/-!
# Entropies of a mixture of two states and of two channels
-/

namespace PyQ

open Matrix Polynomial
open scoped ComplexOrder

section Finite

variable {κ κ' τ m m' R : Type} [Fintype κ] [Fintype κ'] [Fintype τ] [Fintype m] [Fintype m'] [Fintype R] [DecidableEq κ]
  [DecidableEq κ'] [DecidableEq τ] [DecidableEq m] [DecidableEq m'] [DecidableEq R]

open Classical in
/-- The sum of `f` over the eigenvalues of a positive semidefinite matrix. -/
noncomputable def specSum (f : ℝ → ℝ) (A : Matrix m m ℂ) : ℝ :=
  if h : A.PosSemidef then ∑ i, f (Classical.choose (Classical.choose_spec (exists_eigen h)) i) else 0

theorem specSum_eq {A : Matrix m m ℂ} (hA : A.PosSemidef) {w : m → ℝ} (hw : A.charpoly = ∏ i, (X - C ((w i : ℝ) : ℂ)))
    {f : ℝ → ℝ} (hf : f 0 = 0) : specSum f A = ∑ i, f (w i) := by
  unfold specSum
  rw [dif_pos hA]
  exact sum_eq_of_charpoly (p := 0) (q := 0) (Classical.choose_spec (Classical.choose_spec (exists_eigen hA))).2 hw rfl f hf

/-- Matrices with the same non-zero eigenvalues have the same sums. -/
theorem specSum_congr {A : Matrix m m ℂ} {B : Matrix m' m' ℂ} (hA : A.PosSemidef) (hB : B.PosSemidef) {p q : ℕ}
    (h : (X : ℂ[X]) ^ p * A.charpoly = X ^ q * B.charpoly) {f : ℝ → ℝ} (hf : f 0 = 0) : specSum f A = specSum f B := by
  obtain ⟨-, u, -, hu⟩ := exists_eigen hA
  obtain ⟨-, v, -, hv⟩ := exists_eigen hB
  rw [specSum_eq hA hu hf, specSum_eq hB hv hf]
  exact sum_eq_of_charpoly hu hv h f hf

theorem eigen_charpoly {A V : Matrix m m ℂ} {w : m → ℝ} (h : Eigen A V w) :
    A.charpoly = ∏ i, (X - C ((w i : ℝ) : ℂ)) := by
  rw [h.eq, charpoly_mul_comm, ← Matrix.mul_assoc, h.left, Matrix.one_mul, charpoly_diagonal]

theorem eigen_trace {A V : Matrix m m ℂ} {w : m → ℝ} (h : Eigen A V w) : trace A = ((∑ i, w i : ℝ) : ℂ) := by
  rw [h.eq, trace_mul_comm, ← Matrix.mul_assoc, h.left, Matrix.one_mul, trace_diagonal, Complex.ofReal_sum]

theorem eigen_smul {A V : Matrix m m ℂ} {w : m → ℝ} (h : Eigen A V w) {p : ℝ} (hp : 0 ≤ p) :
    Eigen ((p : ℂ) • A) V fun i => p * w i := by
  refine ⟨h.left, h.right, ?_, fun i => mul_nonneg hp (h.nonneg i)⟩
  have : (diagonal fun i => ((p * w i : ℝ) : ℂ)) = (p : ℂ) • diagonal fun i => ((w i : ℝ) : ℂ) := by
    rw [← diagonal_smul]
    congr 1
    funext i
    simp
  rw [this, Matrix.mul_smul, Matrix.smul_mul, ← h.eq]

/-- The block diagonal matrix of two weighted states. -/
noncomputable def mixBlock (p : ℝ) (A : Matrix m m ℂ) (B : Matrix m' m' ℂ) : Matrix (m ⊕ m') (m ⊕ m') ℂ :=
  fromBlocks ((p : ℂ) • A) 0 0 (((1 - p : ℝ) : ℂ) • B)

theorem mixBlock_entropy {p : ℝ} (h0 : 0 ≤ p) (h1 : p ≤ 1) {A : Matrix m m ℂ} {B : Matrix m' m' ℂ} (hA : A.PosSemidef)
    (hB : B.PosSemidef) (tA : trace A = 1) (tB : trace B = 1) (hM : (mixBlock p A B).PosSemidef) :
    specSum Real.negMulLog (mixBlock p A B) =
      p * specSum Real.negMulLog A + (1 - p) * specSum Real.negMulLog B + (Real.negMulLog p + Real.negMulLog (1 - p)) := by
  obtain ⟨V, u, hu, -⟩ := exists_eigen hA
  obtain ⟨U, v, hv, -⟩ := exists_eigen hB
  have su : ∑ i, u i = 1 := by
    have := eigen_trace hu
    rw [tA] at this
    exact_mod_cast this.symm
  have sv : ∑ i, v i = 1 := by
    have := eigen_trace hv
    rw [tB] at this
    exact_mod_cast this.symm
  have hc : (mixBlock p A B).charpoly =
      ∏ i, (X - C ((Sum.elim (fun i => p * u i) (fun i => (1 - p) * v i) i : ℝ) : ℂ)) := by
    unfold mixBlock
    rw [charpoly_fromBlocks_zero₁₂, eigen_charpoly (eigen_smul hu h0), eigen_charpoly (eigen_smul hv (sub_nonneg.mpr h1)),
      Fintype.prod_sum_type]
    rfl
  rw [specSum_eq hM hc Real.negMulLog_zero, specSum_eq hA (eigen_charpoly hu) Real.negMulLog_zero,
    specSum_eq hB (eigen_charpoly hv) Real.negMulLog_zero, Fintype.sum_sum_type]
  simp only [Sum.elim_inl, Sum.elim_inr, Real.negMulLog_mul, Finset.sum_add_distrib]
  rw [← Finset.sum_mul, ← Finset.sum_mul, ← Finset.mul_sum, ← Finset.mul_sum, su, sv]
  ring

theorem mixBlock_posSemidef {p : ℝ} (h0 : 0 ≤ p) (h1 : p ≤ 1) {A : Matrix m m ℂ} {B : Matrix m' m' ℂ} (hA : A.PosSemidef)
    (hB : B.PosSemidef) : (mixBlock p A B).PosSemidef := by
  obtain ⟨S, hS⟩ := exists_factor (hA.smul (show (0 : ℂ) ≤ (p : ℂ) by exact_mod_cast h0))
  obtain ⟨T, hT⟩ := exists_factor (hB.smul (show (0 : ℂ) ≤ ((1 - p : ℝ) : ℂ) by exact_mod_cast sub_nonneg.mpr h1))
  have : mixBlock p A B = fromBlocks S 0 0 T * (fromBlocks S 0 0 T)ᴴ := by
    unfold mixBlock
    rw [fromBlocks_conjTranspose, fromBlocks_multiply, hS, hT]
    simp
  rw [this]
  exact posSemidef_self_mul_conjTranspose _

/-- The Kraus operators that forget which of two states was prepared. -/
def forgetOps : Bool → Matrix m (m ⊕ m) ℂ
  | true => fromCols 1 0
  | false => fromCols 0 1

theorem forget_tp : Spec.TracePreserving (forgetOps (m := m)) := by
  unfold Spec.TracePreserving
  rw [Fintype.sum_bool]
  simp only [forgetOps, conjTranspose_fromCols_eq_fromRows_conjTranspose, fromRows_mul_fromCols, conjTranspose_one,
    conjTranspose_zero, Matrix.one_mul, Matrix.mul_zero, Matrix.zero_mul, Matrix.mul_one, fromBlocks_add, add_zero, zero_add]
  exact fromBlocks_one

theorem forget_mix (p : ℝ) (A B : Matrix m m ℂ) :
    Spec.applyKraus forgetOps (mixBlock p A B) = (p : ℂ) • A + ((1 - p : ℝ) : ℂ) • B := by
  unfold Spec.applyKraus mixBlock
  rw [Fintype.sum_bool]
  simp only [forgetOps, conjTranspose_fromCols_eq_fromRows_conjTranspose, fromCols_mul_fromBlocks, fromCols_mul_fromRows,
    conjTranspose_one, conjTranspose_zero, Matrix.one_mul, Matrix.mul_zero, Matrix.zero_mul, Matrix.mul_one, add_zero,
    zero_add]

/-- The entropy of a mixture is at least the mean of the entropies. -/
theorem entropy_concave {p : ℝ} (h0 : 0 ≤ p) (h1 : p ≤ 1) {A B : Matrix m m ℂ} (hA : A.PosSemidef) (hB : B.PosSemidef)
    (hM : ((p : ℂ) • A + ((1 - p : ℝ) : ℂ) • B).PosSemidef) :
    p * specSum Real.negMulLog A + (1 - p) * specSum Real.negMulLog B ≤
      specSum Real.negMulLog ((p : ℂ) • A + ((1 - p : ℝ) : ℂ) • B) := by
  obtain ⟨V, w, hw, -⟩ := exists_eigen hM
  set M := (p : ℂ) • A + ((1 - p : ℝ) : ℂ) • B with hMdef
  have diagM : ∀ i, (Vᴴ * M * V) i i = (w i : ℂ) := by
    intro i
    rw [hw.eq]
    have : Vᴴ * (V * diagonal (fun i => (w i : ℂ)) * Vᴴ) * V = (Vᴴ * V) * diagonal (fun i => (w i : ℂ)) * (Vᴴ * V) := by
      simp only [Matrix.mul_assoc]
    rw [this, hw.left, Matrix.one_mul, Matrix.mul_one, diagonal_apply_eq]
  have conj : ∀ {D : Matrix m m ℂ}, D.PosSemidef →
      specSum Real.negMulLog D ≤ ∑ i, Real.negMulLog ((Vᴴ * D * V) i i).re := by
    intro D hD
    obtain ⟨-, u, -, hu⟩ := exists_eigen hD
    rw [specSum_eq hD hu Real.negMulLog_zero]
    refine schur_entropy (Vᴴ * D * V) (hD.conjTranspose_mul_mul_same V) u ?_
    rw [charpoly_mul_comm, ← Matrix.mul_assoc, hw.right, Matrix.one_mul, hu]
  rw [specSum_eq hM (eigen_charpoly hw) Real.negMulLog_zero]
  have a1 := mul_le_mul_of_nonneg_left (conj hA) h0
  have a2 := mul_le_mul_of_nonneg_left (conj hB) (sub_nonneg.mpr h1)
  refine (add_le_add a1 a2).trans ?_
  rw [Finset.mul_sum, Finset.mul_sum, ← Finset.sum_add_distrib]
  refine Finset.sum_le_sum fun i _ => ?_
  have hre : ∀ {D : Matrix m m ℂ}, D.PosSemidef → 0 ≤ ((Vᴴ * D * V) i i).re := fun hD =>
    (Complex.le_def.mp ((hD.conjTranspose_mul_mul_same V).diag_nonneg (i := i))).1
  have hwi : w i = p * ((Vᴴ * A * V) i i).re + (1 - p) * ((Vᴴ * B * V) i i).re := by
    have := congrArg Complex.re (diagM i)
    rw [hMdef, Matrix.mul_add, Matrix.add_mul, Matrix.add_apply, Matrix.mul_smul, Matrix.mul_smul, Matrix.smul_mul,
      Matrix.smul_mul, Matrix.smul_apply, Matrix.smul_apply, smul_eq_mul, smul_eq_mul, Complex.add_re, Complex.re_ofReal_mul,
      Complex.re_ofReal_mul, Complex.ofReal_re] at this
    exact this.symm
  have := Real.concaveOn_negMulLog.2 (hre hA) (hre hB) h0 (sub_nonneg.mpr h1) (by ring)
  rw [hwi]
  simpa [smul_eq_mul] using this

/-- The Kraus operators that measure which of two states was prepared. -/
def pinchOps : Bool → Matrix (m ⊕ m') (m ⊕ m') ℂ
  | true => fromBlocks 1 0 0 0
  | false => fromBlocks 0 0 0 1

theorem pinch_apply (A : Matrix m m ℂ) (B : Matrix m m' ℂ) (B' : Matrix m' m ℂ) (D : Matrix m' m' ℂ) :
    Spec.applyKraus pinchOps (fromBlocks A B B' D) = fromBlocks A 0 0 D := by
  unfold Spec.applyKraus
  rw [Fintype.sum_bool]
  simp [pinchOps, fromBlocks_conjTranspose, fromBlocks_multiply, fromBlocks_add]

theorem pinch_tp : Spec.TracePreserving (pinchOps (m := m) (m' := m')) := by
  unfold Spec.TracePreserving
  rw [Fintype.sum_bool]
  simp [pinchOps, fromBlocks_conjTranspose, fromBlocks_multiply, fromBlocks_add]

/-- The entropy of a mixture is at most the mean of the entropies and the entropy of the choice. -/
theorem entropy_mix_le {p : ℝ} (h0 : 0 ≤ p) (h1 : p ≤ 1) {A B : Matrix m m ℂ} (hA : A.PosSemidef) (hB : B.PosSemidef)
    (tA : trace A = 1) (tB : trace B = 1) (hM : ((p : ℂ) • A + ((1 - p : ℝ) : ℂ) • B).PosSemidef) :
    specSum Real.negMulLog ((p : ℂ) • A + ((1 - p : ℝ) : ℂ) • B) ≤
      p * specSum Real.negMulLog A + (1 - p) * specSum Real.negMulLog B + (Real.negMulLog p + Real.negMulLog (1 - p)) := by
  have hmb := mixBlock_posSemidef h0 h1 hA hB
  rw [← mixBlock_entropy h0 h1 hA hB tA tB hmb]
  obtain ⟨S, hS⟩ := exists_factor (hA.smul (show (0 : ℂ) ≤ (p : ℂ) by exact_mod_cast h0))
  obtain ⟨T, hT⟩ := exists_factor (hB.smul (show (0 : ℂ) ≤ ((1 - p : ℝ) : ℂ) by exact_mod_cast sub_nonneg.mpr h1))
  have hX : (p : ℂ) • A + ((1 - p : ℝ) : ℂ) • B = fromCols S T * (fromCols S T)ᴴ := by
    rw [conjTranspose_fromCols_eq_fromRows_conjTranspose, fromCols_mul_fromRows, hS, hT]
  have hG : (fromCols S T)ᴴ * fromCols S T = fromBlocks (Sᴴ * S) (Sᴴ * T) (Tᴴ * S) (Tᴴ * T) := by
    rw [conjTranspose_fromCols_eq_fromRows_conjTranspose, fromRows_mul_fromCols]
  have hGp : (fromBlocks (Sᴴ * S) (Sᴴ * T) (Tᴴ * S) (Tᴴ * T)).PosSemidef := by
    rw [← hG]; exact posSemidef_conjTranspose_mul_self _
  have e1 : specSum Real.negMulLog ((p : ℂ) • A + ((1 - p : ℝ) : ℂ) • B) =
      specSum Real.negMulLog (fromBlocks (Sᴴ * S) (Sᴴ * T) (Tᴴ * S) (Tᴴ * T)) := by
    refine specSum_congr hM hGp (p := Fintype.card (m ⊕ m)) (q := Fintype.card m) ?_ Real.negMulLog_zero
    rw [hX, ← hG]
    exact charpoly_mul_comm' _ _
  have hP := Spec.applyKraus_posSemidef (pinchOps (m := m) (m' := m)) hGp
  have e2 : specSum Real.negMulLog (mixBlock p A B) =
      specSum Real.negMulLog (Spec.applyKraus pinchOps (fromBlocks (Sᴴ * S) (Sᴴ * T) (Tᴴ * S) (Tᴴ * T))) := by
    refine specSum_congr hmb hP (p := 0) (q := 0) ?_ Real.negMulLog_zero
    rw [pinch_apply]
    unfold mixBlock
    rw [charpoly_fromBlocks_zero₁₂, charpoly_fromBlocks_zero₁₂, hS, hT, charpoly_mul_comm S, charpoly_mul_comm T]
  rw [e1, e2]
  obtain ⟨-, u, -, hu⟩ := exists_eigen hGp
  obtain ⟨-, w, -, hw⟩ := exists_eigen hP
  rw [specSum_eq hGp hu Real.negMulLog_zero, specSum_eq hP hw Real.negMulLog_zero]
  refine kraus_unital pinchOps pinch_tp ?_ hGp hw hu
  rw [← fromBlocks_one, pinch_apply]

/-! ### Channels -/

/-- The channel that applies one of two channels and says which. -/
noncomputable def flagOps (p : ℝ) (K : κ → Matrix m R ℂ) (L : κ' → Matrix m R ℂ) : κ ⊕ κ' → Matrix (m ⊕ m) R ℂ
  | .inl k => fromRows (((Real.sqrt p : ℝ) : ℂ) • K k) 0
  | .inr k => fromRows 0 (((Real.sqrt (1 - p) : ℝ) : ℂ) • L k)

theorem sqrt_smul_mul {p : ℝ} (h0 : 0 ≤ p) (K K' : Matrix m R ℂ) (ρ : Matrix R R ℂ) :
    (((Real.sqrt p : ℝ) : ℂ) • K) * ρ * (((Real.sqrt p : ℝ) : ℂ) • K')ᴴ = (p : ℂ) • (K * ρ * K'ᴴ) := by
  rw [conjTranspose_smul, Matrix.smul_mul, Matrix.smul_mul, Matrix.mul_smul, smul_smul, Complex.star_def, Complex.conj_ofReal,
    ← Complex.ofReal_mul, Real.mul_self_sqrt h0]

theorem flag_inl {p : ℝ} (h0 : 0 ≤ p) (K : κ → Matrix m R ℂ) (L : κ' → Matrix m R ℂ) (ρ : Matrix R R ℂ) (k k' : κ) :
    flagOps p K L (.inl k) * ρ * (flagOps p K L (.inl k'))ᴴ = fromBlocks ((p : ℂ) • (K k * ρ * (K k')ᴴ)) 0 0 0 := by
  simp only [flagOps]
  rw [conjTranspose_fromRows_eq_fromCols_conjTranspose, fromRows_mul, fromRows_mul_fromCols, sqrt_smul_mul h0]
  simp

theorem flag_inr {p : ℝ} (h1 : p ≤ 1) (K : κ → Matrix m R ℂ) (L : κ' → Matrix m R ℂ) (ρ : Matrix R R ℂ) (k k' : κ') :
    flagOps p K L (.inr k) * ρ * (flagOps p K L (.inr k'))ᴴ =
      fromBlocks 0 0 0 (((1 - p : ℝ) : ℂ) • (L k * ρ * (L k')ᴴ)) := by
  simp only [flagOps]
  rw [conjTranspose_fromRows_eq_fromCols_conjTranspose, fromRows_mul, fromRows_mul_fromCols,
    sqrt_smul_mul (sub_nonneg.mpr h1)]
  simp

theorem flag_cross {p : ℝ} (K : κ → Matrix m R ℂ) (L : κ' → Matrix m R ℂ) (ρ : Matrix R R ℂ) (k : κ) (k' : κ') :
    trace (flagOps p K L (.inl k) * ρ * (flagOps p K L (.inr k'))ᴴ) = 0 ∧
    trace (flagOps p K L (.inr k') * ρ * (flagOps p K L (.inl k))ᴴ) = 0 := by
  simp only [flagOps]
  constructor
  · rw [conjTranspose_fromRows_eq_fromCols_conjTranspose, fromRows_mul, fromRows_mul_fromCols]
    simp [trace]
  · rw [conjTranspose_fromRows_eq_fromCols_conjTranspose, fromRows_mul, fromRows_mul_fromCols]
    simp [trace]

theorem flag_apply {p : ℝ} (h0 : 0 ≤ p) (h1 : p ≤ 1) (K : κ → Matrix m R ℂ) (L : κ' → Matrix m R ℂ) (ρ : Matrix R R ℂ) :
    Spec.applyKraus (flagOps p K L) ρ = mixBlock p (Spec.applyKraus K ρ) (Spec.applyKraus L ρ) := by
  unfold Spec.applyKraus mixBlock
  rw [Fintype.sum_sum_type]
  simp only [flag_inl h0, flag_inr h1]
  ext (i | i) (j | j) <;> simp [Matrix.sum_apply, Finset.mul_sum]

theorem flag_exchange {p : ℝ} (h0 : 0 ≤ p) (h1 : p ≤ 1) (K : κ → Matrix m R ℂ) (L : κ' → Matrix m R ℂ) (ρ : Matrix R R ℂ) :
    Spec.entropyExchange (flagOps p K L) ρ = mixBlock p (Spec.entropyExchange K ρ) (Spec.entropyExchange L ρ) := by
  ext (i | i) (j | j)
  · change trace _ = (p : ℂ) * trace _
    rw [flag_inl h0]
    simp [trace, Finset.mul_sum]
  · exact (flag_cross K L ρ i j).1
  · exact (flag_cross K L ρ j i).2
  · change trace _ = ((1 - p : ℝ) : ℂ) * trace _
    rw [flag_inr h1]
    simp [trace, Finset.mul_sum]

/-- The joint state is a linear function of the channel. -/
theorem jointState_channel (K : κ → Matrix m R ℂ) (S : Matrix R R ℂ) (z z' : m × R) : jointState K S z z' =
    ∑ u, ∑ u', S u z.2 * star (S u' z'.2) * Spec.applyKraus K (Matrix.single u u' 1) z.1 z'.1 := by
  rw [jointState_apply]
  simp only [applyKraus_single, Matrix.mul_apply, star_sum, star_mul', Finset.sum_mul_sum]
  simp only [Finset.mul_sum]
  rw [Finset.sum_comm]
  refine Finset.sum_congr rfl fun u _ => ?_
  rw [Finset.sum_comm]
  refine Finset.sum_congr rfl fun u' _ => Finset.sum_congr rfl fun k _ => ?_
  ring

/-- The difference of the entropies of output and exchange matrix. -/
noncomputable def krausInfo (K : κ → Matrix m R ℂ) (ρ : Matrix R R ℂ) : ℝ :=
  specSum Real.negMulLog (Spec.applyKraus K ρ) - specSum Real.negMulLog (Spec.entropyExchange K ρ)

/-- A channel that is a mixture of two channels has at most the mean of their coherent informations, and at least that minus
the entropy of the choice. -/
theorem kraus_mix {p : ℝ} (h0 : 0 ≤ p) (h1 : p ≤ 1) (K : κ → Matrix m R ℂ) (L : κ' → Matrix m R ℂ) (T : τ → Matrix m R ℂ)
    (hK : Spec.TracePreserving K) (hL : Spec.TracePreserving L)
    (hT : ∀ ρ, Spec.applyKraus T ρ = (p : ℂ) • Spec.applyKraus K ρ + ((1 - p : ℝ) : ℂ) • Spec.applyKraus L ρ)
    {ρ : Matrix R R ℂ} (hρ : ρ.PosSemidef) (h2 : trace ρ = 1) :
    krausInfo T ρ ≤ p * krausInfo K ρ + (1 - p) * krausInfo L ρ ∧
    p * krausInfo K ρ + (1 - p) * krausInfo L ρ - (Real.negMulLog p + Real.negMulLog (1 - p)) ≤ krausInfo T ρ := by
  have oK := Spec.applyKraus_posSemidef K hρ
  have oL := Spec.applyKraus_posSemidef L hρ
  have oT := Spec.applyKraus_posSemidef T hρ
  have xK := Spec.exchange_posSemidef K hρ
  have xL := Spec.exchange_posSemidef L hρ
  have xT := Spec.exchange_posSemidef T hρ
  have tK := (Spec.applyKraus_trace K hK ρ).trans h2
  have tL := (Spec.applyKraus_trace L hL ρ).trans h2
  have tK' := (Spec.exchange_trace K ρ).trans tK
  have tL' := (Spec.exchange_trace L ρ).trans tL
  constructor
  · have oF := Spec.applyKraus_posSemidef (flagOps p K L) hρ
    have xF := Spec.exchange_posSemidef (flagOps p K L) hρ
    obtain ⟨-, w, -, hw⟩ := exists_eigen oF
    obtain ⟨-, v, -, hv⟩ := exists_eigen xF
    obtain ⟨-, w', -, hw'⟩ := exists_eigen oT
    obtain ⟨-, v', -, hv'⟩ := exists_eigen xT
    have key := kraus_data_processing forgetOps forget_tp (flagOps p K L) T
      (fun ρ => by rw [flag_apply h0 h1, forget_mix, hT]) hρ hw hv hw' hv'
    rw [← specSum_eq oF hw Real.negMulLog_zero, ← specSum_eq xF hv Real.negMulLog_zero,
      ← specSum_eq oT hw' Real.negMulLog_zero, ← specSum_eq xT hv' Real.negMulLog_zero] at key
    rw [flag_apply h0 h1, flag_exchange h0 h1] at key
    rw [flag_apply h0 h1] at oF
    rw [flag_exchange h0 h1] at xF
    rw [mixBlock_entropy h0 h1 oK oL tK tL oF, mixBlock_entropy h0 h1 xK xL tK' tL' xF] at key
    unfold krausInfo
    linarith
  · obtain ⟨S, rfl⟩ := exists_factor hρ
    have oT' := oT
    rw [hT] at oT'
    have a1 := entropy_concave h0 h1 oK oL oT'
    have hJ : jointState T S = (p : ℂ) • jointState K S + ((1 - p : ℝ) : ℂ) • jointState L S := by
      ext z z'
      rw [Matrix.add_apply, Matrix.smul_apply, Matrix.smul_apply, jointState_channel, jointState_channel,
        jointState_channel]
      simp only [hT, Matrix.add_apply, Matrix.smul_apply, smul_eq_mul, Finset.mul_sum]
      rw [← Finset.sum_add_distrib]
      refine Finset.sum_congr rfl fun u _ => ?_
      rw [← Finset.sum_add_distrib]
      refine Finset.sum_congr rfl fun u' _ => ?_
      ring
    have jK := jointState_posSemidef K S
    have jL := jointState_posSemidef L S
    have jT := jointState_posSemidef T S
    have jT' := jT
    rw [hJ] at jT'
    have first : ∀ {J : Matrix (m × R) (m × R) ℂ}, trace (firstPart J) = trace J := by
      intro J
      simp only [trace, firstPart, diag_apply, Fintype.sum_prod_type]
    have a2 := entropy_mix_le h0 h1 jK jL (by rw [← first, firstPart_jointState, tK])
      (by rw [← first, firstPart_jointState, tL]) jT'
    rw [← hJ, specSum_congr jK xK (exchange_jointState K S) Real.negMulLog_zero,
      specSum_congr jL xL (exchange_jointState L S) Real.negMulLog_zero,
      specSum_congr jT xT (exchange_jointState T S) Real.negMulLog_zero] at a2
    rw [← hT] at a1
    unfold krausInfo
    linarith

end Finite

end PyQ
