import Verif.Spec.StdChannels
import Verif.Lemmas.DegradablePow

/-!
# The channels of the documentation and the tests: outputs, exchange matrices, degrading maps
-/

namespace PyQ

open Matrix Polynomial Spec
open scoped ComplexOrder

theorem amp_mul_self {p : ℝ} (hp : 0 ≤ p) : amp p * amp p = p := by
  unfold amp
  rw [← Complex.ofReal_mul, Real.mul_self_sqrt hp]

theorem amp_conj (p : ℝ) : (starRingEnd ℂ) (amp p) = amp p := by
  unfold amp
  exact Complex.conj_ofReal _

theorem amp_star (p : ℝ) : star (amp p) = amp p := amp_conj p

theorem amp_mul {p q : ℝ} (hp : 0 ≤ p) : amp (p * q) = amp p * amp q := by
  unfold amp
  rw [Real.sqrt_mul hp, Complex.ofReal_mul]

/-- Entry by entry evaluation. -/
theorem applyKraus_apply {ι r c : Type} [Fintype ι] [Fintype r] [Fintype c] (K : ι → Matrix r c ℂ) (ρ : Matrix c c ℂ)
    (x x' : r) : applyKraus K ρ x x' = ∑ i, ∑ y', (∑ y, K i x y * ρ y y') * star (K i x' y') := by
  unfold applyKraus
  rw [Matrix.sum_apply]
  simp only [Matrix.mul_apply, conjTranspose_apply]

theorem exchange_apply {ι r c : Type} [Fintype r] [Fintype c] (K : ι → Matrix r c ℂ) (ρ : Matrix c c ℂ)
    (i i' : ι) : entropyExchange K ρ i i' = ∑ x, ∑ y', (∑ y, K i x y * ρ y y') * star (K i' x y') := by
  unfold entropyExchange
  simp only [trace, diag_apply, Matrix.mul_apply, conjTranspose_apply]

theorem tp_apply {ι r c : Type} [Fintype ι] [Fintype r] [Fintype c] [DecidableEq c] (K : ι → Matrix r c ℂ) :
    TracePreserving K ↔ ∀ y y', ∑ i, ∑ x, star (K i x y) * K i x y' = if y = y' then 1 else 0 := by
  unfold TracePreserving
  rw [← Matrix.ext_iff]
  simp only [Matrix.sum_apply, Matrix.mul_apply, conjTranspose_apply, Matrix.one_apply]

/-! ### Entropies of simple matrices -/

section
variable {m κ R : Type} [Fintype m] [Fintype κ] [Fintype R] [DecidableEq m] [DecidableEq κ] [DecidableEq R]

theorem specSum_diagonal {w : m → ℝ} (hw : ∀ i, 0 ≤ w i) {f : ℝ → ℝ} (hf : f 0 = 0) :
    specSum f (diagonal fun i => ((w i : ℝ) : ℂ)) = ∑ i, f (w i) :=
  specSum_eq (posSemidef_diagonal_iff.mpr fun i => by exact_mod_cast hw i) (charpoly_diagonal _) hf

theorem specSum_submatrix {m' : Type} [Fintype m'] [DecidableEq m'] (e : m' ≃ m) {A : Matrix m m ℂ} (hA : A.PosSemidef)
    {f : ℝ → ℝ} (hf : f 0 = 0) : specSum f (A.submatrix e e) = specSum f A := by
  refine specSum_congr (p := 0) (q := 0) (hA.submatrix e) hA ?_ hf
  rw [← charpoly_reindex e.symm A]
  rfl

theorem krausInfo_rotate (K : κ → Matrix m R ℂ) {U : Matrix R R ℂ} {V : Matrix m m ℂ} (hV : Vᴴ * V = 1) {ρ : Matrix R R ℂ}
    (hρ : ρ.PosSemidef) : krausInfo (fun k => V * K k * U) ρ = krausInfo K (U * ρ * Uᴴ) := by
  have e1 : entropyExchange (fun k => V * K k * U) ρ = entropyExchange K (U * ρ * Uᴴ) := by
    ext i j
    unfold entropyExchange
    have : V * K i * U * ρ * (V * K j * U)ᴴ = V * (K i * (U * ρ * Uᴴ) * (K j)ᴴ * Vᴴ) := by
      simp only [conjTranspose_mul, Matrix.mul_assoc]
    rw [this, trace_mul_comm, Matrix.mul_assoc, hV, Matrix.mul_one]
  have e2 : applyKraus (fun k => V * K k * U) ρ = V * applyKraus K (U * ρ * Uᴴ) * Vᴴ := by
    unfold applyKraus
    simp only [conjTranspose_mul, Matrix.mul_sum, Matrix.sum_mul, Matrix.mul_assoc]
  unfold krausInfo
  rw [e1, e2, specSum_conj (Spec.applyKraus_posSemidef K (hρ.mul_mul_conjTranspose_same U)) hV Real.negMulLog_zero]

theorem degrade_rotate {ι : Type} [Fintype ι] (D : ι → Matrix κ m ℂ) (K : κ → Matrix m R ℂ) {U : Matrix R R ℂ}
    {V : Matrix m m ℂ} (hV : Vᴴ * V = 1) (h : ∀ ρ, applyKraus D (applyKraus K ρ) = entropyExchange K ρ) (ρ : Matrix R R ℂ) :
    applyKraus (fun i => D i * Vᴴ) (applyKraus (fun k => V * K k * U) ρ) = entropyExchange (fun k => V * K k * U) ρ := by
  have e1 : entropyExchange (fun k => V * K k * U) ρ = entropyExchange K (U * ρ * Uᴴ) := by
    ext i j
    unfold entropyExchange
    have : V * K i * U * ρ * (V * K j * U)ᴴ = V * (K i * (U * ρ * Uᴴ) * (K j)ᴴ * Vᴴ) := by
      simp only [conjTranspose_mul, Matrix.mul_assoc]
    rw [this, trace_mul_comm, Matrix.mul_assoc, hV, Matrix.mul_one]
  have e2 : applyKraus (fun k => V * K k * U) ρ = V * applyKraus K (U * ρ * Uᴴ) * Vᴴ := by
    unfold applyKraus
    simp only [conjTranspose_mul, Matrix.mul_sum, Matrix.sum_mul, Matrix.mul_assoc]
  rw [e1, e2, ← h]
  set Y := applyKraus K (U * ρ * Uᴴ)
  unfold applyKraus
  refine Finset.sum_congr rfl fun i _ => ?_
  have : D i * Vᴴ * (V * Y * Vᴴ) * (D i * Vᴴ)ᴴ = D i * ((Vᴴ * V) * Y * (Vᴴ * V)) * (D i)ᴴ := by
    simp only [conjTranspose_mul, conjTranspose_conjTranspose, Matrix.mul_assoc]
  rw [this, hV, Matrix.one_mul, Matrix.mul_one]

theorem tp_rotate (K : κ → Matrix m R ℂ) (hK : TracePreserving K) {U : Matrix R R ℂ} (hU : Uᴴ * U = 1)
    {V : Matrix m m ℂ} (hV : Vᴴ * V = 1) : TracePreserving fun k => V * K k * U := by
  unfold TracePreserving at hK ⊢
  have : ∀ k, (V * K k * U)ᴴ * (V * K k * U) = Uᴴ * ((K k)ᴴ * K k) * U := by
    intro k
    have : (V * K k * U)ᴴ * (V * K k * U) = Uᴴ * ((K k)ᴴ * ((Vᴴ * V) * K k)) * U := by
      simp only [conjTranspose_mul, Matrix.mul_assoc]
    rw [this, hV, Matrix.one_mul]
  simp only [this, ← Matrix.mul_sum, ← Matrix.sum_mul, hK, Matrix.mul_one, hU]

end

/-! ### Phase flips -/

section
variable {p : ℝ}

theorem phaseFlip_tp (h0 : 0 ≤ p) (h1 : p ≤ 1) : TracePreserving (phaseFlip p) := by
  have e0 := amp_mul_self h0
  have e1 := amp_mul_self (sub_nonneg.mpr h1)
  push_cast at e1
  rw [tp_apply]
  intro i j
  fin_cases i <;> fin_cases j <;> simp [phaseFlip, Fin.sum_univ_two, amp_conj] <;> linear_combination e0 + e1

theorem phaseFlip_out (h0 : 0 ≤ p) (h1 : p ≤ 1) (x : Matrix (Fin 2) (Fin 2) ℂ) :
    applyKraus (phaseFlip p) x = !![x 0 0, (1 - 2 * p) * x 0 1; (1 - 2 * p) * x 1 0, x 1 1] := by
  have e0 := amp_mul_self h0
  have e1 := amp_mul_self (sub_nonneg.mpr h1)
  push_cast at e1
  ext i j
  rw [applyKraus_apply]
  fin_cases i <;> fin_cases j <;> simp [phaseFlip, Fin.sum_univ_two, amp_conj]
  · linear_combination x 0 0 * e0 + x 0 0 * e1
  · linear_combination -x 0 1 * e0 + x 0 1 * e1
  · linear_combination -x 1 0 * e0 + x 1 0 * e1
  · linear_combination x 1 1 * e0 + x 1 1 * e1

theorem phaseFlip_exchange (h0 : 0 ≤ p) (h1 : p ≤ 1) (x : Matrix (Fin 2) (Fin 2) ℂ) :
    entropyExchange (phaseFlip p) x = !![(1 - p) * (x 0 0 + x 1 1), amp (1 - p) * amp p * (x 0 0 - x 1 1);
      amp (1 - p) * amp p * (x 0 0 - x 1 1), p * (x 0 0 + x 1 1)] := by
  have e0 := amp_mul_self h0
  have e1 := amp_mul_self (sub_nonneg.mpr h1)
  push_cast at e1
  ext i j
  rw [exchange_apply]
  fin_cases i <;> fin_cases j <;> simp [phaseFlip, Fin.sum_univ_two, amp_conj]
  · linear_combination (x 0 0 + x 1 1) * e1
  · ring
  · ring
  · linear_combination (x 0 0 + x 1 1) * e0

/-- The map from the output of a phase flip to its environment. -/
noncomputable def phaseDegrade (p : ℝ) : Fin 2 → Matrix (Fin 2) (Fin 2) ℂ :=
  ![!![amp (1 - p), 0; amp p, 0], !![0, amp (1 - p); 0, -amp p]]

theorem phaseDegrade_tp (h0 : 0 ≤ p) (h1 : p ≤ 1) : TracePreserving (phaseDegrade p) := by
  have e0 := amp_mul_self h0
  have e1 := amp_mul_self (sub_nonneg.mpr h1)
  push_cast at e1
  rw [tp_apply]
  intro i j
  fin_cases i <;> fin_cases j <;> simp [phaseDegrade, Fin.sum_univ_two, amp_conj] <;> linear_combination e0 + e1

theorem phaseFlip_degrade (h0 : 0 ≤ p) (h1 : p ≤ 1) (x : Matrix (Fin 2) (Fin 2) ℂ) :
    applyKraus (phaseDegrade p) (applyKraus (phaseFlip p) x) = entropyExchange (phaseFlip p) x := by
  have e0 := amp_mul_self h0
  have e1 := amp_mul_self (sub_nonneg.mpr h1)
  push_cast at e1
  rw [phaseFlip_out h0 h1, phaseFlip_exchange h0 h1]
  ext i j
  rw [applyKraus_apply]
  fin_cases i <;> fin_cases j <;> simp [phaseDegrade, Fin.sum_univ_two, amp_conj]
  · linear_combination (x 0 0 + x 1 1) * e1
  · ring
  · ring
  · linear_combination (x 0 0 + x 1 1) * e0

/-- The Pauli matrices. -/
def paulis : Fin 4 → Matrix (Fin 2) (Fin 2) ℂ := ![!![1, 0; 0, 1], !![0, 1; 1, 0], !![1, 0; 0, -1], !![0, 1; -1, 0]]

theorem paulis_unitary (i : Fin 4) : (paulis i)ᴴ * paulis i = 1 := by
  ext a b
  fin_cases i <;> fin_cases a <;> fin_cases b <;> simp [paulis, Matrix.mul_apply, Fin.sum_univ_two]

theorem phaseFlip_covariant (h0 : 0 ≤ p) (h1 : p ≤ 1) (i : Fin 4) (x : Matrix (Fin 2) (Fin 2) ℂ) :
    applyKraus (phaseFlip p) (paulis i * x * (paulis i)ᴴ) = paulis i * applyKraus (phaseFlip p) x * (paulis i)ᴴ := by
  rw [phaseFlip_out h0 h1, phaseFlip_out h0 h1]
  ext a b
  fin_cases i <;> fin_cases a <;> fin_cases b <;>
    simp [paulis, Matrix.mul_apply, Fin.sum_univ_two, vecMul, dotProduct]

theorem paulis_twirl (x : Matrix (Fin 2) (Fin 2) ℂ) :
    ∑ i, ((1 / 4 : ℝ) : ℂ) • (paulis i * x * (paulis i)ᴴ) = (trace x / 2) • (1 : Matrix (Fin 2) (Fin 2) ℂ) := by
  ext a b
  rw [Matrix.sum_apply]
  fin_cases a <;> fin_cases b <;>
    simp [paulis, Matrix.mul_apply, Fin.sum_univ_two, Fin.sum_univ_four, trace] <;> ring

theorem mixed_density : IsDensity ((1 / 2 : ℂ) • (1 : Matrix (Fin 2) (Fin 2) ℂ)) := by
  refine ⟨PosSemidef.one.smul (by norm_num [Complex.le_def]), ?_⟩
  rw [trace_smul, trace_one]
  norm_num

theorem half_diag : ((1 / 2 : ℂ) • (1 : Matrix (Fin 2) (Fin 2) ℂ)) = diagonal fun _ => ((1 / 2 : ℝ) : ℂ) := by
  ext a b
  fin_cases a <;> fin_cases b <;> simp

theorem two_halves : ∑ _i : Fin 2, Real.negMulLog (1 / 2) = Real.log 2 := by
  rw [Fin.sum_univ_two, Real.negMulLog, one_div, Real.log_inv]
  ring

theorem phaseFlip_mixed (h0 : 0 ≤ p) (h1 : p ≤ 1) : krausInfo (phaseFlip p) ((1 / 2 : ℂ) • 1) =
    Real.log 2 - (Real.negMulLog p + Real.negMulLog (1 - p)) := by
  have e1 : applyKraus (phaseFlip p) ((1 / 2 : ℂ) • 1) = diagonal fun _ => ((1 / 2 : ℝ) : ℂ) := by
    rw [phaseFlip_out h0 h1]
    ext a b
    fin_cases a <;> fin_cases b <;> simp
  have e2 : entropyExchange (phaseFlip p) ((1 / 2 : ℂ) • 1) = diagonal fun i => ((![1 - p, p] i : ℝ) : ℂ) := by
    rw [phaseFlip_exchange h0 h1]
    ext a b
    fin_cases a <;> fin_cases b <;> simp <;> ring
  unfold krausInfo
  rw [e1, e2, specSum_diagonal (fun _ => by norm_num) Real.negMulLog_zero, two_halves,
    specSum_diagonal (fun i => by fin_cases i <;> simp [h0, h1]) Real.negMulLog_zero, Fin.sum_univ_two]
  simp only [cons_val_zero, cons_val_one]
  ring

theorem phaseFlip_bound (h0 : 0 ≤ p) (h1 : p ≤ 1) {ρ : Matrix (Fin 2) (Fin 2) ℂ} (hρ : IsDensity ρ) :
    krausInfo (phaseFlip p) ρ ≤ Real.log 2 - (Real.negMulLog p + Real.negMulLog (1 - p)) := by
  have key := degradable_twirl (phaseDegrade p) (phaseDegrade_tp h0 h1) (phaseFlip p) (phaseFlip_tp h0 h1)
    (phaseFlip_degrade h0 h1) paulis paulis paulis_unitary paulis_unitary (phaseFlip_covariant h0 h1) (fun _ => 1 / 4)
    (fun _ => by norm_num) (by norm_num) hρ.1 hρ.2
  rw [paulis_twirl, hρ.2, phaseFlip_mixed h0 h1] at key
  exact key

/-! ### Bit flips -/

/-- The Hadamard matrix. -/
noncomputable def hadam : Matrix (Fin 2) (Fin 2) ℂ := amp (1 / 2) • !![1, 1; 1, -1]

theorem amp_half : amp (1 / 2) * amp (1 / 2) = 1 / 2 := by
  rw [amp_mul_self (by norm_num)]
  push_cast
  rfl

theorem hadam_conjTranspose : hadamᴴ = hadam := by
  ext i j
  fin_cases i <;> fin_cases j <;> simp [hadam, amp_conj]

theorem hadam_unitary : hadamᴴ * hadam = 1 := by
  rw [hadam_conjTranspose]
  ext i j
  fin_cases i <;> fin_cases j <;> simp [hadam, Matrix.mul_apply, Fin.sum_univ_two, -one_div] <;>
    linear_combination 2 * amp_half

theorem bitFlip_eq (p : ℝ) : bitFlip p = fun k => hadam * phaseFlip p k * hadam := by
  funext k
  ext i j
  fin_cases k <;> fin_cases i <;> fin_cases j <;>
    simp [bitFlip, phaseFlip, hadam, Matrix.mul_apply, Fin.sum_univ_two, -one_div]
  · linear_combination -2 * amp (1 - p) * amp_half
  · linear_combination -2 * amp (1 - p) * amp_half
  · linear_combination -2 * amp p * amp_half
  · linear_combination -2 * amp p * amp_half

theorem bitFlip_tp (h0 : 0 ≤ p) (h1 : p ≤ 1) : TracePreserving (bitFlip p) := by
  rw [bitFlip_eq]
  exact tp_rotate _ (phaseFlip_tp h0 h1) hadam_unitary hadam_unitary

/-- The map from the output of a bit flip to its environment. -/
noncomputable def bitDegrade (p : ℝ) : Fin 2 → Matrix (Fin 2) (Fin 2) ℂ := fun i => phaseDegrade p i * hadamᴴ

theorem bitDegrade_tp (h0 : 0 ≤ p) (h1 : p ≤ 1) : TracePreserving (bitDegrade p) := by
  have hh : hadamᴴᴴ * hadamᴴ = 1 := by
    have := hadam_unitary
    rw [hadam_conjTranspose] at this
    rw [conjTranspose_conjTranspose, hadam_conjTranspose, this]
  have h := tp_rotate (phaseDegrade p) (phaseDegrade_tp h0 h1) (U := hadamᴴ) (V := 1) hh (by simp)
  simp only [Matrix.one_mul] at h
  exact h

theorem bitFlip_degrade (h0 : 0 ≤ p) (h1 : p ≤ 1) (x : Matrix (Fin 2) (Fin 2) ℂ) :
    applyKraus (bitDegrade p) (applyKraus (bitFlip p) x) = entropyExchange (bitFlip p) x := by
  rw [bitFlip_eq]
  exact degrade_rotate _ _ hadam_unitary (phaseFlip_degrade h0 h1) x

theorem rotate_density {U ρ : Matrix (Fin 2) (Fin 2) ℂ} (hU : Uᴴ * U = 1) (hρ : IsDensity ρ) : IsDensity (U * ρ * Uᴴ) := by
  refine ⟨hρ.1.mul_mul_conjTranspose_same U, ?_⟩
  rw [trace_mul_comm, ← Matrix.mul_assoc, hU, Matrix.one_mul, hρ.2]

theorem bitFlip_bound (h0 : 0 ≤ p) (h1 : p ≤ 1) {ρ : Matrix (Fin 2) (Fin 2) ℂ} (hρ : IsDensity ρ) :
    krausInfo (bitFlip p) ρ ≤ Real.log 2 - (Real.negMulLog p + Real.negMulLog (1 - p)) := by
  rw [bitFlip_eq, krausInfo_rotate _ hadam_unitary hρ.1]
  exact phaseFlip_bound h0 h1 (rotate_density hadam_unitary hρ)

theorem bitFlip_mixed (h0 : 0 ≤ p) (h1 : p ≤ 1) : krausInfo (bitFlip p) ((1 / 2 : ℂ) • 1) =
    Real.log 2 - (Real.negMulLog p + Real.negMulLog (1 - p)) := by
  rw [bitFlip_eq, krausInfo_rotate _ hadam_unitary mixed_density.1, Matrix.mul_smul, Matrix.smul_mul, Matrix.mul_one,
    hadam_conjTranspose]
  nth_rw 1 [← hadam_conjTranspose]
  rw [hadam_unitary]
  exact phaseFlip_mixed h0 h1

end

/-! ### Erasure -/

section
variable {q : ℝ}

theorem erasure_tp (h0 : 0 ≤ q) (h1 : q ≤ 1) : TracePreserving (erasure q) := by
  have e0 := amp_mul_self h0
  have e1 := amp_mul_self (sub_nonneg.mpr h1)
  push_cast at e1
  rw [tp_apply]
  intro i j
  fin_cases i <;> fin_cases j <;> simp [erasure, Fin.sum_univ_three, amp_conj] <;> linear_combination e0 + e1

theorem erasure_out (h0 : 0 ≤ q) (h1 : q ≤ 1) (x : Matrix (Fin 2) (Fin 2) ℂ) :
    applyKraus (erasure q) x = !![(1 - q) * x 0 0, (1 - q) * x 0 1, 0; (1 - q) * x 1 0, (1 - q) * x 1 1, 0;
      0, 0, q * (x 0 0 + x 1 1)] := by
  have e0 := amp_mul_self h0
  have e1 := amp_mul_self (sub_nonneg.mpr h1)
  push_cast at e1
  ext i j
  rw [applyKraus_apply]
  fin_cases i <;> fin_cases j <;> simp [erasure, Fin.sum_univ_two, Fin.sum_univ_three, amp_conj]
  · linear_combination x 0 0 * e1
  · linear_combination x 0 1 * e1
  · linear_combination x 1 0 * e1
  · linear_combination x 1 1 * e1
  · linear_combination (x 0 0 + x 1 1) * e0

theorem erasure_exchange (h0 : 0 ≤ q) (h1 : q ≤ 1) (x : Matrix (Fin 2) (Fin 2) ℂ) :
    entropyExchange (erasure q) x = !![(1 - q) * (x 0 0 + x 1 1), 0, 0; 0, q * x 0 0, q * x 0 1;
      0, q * x 1 0, q * x 1 1] := by
  have e0 := amp_mul_self h0
  have e1 := amp_mul_self (sub_nonneg.mpr h1)
  push_cast at e1
  ext i j
  rw [exchange_apply]
  fin_cases i <;> fin_cases j <;> simp [erasure, Fin.sum_univ_two, Fin.sum_univ_three, amp_conj]
  · linear_combination (x 0 0 + x 1 1) * e1
  · linear_combination x 0 0 * e0
  · linear_combination x 0 1 * e0
  · linear_combination x 1 0 * e0
  · linear_combination x 1 1 * e0

/-- Erasure of a qubit that may have been erased before: the first operator passes the mark of a lost qubit on, the second one keeps
the qubit with probability `s`, the others lose it. -/
noncomputable def eraseMore (s : ℝ) : Fin 4 → Matrix (Fin 3) (Fin 3) ℂ :=
  ![!![0, 0, 1; 0, 0, 0; 0, 0, 0], amp s • !![0, 0, 0; 1, 0, 0; 0, 1, 0], amp (1 - s) • !![1, 0, 0; 0, 0, 0; 0, 0, 0],
    amp (1 - s) • !![0, 1, 0; 0, 0, 0; 0, 0, 0]]

/-- The same with the mark in the first place. -/
noncomputable def eraseBack (s : ℝ) : Fin 4 → Matrix (Fin 3) (Fin 3) ℂ :=
  ![!![0, 0, 0; 0, 0, 0; 1, 0, 0], amp s • !![0, 1, 0; 0, 0, 1; 0, 0, 0], amp (1 - s) • !![0, 0, 0; 0, 0, 0; 0, 1, 0],
    amp (1 - s) • !![0, 0, 0; 0, 0, 0; 0, 0, 1]]

theorem eraseMore_tp {s : ℝ} (h0 : 0 ≤ s) (h1 : s ≤ 1) : TracePreserving (eraseMore s) := by
  have e0 := amp_mul_self h0
  have e1 := amp_mul_self (sub_nonneg.mpr h1)
  push_cast at e1
  rw [tp_apply]
  intro i j
  fin_cases i <;> fin_cases j <;> simp [eraseMore, Fin.sum_univ_three, Fin.sum_univ_four, amp_conj] <;>
    linear_combination e0 + e1

theorem eraseBack_tp {s : ℝ} (h0 : 0 ≤ s) (h1 : s ≤ 1) : TracePreserving (eraseBack s) := by
  have e0 := amp_mul_self h0
  have e1 := amp_mul_self (sub_nonneg.mpr h1)
  push_cast at e1
  rw [tp_apply]
  intro i j
  fin_cases i <;> fin_cases j <;> simp [eraseBack, Fin.sum_univ_three, Fin.sum_univ_four, amp_conj] <;>
    linear_combination e0 + e1

theorem erasure_degrade (h0 : 0 ≤ q) (h1 : q ≤ 1 / 2) (x : Matrix (Fin 2) (Fin 2) ℂ) :
    applyKraus (eraseMore (q / (1 - q))) (applyKraus (erasure q) x) = entropyExchange (erasure q) x := by
  have hq : 0 < 1 - q := by linarith
  have e0 := amp_mul_self (p := q / (1 - q)) (div_nonneg h0 hq.le)
  have e1 := amp_mul_self (p := 1 - q / (1 - q)) (by rw [sub_nonneg, div_le_one hq]; linarith)
  have k0 : ((q / (1 - q) : ℝ) : ℂ) * (1 - q) = q := by
    rw [← Complex.ofReal_one, ← Complex.ofReal_sub, ← Complex.ofReal_mul, div_mul_cancel₀ _ hq.ne']
  rw [Complex.ofReal_sub, Complex.ofReal_one] at e1
  rw [erasure_out h0 (by linarith), erasure_exchange h0 (by linarith)]
  ext i j
  rw [applyKraus_apply]
  generalize ((q / (1 - q) : ℝ) : ℂ) = s at *
  fin_cases i <;> fin_cases j <;> simp [eraseMore, Fin.sum_univ_three, Fin.sum_univ_four, amp_conj]
  · linear_combination (x 0 0 + x 1 1) * (1 - q) * e1 - (x 0 0 + x 1 1) * k0
  · linear_combination x 0 0 * (1 - q) * e0 + x 0 0 * k0
  · linear_combination x 0 1 * (1 - q) * e0 + x 0 1 * k0
  · linear_combination x 1 0 * (1 - q) * e0 + x 1 0 * k0
  · linear_combination x 1 1 * (1 - q) * e0 + x 1 1 * k0

theorem erasure_back (h0 : 1 / 2 ≤ q) (h1 : q ≤ 1) (x : Matrix (Fin 2) (Fin 2) ℂ) :
    applyKraus (eraseBack ((1 - q) / q)) (entropyExchange (erasure q) x) = applyKraus (erasure q) x := by
  have hq : 0 < q := by linarith
  have e0 := amp_mul_self (p := (1 - q) / q) (div_nonneg (by linarith) hq.le)
  have e1 := amp_mul_self (p := 1 - (1 - q) / q) (by rw [sub_nonneg, div_le_one hq]; linarith)
  have k0 : (((1 - q) / q : ℝ) : ℂ) * q = 1 - q := by
    rw [← Complex.ofReal_mul, div_mul_cancel₀ _ hq.ne']
    push_cast
    rfl
  rw [Complex.ofReal_sub, Complex.ofReal_one] at e1
  rw [erasure_out hq.le h1, erasure_exchange hq.le h1]
  ext i j
  rw [applyKraus_apply]
  generalize (((1 - q) / q : ℝ) : ℂ) = s at *
  fin_cases i <;> fin_cases j <;> simp [eraseBack, Fin.sum_univ_three, Fin.sum_univ_four, amp_conj]
  · linear_combination x 0 0 * q * e0 + x 0 0 * k0
  · linear_combination x 0 1 * q * e0 + x 0 1 * k0
  · linear_combination x 1 0 * q * e0 + x 1 0 * k0
  · linear_combination x 1 1 * q * e0 + x 1 1 * k0
  · linear_combination (x 0 0 + x 1 1) * q * e1 - (x 0 0 + x 1 1) * k0

theorem specSum_one_by_one : specSum Real.negMulLog (1 : Matrix (Fin 1) (Fin 1) ℂ) = 0 := by
  have : (1 : Matrix (Fin 1) (Fin 1) ℂ) = diagonal fun _ => ((1 : ℝ) : ℂ) := by ext a b; fin_cases a; fin_cases b; simp
  rw [this, specSum_diagonal (fun _ => zero_le_one) Real.negMulLog_zero]
  simp

/-- The coherent information of erasure: a fixed multiple of the entropy of the state. -/
theorem erasure_info (h0 : 0 ≤ q) (h1 : q ≤ 1) {ρ : Matrix (Fin 2) (Fin 2) ℂ} (hρ : IsDensity ρ) :
    krausInfo (erasure q) ρ = (1 - 2 * q) * specSum Real.negMulLog ρ := by
  have ht : ρ 0 0 + ρ 1 1 = 1 := by
    have := hρ.2
    rwa [trace, Fin.sum_univ_two] at this
  have t1 : trace (1 : Matrix (Fin 1) (Fin 1) ℂ) = 1 := by simp
  have e1 : (applyKraus (erasure q) ρ).submatrix finSumFinEquiv finSumFinEquiv =
      mixBlock (1 - q) ρ (1 : Matrix (Fin 1) (Fin 1) ℂ) := by
    rw [erasure_out h0 h1, ht]
    ext (i | i) (j | j) <;> fin_cases i <;> fin_cases j <;> simp [mixBlock, finSumFinEquiv]
  have e2 : (entropyExchange (erasure q) ρ).submatrix finSumFinEquiv finSumFinEquiv =
      mixBlock (1 - q) (1 : Matrix (Fin 1) (Fin 1) ℂ) ρ := by
    rw [erasure_exchange h0 h1, ht]
    ext (i | i) (j | j) <;> fin_cases i <;> fin_cases j <;> simp [mixBlock, finSumFinEquiv]
  have hq := sub_nonneg.mpr h1
  have hq' : 1 - q ≤ 1 := by linarith
  unfold krausInfo
  have s1 := specSum_submatrix (finSumFinEquiv (m := 2) (n := 1)) (Spec.applyKraus_posSemidef (erasure q) hρ.1)
    Real.negMulLog_zero
  have s2 := specSum_submatrix (finSumFinEquiv (m := 1) (n := 2)) (Spec.exchange_posSemidef (erasure q) hρ.1)
    Real.negMulLog_zero
  rw [e1] at s1
  rw [e2] at s2
  rw [← s1, ← s2,
    mixBlock_entropy hq hq' hρ.1 PosSemidef.one hρ.2 t1 (mixBlock_posSemidef hq hq' hρ.1 PosSemidef.one),
    mixBlock_entropy hq hq' PosSemidef.one hρ.1 t1 hρ.2 (mixBlock_posSemidef hq hq' PosSemidef.one hρ.1), specSum_one_by_one]
  ring

end

/-! ### Amplitude damping -/

section
variable {g : ℝ}

theorem damping_tp (h0 : 0 ≤ g) (h1 : g ≤ 1) : TracePreserving (damping g) := by
  have e0 := amp_mul_self h0
  have e1 := amp_mul_self (sub_nonneg.mpr h1)
  push_cast at e1
  rw [tp_apply]
  intro i j
  fin_cases i <;> fin_cases j <;> simp [damping, Fin.sum_univ_two, amp_conj] <;> linear_combination e0 + e1

theorem damping_out (h0 : 0 ≤ g) (h1 : g ≤ 1) (x : Matrix (Fin 2) (Fin 2) ℂ) :
    applyKraus (damping g) x = !![x 0 0 + g * x 1 1, amp (1 - g) * x 0 1; amp (1 - g) * x 1 0, (1 - g) * x 1 1] := by
  have e0 := amp_mul_self h0
  have e1 := amp_mul_self (sub_nonneg.mpr h1)
  push_cast at e1
  ext i j
  rw [applyKraus_apply]
  fin_cases i <;> fin_cases j <;> simp [damping, Fin.sum_univ_two, amp_conj]
  · linear_combination x 1 1 * e0
  · ring
  · linear_combination x 1 1 * e1

/-- The environment of amplitude damping sees amplitude damping with the opposite probability. -/
theorem damping_exchange (h0 : 0 ≤ g) (h1 : g ≤ 1) (x : Matrix (Fin 2) (Fin 2) ℂ) :
    entropyExchange (damping g) x = applyKraus (damping (1 - g)) x := by
  have e0 := amp_mul_self h0
  have e1 := amp_mul_self (sub_nonneg.mpr h1)
  push_cast at e1
  rw [damping_out (sub_nonneg.mpr h1) (by linarith)]
  ext i j
  rw [exchange_apply]
  fin_cases i <;> fin_cases j <;> simp [damping, Fin.sum_univ_two, amp_conj]
  · linear_combination x 1 1 * e1
  · ring
  · linear_combination x 1 1 * e0

theorem damping_comp {k : ℝ} (h0 : 0 ≤ g) (h1 : g ≤ 1) (k0 : 0 ≤ k) (k1 : k ≤ 1) (x : Matrix (Fin 2) (Fin 2) ℂ) :
    applyKraus (damping k) (applyKraus (damping g) x) = applyKraus (damping (1 - (1 - k) * (1 - g))) x := by
  have a1 : 0 ≤ (1 - k) * (1 - g) := mul_nonneg (by linarith) (by linarith)
  have a2 : (1 - k) * (1 - g) ≤ 1 := mul_le_one₀ (by linarith) (by linarith) (by linarith)
  rw [damping_out h0 h1, damping_out k0 k1, damping_out (by linarith) (by linarith), sub_sub_cancel,
    amp_mul (by linarith)]
  ext i j
  fin_cases i <;> fin_cases j <;> simp <;> ring

theorem damping_degrade (h0 : 0 ≤ g) (h1 : g ≤ 1 / 2) (x : Matrix (Fin 2) (Fin 2) ℂ) :
    applyKraus (damping (1 - g / (1 - g))) (applyKraus (damping g) x) = entropyExchange (damping g) x := by
  have hg : 0 < 1 - g := by linarith
  have b0 : 0 ≤ g / (1 - g) := div_nonneg h0 hg.le
  have b1 : g / (1 - g) ≤ 1 := by rw [div_le_one hg]; linarith
  rw [damping_comp h0 (by linarith) (by linarith) (by linarith), damping_exchange h0 (by linarith), sub_sub_cancel,
    div_mul_cancel₀ _ hg.ne']

theorem damping_back (h0 : 1 / 2 ≤ g) (h1 : g ≤ 1) (x : Matrix (Fin 2) (Fin 2) ℂ) :
    applyKraus (damping (1 - (1 - g) / g)) (entropyExchange (damping g) x) = applyKraus (damping g) x := by
  have hg : 0 < g := by linarith
  have b0 : 0 ≤ (1 - g) / g := div_nonneg (by linarith) hg.le
  have b1 : (1 - g) / g ≤ 1 := by rw [div_le_one hg]; linarith
  rw [damping_exchange hg.le h1, damping_comp (by linarith) (by linarith) (by linarith) (by linarith), sub_sub_cancel,
    sub_sub_cancel, div_mul_cancel₀ _ hg.ne', sub_sub_cancel]

/-- The identity and the phase flip. -/
def phases : Fin 2 → Matrix (Fin 2) (Fin 2) ℂ := ![!![1, 0; 0, 1], !![1, 0; 0, -1]]

theorem phases_unitary (i : Fin 2) : (phases i)ᴴ * phases i = 1 := by
  ext a b
  fin_cases i <;> fin_cases a <;> fin_cases b <;> simp [phases, Matrix.mul_apply, Fin.sum_univ_two]

theorem damping_covariant (h0 : 0 ≤ g) (h1 : g ≤ 1) (i : Fin 2) (x : Matrix (Fin 2) (Fin 2) ℂ) :
    applyKraus (damping g) (phases i * x * (phases i)ᴴ) = phases i * applyKraus (damping g) x * (phases i)ᴴ := by
  rw [damping_out h0 h1, damping_out h0 h1]
  ext a b
  fin_cases i <;> fin_cases a <;> fin_cases b <;>
    simp [phases, Matrix.mul_apply, Fin.sum_univ_two, vecMul, dotProduct]

theorem phases_twirl (x : Matrix (Fin 2) (Fin 2) ℂ) :
    ∑ i, ((1 / 2 : ℝ) : ℂ) • (phases i * x * (phases i)ᴴ) = !![x 0 0, 0; 0, x 1 1] := by
  ext a b
  rw [Matrix.sum_apply]
  fin_cases a <;> fin_cases b <;>
    simp [phases, Matrix.mul_apply, Fin.sum_univ_two, vecMul, dotProduct] <;> ring

/-- The entropy of a choice, in nats. -/
noncomputable def choiceNats (t : ℝ) : ℝ := Real.negMulLog t + Real.negMulLog (1 - t)

theorem damping_diag (h0 : 0 ≤ g) (h1 : g ≤ 1) {t : ℝ} (t0 : 0 ≤ t) (t1 : t ≤ 1) :
    krausInfo (damping g) !![((1 - t : ℝ) : ℂ), 0; 0, (t : ℂ)] = choiceNats ((1 - g) * t) - choiceNats (g * t) := by
  have out : ∀ {k : ℝ}, 0 ≤ k → k ≤ 1 → specSum Real.negMulLog (applyKraus (damping k) !![((1 - t : ℝ) : ℂ), 0; 0, (t : ℂ)]) =
      choiceNats ((1 - k) * t) := by
    intro k k0 k1
    have e : applyKraus (damping k) !![((1 - t : ℝ) : ℂ), 0; 0, (t : ℂ)] =
        diagonal fun i => ((![1 - (1 - k) * t, (1 - k) * t] i : ℝ) : ℂ) := by
      rw [damping_out k0 k1]
      ext a b
      fin_cases a <;> fin_cases b <;> simp
      ring
    have b0 : 0 ≤ (1 - k) * t := mul_nonneg (by linarith) t0
    have b1 : (1 - k) * t ≤ 1 := mul_le_one₀ (by linarith) t0 t1
    rw [e, specSum_diagonal (fun i => by fin_cases i <;> simp [b0, b1]) Real.negMulLog_zero, Fin.sum_univ_two]
    simp only [cons_val_zero, cons_val_one, choiceNats]
    ring
  unfold krausInfo
  rw [damping_exchange h0 h1, out h0 h1, out (sub_nonneg.mpr h1) (by linarith), sub_sub_cancel]

/-- Coherences do not help. -/
theorem damping_bound (h0 : 0 ≤ g) (h1 : g ≤ 1 / 2) {ρ : Matrix (Fin 2) (Fin 2) ℂ} (hρ : IsDensity ρ) :
    krausInfo (damping g) ρ ≤ choiceNats ((1 - g) * (ρ 1 1).re) - choiceNats (g * (ρ 1 1).re) := by
  have hg : 0 < 1 - g := by linarith
  have b0 : 0 ≤ g / (1 - g) := div_nonneg h0 hg.le
  have b1 : g / (1 - g) ≤ 1 := by rw [div_le_one hg]; linarith
  have key := degradable_twirl (damping (1 - g / (1 - g))) (damping_tp (by linarith) (by linarith)) (damping g)
    (damping_tp h0 (by linarith)) (damping_degrade h0 h1) phases phases phases_unitary phases_unitary
    (damping_covariant h0 (by linarith)) (fun _ => 1 / 2) (fun _ => by norm_num) (by norm_num) hρ.1 hρ.2
  have ht : ρ 0 0 + ρ 1 1 = 1 := by
    have := hρ.2
    rwa [trace, Fin.sum_univ_two] at this
  have p0 := Complex.le_def.mp (hρ.1.diag_nonneg (i := 0))
  have p1 := Complex.le_def.mp (hρ.1.diag_nonneg (i := 1))
  have r1 : ρ 1 1 = (((ρ 1 1).re : ℝ) : ℂ) := by
    apply Complex.ext
    · simp
    · rw [Complex.ofReal_im, ← p1.2]; simp
  have r0 : ρ 0 0 = ((1 - (ρ 1 1).re : ℝ) : ℂ) := by
    rw [Complex.ofReal_sub, ← r1, Complex.ofReal_one]
    exact eq_sub_of_add_eq ht
  have r2 : (ρ 1 1).re ≤ 1 := by
    have := p0.1
    rw [r0] at this
    simp only [Complex.zero_re, Complex.ofReal_re] at this
    linarith
  have r3 : !![ρ 0 0, 0; 0, ρ 1 1] = !![((1 - (ρ 1 1).re : ℝ) : ℂ), 0; 0, (((ρ 1 1).re : ℝ) : ℂ)] := by
    rw [← r0, ← r1]
  rw [phases_twirl, r3, damping_diag h0 (by linarith) p1.1 r2] at key
  exact key

end

/-! ### Products of states -/

theorem specSum_tensorProd {a n : ℕ} {A : Fin n → Matrix (Fin a) (Fin a) ℂ} (hA : ∀ t, IsDensity (A t)) :
    specSum Real.negMulLog (tensorProd A) = ∑ t, specSum Real.negMulLog (A t) := by
  choose V w hw hc using fun t => exists_eigen (hA t).1
  have hs : ∀ t, ∑ i, w t i = 1 := by
    intro t
    have := eigen_trace (hw t)
    rw [(hA t).2] at this
    exact_mod_cast this.symm
  rw [specSum_eq (tensorProd_psd fun t => (hA t).1) (eigen_charpoly (eigen_tensorProd hw)) Real.negMulLog_zero,
    shannon_prod w hs]
  exact Finset.sum_congr rfl fun t _ => (specSum_eq (hA t).1 (hc t) Real.negMulLog_zero).symm

theorem krausInfo_tensorProd {l a b n : ℕ} (K : Fin l → Matrix (Fin a) (Fin b) ℂ) (hK : TracePreserving K)
    {ρ : Fin n → Matrix (Fin b) (Fin b) ℂ} (hρ : ∀ t, IsDensity (ρ t)) :
    krausInfo (tensorPow K n) (tensorProd ρ) = ∑ t, krausInfo K (ρ t) := by
  unfold krausInfo
  rw [applyKraus_tensor, Spec.entropyExchange_tensor,
    specSum_tensorProd fun t => ⟨Spec.applyKraus_posSemidef K (hρ t).1, (Spec.applyKraus_trace K hK _).trans (hρ t).2⟩,
    specSum_tensorProd fun t => ⟨Spec.exchange_posSemidef K (hρ t).1,
      (Spec.exchange_trace K _).trans ((Spec.applyKraus_trace K hK _).trans (hρ t).2)⟩, Finset.sum_sub_distrib]

end PyQ
