import Verif.Props.AvgFid

/-!
# C46 for Pauli noise on a qubit

The missing conjugation turns the sign of the term of `Y`.  What the search reports for the four Pauli operators with any
probabilities, compared with the best recovery.
-/

namespace PyQ

open Matrix Spec
open scoped ComplexOrder

/-- The Pauli matrices `1, X, Y, Z` as a caller writes them. -/
noncomputable def pauliFour : Fin 4 → Matrix (Fin 2) (Fin 2) ℂ :=
  ![1, !![0, 1; 1, 0], !![0, -Complex.I; Complex.I, 0], !![1, 0; 0, -1]]

/-- The list `[sqrt(p0) 1, sqrt(p1) X, sqrt(p2) Y, sqrt(p3) Z]`. -/
noncomputable def pauliKraus (p : Fin 4 → ℝ) : List (Arr ℂ) :=
  List.ofFn fun i => Arr.ofMat ((Real.sqrt (p i) : ℂ) • pauliFour i)

theorem pauliFour_star (i : Fin 4) : (pauliFour i).map star = (if i = 2 then (-1 : ℂ) else 1) • pauliFour i := by
  fin_cases i <;> ext x y <;> fin_cases x <;> fin_cases y <;> simp [pauliFour]

theorem pauliFour_parseval (R : Matrix (Fin 2) (Fin 2) ℂ) :
    ∑ i, ‖trace (R * pauliFour i)‖ ^ 2 = 2 * ∑ x, ∑ y, ‖R x y‖ ^ 2 := by
  have par : ∀ a b : ℂ, ‖a + b‖ ^ 2 + ‖a - b‖ ^ 2 = 2 * (‖a‖ ^ 2 + ‖b‖ ^ 2) := by
    intro a b
    have := parallelogram_law_with_norm ℂ a b
    nlinarith [this]
  have h0 : trace (R * pauliFour 0) = R 0 0 + R 1 1 := by
    simp [pauliFour, trace, Fin.sum_univ_two]
  have h1 : trace (R * pauliFour 1) = R 0 1 + R 1 0 := by
    simp [pauliFour, trace, Fin.sum_univ_two, Matrix.mul_apply]
  have h2 : trace (R * pauliFour 2) = Complex.I * (R 0 1 - R 1 0) := by
    simp [pauliFour, trace, Fin.sum_univ_two, Matrix.mul_apply]
    ring
  have h3 : trace (R * pauliFour 3) = R 0 0 - R 1 1 := by
    simp [pauliFour, trace, Fin.sum_univ_two, Matrix.mul_apply]
    ring
  rw [Fin.sum_univ_four, h0, h1, h2, h3, norm_mul, Complex.norm_I, one_mul]
  simp only [Fin.sum_univ_two]
  linarith [par (R 0 0) (R 1 1), par (R 0 1) (R 1 0)]

/-- The overlaps of a recovery with the Pauli matrices are a probability distribution. -/
noncomputable def pauliWeight {l : ℕ} (R : Fin l → Matrix (Fin 2) (Fin 2) ℂ) (i : Fin 4) : ℝ :=
  (∑ a, ‖trace (R a * pauliFour i)‖ ^ 2) / 4

theorem pauliWeight_nonneg {l : ℕ} (R : Fin l → Matrix (Fin 2) (Fin 2) ℂ) (i : Fin 4) : 0 ≤ pauliWeight R i := by
  unfold pauliWeight; positivity

theorem pauliWeight_sum {l : ℕ} {R : Fin l → Matrix (Fin 2) (Fin 2) ℂ} (hR : TracePreserving R) : ∑ i, pauliWeight R i = 1 := by
  unfold pauliWeight
  rw [← Finset.sum_div, Finset.sum_comm]
  simp only [pauliFour_parseval]
  rw [← Finset.mul_sum]
  have h : ∑ a, (R a)ᴴ * R a = 1 := hR
  have ht := congrArg (fun M => (trace M).re) h
  simp only [trace_sum, Complex.re_sum, trace_one, Fintype.card_fin] at ht
  have e : ∀ a, (trace ((R a)ᴴ * R a)).re = ∑ x, ∑ y, ‖R a x y‖ ^ 2 := by
    intro a
    simp only [trace, diag_apply, Matrix.mul_apply, conjTranspose_apply, Complex.re_sum]
    rw [Finset.sum_comm]
    refine Finset.sum_congr rfl fun x _ => Finset.sum_congr rfl fun y _ => ?_
    rw [Complex.star_def, ← Complex.normSq_eq_conj_mul_self, Complex.ofReal_re, Complex.normSq_eq_norm_sq]
  simp only [e] at ht
  rw [ht]
  norm_num

/-- The recovery that applies one Pauli matrix. -/
theorem pauliFour_tp (i : Fin 4) : TracePreserving fun _ : Fin 1 => pauliFour i := by
  show ∑ a : Fin 1, (pauliFour i)ᴴ * pauliFour i = 1
  rw [Fin.sum_univ_one]
  fin_cases i <;> ext x y <;> fin_cases x <;> fin_cases y <;> simp [pauliFour, Matrix.mul_apply, Fin.sum_univ_two]

theorem pauliWeight_self (i j : Fin 4) : pauliWeight (fun _ : Fin 1 => pauliFour i) j = if i = j then 1 else 0 := by
  unfold pauliWeight
  rw [Fin.sum_univ_one]
  fin_cases i <;> fin_cases j <;>
    simp [pauliFour, trace, Fin.sum_univ_two] <;> norm_num

section

variable {p : Fin 4 → ℝ}

theorem pauliKraus_length (p : Fin 4 → ℝ) : (pauliKraus p).length = 4 := by
  simp only [pauliKraus, List.length_ofFn]

theorem pauliKraus_get (p : Fin 4 → ℝ) (i : Fin 4) :
    (pauliKraus p)[Fin.cast (pauliKraus_length p).symm i].mat (2 ^ 1) (2 ^ 1) = (Real.sqrt (p i) : ℂ) • pauliFour i := by
  have : (pauliKraus p)[Fin.cast (pauliKraus_length p).symm i] = Arr.ofMat ((Real.sqrt (p i) : ℂ) • pauliFour i) :=
    List.getElem_ofFn (f := fun i => Arr.ofMat ((Real.sqrt (p i) : ℂ) • pauliFour i)) _
  rw [this]
  exact Arr.ofMat_mat _

theorem pauliKraus_shape (p : Fin 4 → ℝ) : ∀ k ∈ pauliKraus p, k.rows = 2 ^ 1 ∧ k.cols = 2 ^ 1 := by
  intro k hk
  unfold pauliKraus at hk
  obtain ⟨i, rfl⟩ := List.mem_ofFn.1 hk
  exact ⟨rfl, rfl⟩

theorem pauliKraus_ne (p : Fin 4 → ℝ) : pauliKraus p ≠ [] := by
  intro h
  have := pauliKraus_length p
  rw [h] at this
  cases this

theorem pauliKraus_sum {M : Type} [AddCommMonoid M] (p : Fin 4 → ℝ) (f : Fin (pauliKraus p).length → M) :
    ∑ b, f b = ∑ i : Fin 4, f (Fin.cast (pauliKraus_length p).symm i) :=
  (Equiv.sum_comp (finCongr (pauliKraus_length p).symm) f).symm

/-- The fidelity of a recovery for Pauli noise. -/
theorem pauliKraus_fid {l : ℕ} (hp : ∀ i, 0 ≤ p i) (R : Fin l → Matrix (Fin (2 ^ 1)) (Fin (2 ^ 1)) ℂ) :
    entangFidelity R (fun b : Fin (pauliKraus p).length => (pauliKraus p)[b].mat (2 ^ 1) (2 ^ 1)) =
      ∑ i, p i * pauliWeight R i := by
  unfold entangFidelity pauliWeight
  rw [Finset.sum_comm, pauliKraus_sum, Finset.sum_div]
  refine Finset.sum_congr rfl fun i _ => ?_
  rw [← mul_div_assoc, Finset.mul_sum]
  congr 1
  · refine Finset.sum_congr rfl fun a _ => ?_
    beta_reduce
    rw [pauliKraus_get, Matrix.mul_smul, trace_smul, smul_eq_mul, norm_mul, Complex.norm_real, Real.norm_eq_abs,
      abs_of_nonneg (Real.sqrt_nonneg _), mul_pow, Real.sq_sqrt (hp i)]
  · norm_num

/-- The objective of the search for Pauli noise: the term of `Y` has the wrong sign. -/
theorem pauliKraus_value {l : ℕ} (hp : ∀ i, 0 ≤ p i) {P : Sdp} (hP : entangFidProblem (pauliKraus p) 1 1 2 2 = .ok P)
    (R : Fin l → Matrix (Fin (2 ^ 1)) (Fin (2 ^ 1)) ℂ) {X : Arr ℂ} (hX : X.mat (2 ^ 1 * 2 ^ 1) (2 ^ 1 * 2 ^ 1) = choi R) :
    P.value X = ∑ i, (if i = 2 then -1 else 1) * p i * pauliWeight R i := by
  rw [C46_objective (pauliKraus_ne p) (pauliKraus_shape p) hP R hX, pauliKraus_sum, Finset.sum_div]
  refine Finset.sum_congr rfl fun i _ => ?_
  unfold pauliWeight
  rw [← mul_div_assoc, Finset.mul_sum]
  congr 1
  · refine Finset.sum_congr rfl fun a _ => ?_
    have hs : ((Real.sqrt (p i) : ℂ) • pauliFour i).map star =
        ((if i = 2 then (-1 : ℂ) else 1) * (Real.sqrt (p i) : ℂ)) • pauliFour i := by
      rw [Matrix.map_smul' star (Real.sqrt (p i) : ℂ) (pauliFour i) (fun a b => by rw [star_mul, mul_comm]), pauliFour_star, smul_smul]
      congr 1
      rw [Complex.star_def, Complex.conj_ofReal, mul_comm]
    rw [pauliKraus_get, hs, Matrix.mul_smul, Matrix.mul_smul, trace_smul, trace_smul, smul_eq_mul, smul_eq_mul, star_mul',
      Complex.star_def, Complex.conj_ofReal]
    have e : ∀ (s : ℝ) (z : ℂ), ((s : ℂ) * (Real.sqrt (p i) : ℂ) * z * ((Real.sqrt (p i) : ℂ) * (starRingEnd ℂ) z)).re =
        s * p i * ‖z‖ ^ 2 := by
      intro s z
      have : (s : ℂ) * (Real.sqrt (p i) : ℂ) * z * ((Real.sqrt (p i) : ℂ) * (starRingEnd ℂ) z) =
          ((s * p i * ‖z‖ ^ 2 : ℝ) : ℂ) := by
        rw [← Complex.normSq_eq_norm_sq]
        push_cast
        rw [← Complex.mul_conj]
        have h2 : (Real.sqrt (p i) : ℂ) * (Real.sqrt (p i) : ℂ) = (p i : ℂ) := by
          rw [← Complex.ofReal_mul, Real.mul_self_sqrt (hp i)]
        linear_combination (s : ℂ) * z * (starRingEnd ℂ) z * h2
      rw [this, Complex.ofReal_re]
    by_cases hi : i = 2
    · rw [if_pos hi, if_pos hi]
      have := e (-1) (trace (R a * pauliFour i))
      push_cast at this
      exact this
    · rw [if_neg hi, if_neg hi]
      have := e 1 (trace (R a * pauliFour i))
      push_cast at this
      exact this
  · norm_num

/-- **C46 for Pauli noise.**  For a qubit that suffers `1, X, Y, Z` with probabilities `p0, p1, p2, p3`, the search reports
`max(p0, p1, p3)`, and that is the fidelity of the recovery it returns: the probability of `Y` is ignored.  Applying `Y` has
fidelity `p2`, and no recovery exceeds the largest of the four.  So the search is right unless `Y` is the most likely error. -/
theorem C46_pauli {sol : SdpSolver} (hsol : sol.Correct) (hp : ∀ i, 0 ≤ p i) :
    ∃ (X : Arr ℂ) (v : ℝ) (l : ℕ) (R : Fin l → Matrix (Fin (2 ^ 1)) (Fin (2 ^ 1)) ℂ),
      optimizeEntangFid sol (pauliKraus p) 1 1 2 2 = .ok (X, v) ∧ v = max (max (p 0) (p 1)) (p 3) ∧
      TracePreserving R ∧ X.mat (2 ^ 1 * 2 ^ 1) (2 ^ 1 * 2 ^ 1) = choi R ∧
      entangFidelity R (fun b : Fin (pauliKraus p).length => (pauliKraus p)[b].mat (2 ^ 1) (2 ^ 1)) = v ∧
      entangFidelity (fun _ : Fin 1 => (!![0, -Complex.I; Complex.I, 0] : Matrix (Fin (2 ^ 1)) (Fin (2 ^ 1)) ℂ))
        (fun b : Fin (pauliKraus p).length => (pauliKraus p)[b].mat (2 ^ 1) (2 ^ 1)) = p 2 ∧
      ∀ (m : ℕ) (S : Fin m → Matrix (Fin (2 ^ 1)) (Fin (2 ^ 1)) ℂ), TracePreserving S →
        entangFidelity S (fun b : Fin (pauliKraus p).length => (pauliKraus p)[b].mat (2 ^ 1) (2 ^ 1)) ≤
          max (max (max (p 0) (p 1)) (p 2)) (p 3) := by
  obtain ⟨P, hP, p1, p2, p3, -⟩ := entangFidProblem_ok (pauliKraus_ne p) (pauliKraus_shape p)
  obtain ⟨P', hP', -, -, hfeas⟩ := C46_feasible (pauliKraus_ne p) (pauliKraus_shape p)
  rw [hP] at hP'
  injection hP' with hP'
  subst hP'
  obtain ⟨s1, s2, s3⟩ := hsol P (exists_optimal (pow_pos two_pos 1) p1 p2 p3)
  obtain ⟨-, -, l, R, hR, hX⟩ := (hfeas _).mp s1
  have hv := pauliKraus_value hp hP R hX
  have hw := pauliWeight_sum (R := R) hR
  have hw0 := pauliWeight_nonneg R
  -- each single Pauli matrix is a candidate
  have hge : ∀ j : Fin 4, (if j = 2 then -1 else 1) * p j ≤ P.value (sol P).1 := by
    intro j
    have hmat : (Arr.ofMat (choi fun _ : Fin 1 => pauliFour j)).mat (2 ^ 1 * 2 ^ 1) (2 ^ 1 * 2 ^ 1) =
        choi (fun _ : Fin 1 => (pauliFour j : Matrix (Fin (2 ^ 1)) (Fin (2 ^ 1)) ℂ)) := Arr.ofMat_mat _
    have h1 := s3 (Arr.ofMat (choi fun _ : Fin 1 => pauliFour j)) ((hfeas _).mpr ⟨rfl, rfl, 1, _, pauliFour_tp j, hmat⟩)
    rw [s2, pauliKraus_value hp hP _ hmat] at h1
    refine le_trans (le_of_eq ?_) h1
    rw [Finset.sum_eq_single j]
    · rw [show pauliWeight (fun _ : Fin 1 => pauliFour j) j = 1 by rw [pauliWeight_self, if_pos rfl], mul_one]
    · intro i _ hij
      rw [show pauliWeight (fun _ : Fin 1 => pauliFour j) i = 0 by rw [pauliWeight_self, if_neg (Ne.symm hij)], mul_zero]
    · intro h; exact absurd (Finset.mem_univ _) h
  have fid := pauliKraus_fid hp R
  obtain ⟨m, hm⟩ : ∃ m, m = max (max (p 0) (p 1)) (p 3) := ⟨_, rfl⟩
  have m0 : p 0 ≤ m := by rw [hm]; exact (le_max_left _ _).trans (le_max_left _ _)
  have m1 : p 1 ≤ m := by rw [hm]; exact (le_max_right _ _).trans (le_max_left _ _)
  have m3 : p 3 ≤ m := by rw [hm]; exact le_max_right _ _
  have g0 := hge 0
  have g1 := hge 1
  have g3 := hge 3
  rw [if_neg (by decide), one_mul] at g0 g1 g3
  have hmle : m ≤ P.value (sol P).1 := by rw [hm]; exact max_le (max_le g0 g1) g3
  rw [Fin.sum_univ_four, if_neg (by decide), if_neg (by decide), if_pos rfl, if_neg (by decide)] at hv
  rw [Fin.sum_univ_four] at hw fid
  have hw2 : p 2 * pauliWeight R 2 = 0 := by
    have a0 := mul_le_mul_of_nonneg_right m0 (hw0 0)
    have a1 := mul_le_mul_of_nonneg_right m1 (hw0 1)
    have a3 := mul_le_mul_of_nonneg_right m3 (hw0 3)
    have a2 := mul_nonneg (hp 2) (hw0 2)
    have a4 := mul_nonneg ((hp 0).trans m0) (hw0 2)
    have : m * (pauliWeight R 0 + pauliWeight R 1 + pauliWeight R 2 + pauliWeight R 3) = m := by rw [hw, mul_one]
    nlinarith
  have hvm : P.value (sol P).1 = m := by
    refine le_antisymm ?_ hmle
    have a0 := mul_le_mul_of_nonneg_right m0 (hw0 0)
    have a1 := mul_le_mul_of_nonneg_right m1 (hw0 1)
    have a3 := mul_le_mul_of_nonneg_right m3 (hw0 3)
    have a4 := mul_nonneg ((hp 0).trans m0) (hw0 2)
    have : m * (pauliWeight R 0 + pauliWeight R 1 + pauliWeight R 2 + pauliWeight R 3) = m := by rw [hw, mul_one]
    nlinarith
  refine ⟨(sol P).1, (sol P).2, l, R, ?_, ?_, hR, hX, ?_, ?_, ?_⟩
  · unfold optimizeEntangFid
    rw [hP]
    rfl
  · rw [s2, hvm, hm]
  · rw [s2, fid]
    linarith
  · refine (pauliKraus_fid hp fun _ : Fin 1 => pauliFour 2).trans ?_
    rw [Finset.sum_eq_single 2]
    · rw [show pauliWeight (fun _ : Fin 1 => pauliFour 2) 2 = 1 by rw [pauliWeight_self, if_pos rfl], mul_one]
    · intro i _ hij
      rw [show pauliWeight (fun _ : Fin 1 => pauliFour 2) i = 0 by rw [pauliWeight_self, if_neg (Ne.symm hij)], mul_zero]
    · intro h; exact absurd (Finset.mem_univ _) h
  · intro k S hS
    rw [pauliKraus_fid hp S]
    have hs := pauliWeight_sum (R := S) hS
    have hmax : ∀ i : Fin 4, p i ≤ max (max (max (p 0) (p 1)) (p 2)) (p 3) := by
      intro i
      fin_cases i <;> simp
    calc ∑ i, p i * pauliWeight S i ≤ ∑ i, max (max (max (p 0) (p 1)) (p 2)) (p 3) * pauliWeight S i :=
          Finset.sum_le_sum fun i _ => mul_le_mul_of_nonneg_right (hmax i) (pauliWeight_nonneg S i)
      _ = max (max (max (p 0) (p 1)) (p 2)) (p 3) := by rw [← Finset.mul_sum, hs, mul_one]

/-- A depolarizing channel, and a channel with `Y` errors only. -/
example {sol : SdpSolver} (hsol : sol.Correct) :
    (∃ X, optimizeEntangFid sol (pauliKraus ![7 / 10, 1 / 10, 1 / 10, 1 / 10]) 1 1 2 2 = .ok (X, 7 / 10)) ∧
    ∃ X, optimizeEntangFid sol (pauliKraus ![0, 0, 1, 0]) 1 1 2 2 = .ok (X, 0) := by
  obtain ⟨X, v, l, R, h, hv, -⟩ := C46_pauli (p := ![7 / 10, 1 / 10, 1 / 10, 1 / 10]) hsol (by
    intro i; fin_cases i <;> simp; norm_num)
  obtain ⟨X', v', l', R', h', hv', -⟩ := C46_pauli (p := ![0, 0, 1, 0]) hsol (by
    intro i; fin_cases i <;> simp)
  refine ⟨⟨X, ?_⟩, ⟨X', ?_⟩⟩
  · rw [h, hv]
    have : max (max ((![7 / 10, 1 / 10, 1 / 10, 1 / 10] : Fin 4 → ℝ) 0) ((![7 / 10, 1 / 10, 1 / 10, 1 / 10] : Fin 4 → ℝ) 1))
        ((![7 / 10, 1 / 10, 1 / 10, 1 / 10] : Fin 4 → ℝ) 3) = 7 / 10 := by
      show max (max (7 / 10 : ℝ) (1 / 10)) (1 / 10) = 7 / 10
      norm_num
    rw [this]
  · rw [h', hv']
    simp

end

end PyQ
