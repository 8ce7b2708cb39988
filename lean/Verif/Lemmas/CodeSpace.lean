import Verif.Model.CodeKraus
import Verif.Lemmas.PauliMat
import Verif.Lemmas.Constructor
import Verif.Lemmas.LinAlg
import Mathlib.LinearAlgebra.Matrix.Trace
import Mathlib.LinearAlgebra.Basis.VectorSpace
import Mathlib.LinearAlgebra.LinearIndependent.Basic

/-!
# Projectors onto code spaces
-/

namespace PyQ

open Matrix Spec

theorem mat_conjT (A : Arr ℂ) (r c : ℕ) : A.conjT.mat c r = (A.mat r c)ᴴ := rfl

theorem sum_filter_list (n : ℕ) (p : ℕ → Bool) (g : ℕ → ℂ) :
    ∑ j : Fin ((List.range n).filter p).length, g (((List.range n).filter p).getD j 0) =
      ∑ i : Fin n, if p i then g i else 0 := by
  have h : ∀ l : List ℕ, ∑ j : Fin l.length, g (l.getD j 0) = (l.map g).sum := by
    intro l
    induction l with
    | nil => simp
    | cons a l ih =>
      rw [List.map_cons, List.sum_cons, ← ih]
      exact Fin.sum_univ_succ (fun j : Fin (l.length + 1) => g ((a :: l).getD j 0))
  rw [h, Fin.sum_univ_eq_sum_range (fun i => if p i then g i else 0)]
  clear h
  induction n with
  | zero => simp
  | succ n ih =>
    rw [List.range_succ, List.filter_append, List.map_append, List.sum_append, ih, Finset.sum_range_succ]
    by_cases hp : p n <;> simp [hp]

/-- The selected eigenvectors of a Hermitian involution: an isometry onto its `+1` eigenspace. -/
theorem plusOne_spec {eigh : Eigh} (hE : eigh.Correct) (A : Arr ℂ) (n : ℕ) (h1 : A.rows = n) (h2 : A.cols = n)
    (hH : (A.mat n n).IsHermitian) (hsq : A.mat n n * A.mat n n = 1) :
    ∃ m, (plusOneColumns (eigh A).1 (eigh A).2).rows = n ∧ (plusOneColumns (eigh A).1 (eigh A).2).cols = m ∧
      ((plusOneColumns (eigh A).1 (eigh A).2).mat n m)ᴴ * (plusOneColumns (eigh A).1 (eigh A).2).mat n m = 1 ∧
      (plusOneColumns (eigh A).1 (eigh A).2).mat n m * ((plusOneColumns (eigh A).1 (eigh A).2).mat n m)ᴴ =
        (1 / 2 : ℂ) • (1 + A.mat n n) := by
  obtain ⟨e1, e2, -, e4, e5⟩ := hE A n h1 h2 hH
  set W := (eigh A).2.mat n n with hW
  set d := (eigh A).1 with hd
  have hWW : W * Wᴴ = 1 := mul_eq_one_comm.mp e4
  have hdd : ∀ i : Fin n, d i = 1 ∨ d i = -1 := by
    intro i
    have h3 : W * (diagonal fun i : Fin n => (d i : ℂ)) * (diagonal fun i : Fin n => (d i : ℂ)) = W := by
      rw [← e5, Matrix.mul_assoc, ← e5, ← Matrix.mul_assoc, hsq, Matrix.one_mul]
    have h4 : (diagonal fun i : Fin n => (d i : ℂ)) * (diagonal fun i : Fin n => (d i : ℂ)) = 1 := by
      have := congrArg (fun M => Wᴴ * M) h3
      simpa only [← Matrix.mul_assoc, e4, Matrix.one_mul] using this
    have h5 := congrFun (congrFun h4 i) i
    rw [diagonal_mul_diagonal, diagonal_apply_eq, one_apply_eq] at h5
    have h6 : d i * d i = 1 := by exact_mod_cast h5
    exact mul_self_eq_one_iff.mp h6
  have hA : A.mat n n = W * (diagonal fun i : Fin n => (d i : ℂ)) * Wᴴ := by
    rw [← e5, Matrix.mul_assoc, hWW, Matrix.mul_one]
  set p : ℕ → Bool := fun i => decide (|d i - 1| < 1 / 10 ^ 5) with hp
  have hpd : ∀ i : Fin n, (if p i then (1 : ℂ) else 0) = (1 + d i) / 2 := by
    intro i
    rcases hdd i with h | h <;> rw [hp] <;> simp only [h] <;> norm_num
  have hcols : (plusOneColumns d (eigh A).2).cols = ((List.range n).filter p).length := by
    unfold plusOneColumns
    simp only [e2, hp]
  have hget : ∀ i j, (plusOneColumns d (eigh A).2).get i j =
      (eigh A).2.get i (((List.range n).filter p).getD j 0) := by
    intro i j
    unfold plusOneColumns
    simp only [e2, hp]
  refine ⟨_, e1, hcols, ?_, ?_⟩
  · ext a b
    rw [mul_apply]
    simp only [conjTranspose_apply, Arr.mat_apply, hget]
    have hmem : ∀ j : Fin ((List.range n).filter p).length, ((List.range n).filter p).getD j 0 < n := by
      intro j
      rw [List.getD_eq_getElem _ _ j.2]
      have := List.getElem_mem (l := (List.range n).filter p) j.2
      rw [List.mem_filter, List.mem_range] at this
      exact this.1
    have h3 := congrFun (congrFun e4 ⟨_, hmem a⟩) ⟨_, hmem b⟩
    rw [mul_apply] at h3
    simp only [conjTranspose_apply, hW, Arr.mat_apply] at h3
    rw [h3, one_apply, one_apply]
    have hinj : ((List.range n).filter p).getD a 0 = ((List.range n).filter p).getD b 0 ↔ a = b := by
      rw [List.getD_eq_getElem _ _ a.2, List.getD_eq_getElem _ _ b.2,
        (List.nodup_range.filter _).getElem_inj_iff, Fin.ext_iff]
    simp only [Fin.mk.injEq, hinj]
  · ext r c
    rw [mul_apply]
    simp only [conjTranspose_apply, Arr.mat_apply, hget]
    rw [sum_filter_list n p fun i => (eigh A).2.get r i * star ((eigh A).2.get c i), hA, Matrix.smul_apply, Matrix.add_apply,
      ← hWW, mul_apply, mul_apply]
    simp only [mul_diagonal, conjTranspose_apply, hW, Arr.mat_apply]
    rw [← Finset.sum_add_distrib, Finset.smul_sum]
    refine Finset.sum_congr rfl fun i _ => ?_
    have h3 := hpd i
    by_cases h : p i = true
    · rw [if_pos h] at h3 ⊢
      have h4 : (d i : ℂ) = 1 := by linear_combination -2 * h3
      rw [h4]
      simp only [smul_eq_mul]
      ring
    · rw [if_neg h] at h3 ⊢
      have h4 : (d i : ℂ) = -1 := by linear_combination -2 * h3
      rw [h4]
      simp only [smul_eq_mul]
      ring

/-- One step of the simultaneous diagonalisation. -/
theorem encodeStep_spec {eigh : Eigh} (hE : eigh.Correct) (V S : Arr ℂ) (N m : ℕ) (hV1 : V.rows = N) (hV2 : V.cols = m)
    (hS1 : S.rows = N) (hS2 : S.cols = N) (hiso : (V.mat N m)ᴴ * V.mat N m = 1)
    (hH : (S.mat N N).IsHermitian) (hsq : S.mat N N * S.mat N N = 1)
    (hcomm : V.mat N m * (V.mat N m)ᴴ * S.mat N N = S.mat N N * (V.mat N m * (V.mat N m)ᴴ)) :
    ∃ V' m', encodeStep eigh V S = .ok V' ∧ V'.rows = N ∧ V'.cols = m' ∧ (V'.mat N m')ᴴ * V'.mat N m' = 1 ∧
      V'.mat N m' * (V'.mat N m')ᴴ = V.mat N m * (V.mat N m)ᴴ * ((1 / 2 : ℂ) • (1 + S.mat N N)) := by
  set M := V.mat N m with hM
  set T := S.mat N N with hT
  set C : Arr ℂ := V.conjT.mul (S.mul V) with hC
  have hCm : C.mat m m = Mᴴ * (T * M) := by
    rw [hC, Arr.mat_mul _ _ m N m hV1, Arr.mat_mul _ _ N N m hS2, mat_conjT]
  have hCr : C.rows = m := hV2
  have hCc : C.cols = m := hV2
  have hPM : M * Mᴴ * M = M := by rw [Matrix.mul_assoc, hiso, Matrix.mul_one]
  have hCH : (C.mat m m).IsHermitian := by
    rw [hCm, IsHermitian, conjTranspose_mul, conjTranspose_mul, conjTranspose_conjTranspose, hH.eq, Matrix.mul_assoc]
  have hCC : C.mat m m * C.mat m m = 1 := by
    rw [hCm]
    calc Mᴴ * (T * M) * (Mᴴ * (T * M)) = Mᴴ * T * (M * Mᴴ * T) * M := by simp only [Matrix.mul_assoc]
      _ = Mᴴ * (T * T) * (M * Mᴴ * M) := by rw [hcomm]; simp only [Matrix.mul_assoc]
      _ = 1 := by rw [hsq, Matrix.mul_one, hPM, hiso]
  obtain ⟨m', u1, u2, u3, u4⟩ := plusOne_spec hE C m hCr hCc hCH hCC
  set U := plusOneColumns (eigh C).1 (eigh C).2 with hU
  refine ⟨V.mul U, m', ?_, hV1, u2, ?_, ?_⟩
  · unfold encodeStep
    have d1 : S.dot V = .ok (S.mul V) := by unfold Arr.dot; rw [if_pos (hS2.trans hV1.symm)]
    have d2 : V.conjT.dot (S.mul V) = .ok C := by
      unfold Arr.dot; rw [if_pos (show V.conjT.cols = (S.mul V).rows from hV1.trans hS1.symm)]
    have d3 : V.dot U = .ok (V.mul U) := by unfold Arr.dot; rw [if_pos (hV2.trans u1.symm)]
    simp only [d1, bind, Except.bind, d2]
    exact d3
  · rw [Arr.mat_mul _ _ N m m' hV2, ← hM, conjTranspose_mul, Matrix.mul_assoc, ← Matrix.mul_assoc Mᴴ, hiso,
      Matrix.one_mul, u3]
  · rw [Arr.mat_mul _ _ N m m' hV2, ← hM, conjTranspose_mul]
    calc M * U.mat m m' * ((U.mat m m')ᴴ * Mᴴ) = M * (U.mat m m' * (U.mat m m')ᴴ) * Mᴴ := by
          simp only [Matrix.mul_assoc]
      _ = (1 / 2 : ℂ) • (M * Mᴴ + M * Mᴴ * T * M * Mᴴ) := by
          rw [u4, hCm]
          simp only [Matrix.mul_smul, Matrix.smul_mul, Matrix.mul_add, Matrix.add_mul, Matrix.mul_one, Matrix.mul_assoc]
      _ = M * Mᴴ * ((1 / 2 : ℂ) • (1 + T)) := by
          have : M * Mᴴ * T * M * Mᴴ = M * Mᴴ * T := by
            rw [hcomm]
            calc T * (M * Mᴴ) * M * Mᴴ = T * (M * Mᴴ * M * Mᴴ) := by simp only [Matrix.mul_assoc]
              _ = _ := by rw [hPM]
          rw [this, Matrix.mul_smul, Matrix.mul_add, Matrix.mul_one]

/-- The product of the projectors `(1 + S) / 2`. -/
noncomputable def projProd {N : ℕ} (l : List (Matrix (Fin N) (Fin N) ℂ)) : Matrix (Fin N) (Fin N) ℂ :=
  l.foldl (fun P S => P * ((1 / 2 : ℂ) • (1 + S))) 1

theorem projProd_append {N : ℕ} (l : List (Matrix (Fin N) (Fin N) ℂ)) (S : Matrix (Fin N) (Fin N) ℂ) :
    projProd (l ++ [S]) = projProd l * ((1 / 2 : ℂ) • (1 + S)) := by
  unfold projProd
  rw [List.foldl_append]
  rfl

theorem projProd_comm {N : ℕ} (l : List (Matrix (Fin N) (Fin N) ℂ)) (Q : Matrix (Fin N) (Fin N) ℂ)
    (h : ∀ S ∈ l, Q * S = S * Q) : Q * projProd l = projProd l * Q := by
  induction l using List.reverseRecOn with
  | nil => simp [projProd]
  | append_singleton l S ih =>
    rw [projProd_append, ← Matrix.mul_assoc, ih fun T hT => h T (by simp [hT]), Matrix.mul_assoc, Matrix.mul_assoc]
    congr 1
    rw [Matrix.mul_smul, Matrix.smul_mul, Matrix.mul_add, Matrix.add_mul, h S (by simp), Matrix.mul_one, Matrix.one_mul]

/-- Every generator fixes the projector. -/
theorem projProd_fixed {N : ℕ} (l : List (Matrix (Fin N) (Fin N) ℂ)) (hsq : ∀ S ∈ l, S * S = 1)
    (hc : ∀ S ∈ l, ∀ T ∈ l, S * T = T * S) : ∀ S ∈ l, S * projProd l = projProd l := by
  induction l using List.reverseRecOn with
  | nil => simp
  | append_singleton l T ih =>
    intro S hS
    rw [projProd_append]
    rcases List.mem_append.mp hS with h | h
    · rw [← Matrix.mul_assoc, ih (fun S hS => hsq S (by simp [hS])) (fun S hS T hT => hc S (by simp [hS]) T (by simp [hT]))
        S h]
    · rw [List.mem_singleton] at h
      subst h
      rw [← Matrix.mul_assoc, projProd_comm l S fun T hT => hc S (by simp) T (by simp [hT]), Matrix.mul_assoc]
      congr 1
      rw [Matrix.mul_smul, Matrix.mul_add, hsq S (by simp), Matrix.mul_one, add_comm]

/-- Vectors fixed by every generator are fixed by the projector. -/
theorem projProd_mulVec {N : ℕ} (l : List (Matrix (Fin N) (Fin N) ℂ)) (v : Fin N → ℂ) (h : ∀ S ∈ l, S *ᵥ v = v) :
    projProd l *ᵥ v = v := by
  induction l using List.reverseRecOn with
  | nil => simp [projProd]
  | append_singleton l T ih =>
    rw [projProd_append, ← mulVec_mulVec, smul_mulVec, add_mulVec, one_mulVec, h T (by simp), ← two_smul ℂ v, smul_smul,
      show (1 / 2 * 2 : ℂ) = 1 by norm_num, one_smul]
    exact ih fun S hS => h S (by simp [hS])

/-- The trace is halved by every generator that has a Pauli-like partner: a matrix that anticommutes with it and commutes
with the earlier ones. -/
theorem projProd_trace {N : ℕ} (l : List (Matrix (Fin N) (Fin N) ℂ))
    (h : ∀ i (hi : i < l.length), ∃ Q R : Matrix (Fin N) (Fin N) ℂ, Q * R = 1 ∧ Q * l[i] = -(l[i] * Q) ∧
      ∀ j (hj : j < i), Q * l[j] = l[j] * Q) :
    trace (projProd l) * 2 ^ l.length = N := by
  induction l using List.reverseRecOn with
  | nil => simp [projProd]
  | append_singleton l T ih =>
    have ih' := ih (by
      intro i hi
      obtain ⟨Q, R, h1, h2, h3⟩ := h i (by simp; omega)
      refine ⟨Q, R, h1, ?_, ?_⟩
      · rwa [List.getElem_append_left hi] at h2
      · intro j hj
        have := h3 j hj
        rwa [List.getElem_append_left (by omega)] at this)
    obtain ⟨Q, R, h1, h2, h3⟩ := h l.length (by simp)
    have hT : (l ++ [T])[l.length]'(by simp) = T := by simp
    rw [hT] at h2
    have hP : Q * projProd l = projProd l * Q := by
      apply projProd_comm
      intro S hS
      obtain ⟨j, hj, rfl⟩ := List.getElem_of_mem hS
      have := h3 j hj
      rwa [List.getElem_append_left hj] at this
    have hzero : trace (projProd l * T) = 0 := by
      have e1 : trace (projProd l * T) = -trace (projProd l * T) := by
        calc trace (projProd l * T) = trace (projProd l * T * (Q * R)) := by rw [h1, Matrix.mul_one]
          _ = trace (projProd l * (T * Q) * R) := by simp only [Matrix.mul_assoc]
          _ = -trace (projProd l * (Q * T) * R) := by
            rw [h2]; simp only [Matrix.mul_neg, Matrix.neg_mul, trace_neg, neg_neg]
          _ = -trace (Q * (projProd l * T) * R) := by
            rw [← Matrix.mul_assoc, ← hP]; simp only [Matrix.mul_assoc]
          _ = -trace (R * Q * (projProd l * T)) := by rw [trace_mul_comm, ← Matrix.mul_assoc]
          _ = _ := by rw [mul_eq_one_comm.mp h1, Matrix.one_mul]
      have e2 : (2 : ℂ) * trace (projProd l * T) = 0 := by linear_combination e1
      simpa using e2
    rw [projProd_append, Matrix.mul_smul, Matrix.mul_add, Matrix.mul_one, trace_smul, trace_add, hzero, add_zero,
      List.length_append, List.length_singleton, pow_succ, smul_eq_mul]
    linear_combination ih'

/-! ### Pauli matrices on `2^n` indices -/

/-- The Pauli matrix indexed by numbers. -/
noncomputable def pauliN {n : ℕ} (p : Pauli n) : Matrix (Fin (2 ^ n)) (Fin (2 ^ n)) ℂ :=
  (pauliMatrix ℂ p).submatrix (bitsEquiv n) (bitsEquiv n)

theorem pauliN_comm {n : ℕ} (p q : Pauli n) : pauliN p * pauliN q = (sgn (symp p q) : ℂ) • (pauliN q * pauliN p) := by
  unfold pauliN
  rw [submatrix_mul_equiv, pauliMatrix_comm, submatrix_mul_equiv]
  rfl

theorem pauliN_sq {n : ℕ} (p : Pauli n) (h : parityY p = 0) : pauliN p * pauliN p = 1 := by
  unfold pauliN
  rw [submatrix_mul_equiv, pauliMatrix_sq, show dotp p.z p.x = 0 from h]
  simp [sgn]

theorem pauliN_conjTranspose {n : ℕ} (p : Pauli n) : (pauliN p)ᴴ = (pauliN p)ᵀ := by
  ext a b
  simp only [conjTranspose_apply, transpose_apply, pauliN, submatrix_apply, pauliMatrix, sgn]
  split_ifs <;> simp

theorem pauliN_unitary {n : ℕ} (p : Pauli n) : (pauliN p)ᴴ * pauliN p = 1 := by
  rw [pauliN_conjTranspose]
  unfold pauliN
  rw [transpose_submatrix, submatrix_mul_equiv, pauliMatrix_transpose_mul, submatrix_one_equiv]

theorem pauliN_hermitian {n : ℕ} (p : Pauli n) (h : parityY p = 0) : (pauliN p).IsHermitian := by
  have h1 := pauliN_sq p h
  have h2 := pauliN_unitary p
  calc (pauliN p)ᴴ = (pauliN p)ᴴ * (pauliN p * pauliN p) := by rw [h1, Matrix.mul_one]
    _ = pauliN p := by rw [← Matrix.mul_assoc, h2, Matrix.one_mul]

/-- Independent vectors have a dual system with respect to the symplectic form. -/
theorem exists_partner {n r : ℕ} (v : Fin r → BVec n) (h : LinearIndependent (ZMod 2) v) (i : Fin r) :
    ∃ w : BVec n, ∀ j, sympV w (v j) = if j = i then 1 else 0 := by
  obtain ⟨g, hg⟩ := LinearMap.exists_leftInverse_of_injective (Finsupp.linearCombination (ZMod 2) v)
    (LinearMap.ker_eq_bot.mpr h)
  set f : BVec n →ₗ[ZMod 2] ZMod 2 := (Finsupp.lapply i).comp g with hf
  have hfv : ∀ j, f (v j) = if j = i then 1 else 0 := by
    intro j
    have := LinearMap.congr_fun hg (Finsupp.single j 1)
    simp only [LinearMap.comp_apply, Finsupp.linearCombination_single, one_smul, LinearMap.id_apply] at this
    rw [hf, LinearMap.comp_apply, this, Finsupp.lapply_apply, Finsupp.single_apply]
  refine ⟨(fun t => f (0, Pi.single t 1), fun t => f (Pi.single t 1, 0)), fun j => ?_⟩
  rw [← hfv j]
  have hdec : v j = ∑ t, (v j).1 t • ((Pi.single t 1, 0) : BVec n) + ∑ t, (v j).2 t • ((0, Pi.single t 1) : BVec n) := by
    apply Prod.ext
    · funext s
      simp [Prod.fst_sum, Finset.sum_apply, Pi.single_apply]
    · funext s
      simp [Prod.snd_sum, Finset.sum_apply, Pi.single_apply]
  conv_rhs => rw [hdec]
  rw [map_add, map_sum, map_sum]
  simp only [map_smul, smul_eq_mul, sympV, dotp]
  rw [add_comm]
  congr 1 <;> exact Finset.sum_congr rfl fun t _ => mul_comm _ _

end PyQ
