import Verif.Lemmas.PauliMat
import Mathlib.Data.Complex.Basic
import Mathlib.LinearAlgebra.Matrix.Trace
import Mathlib.LinearAlgebra.Matrix.NonsingularInverse

/-! # C03, C04: the Pauli matrices built by `binary_rep_to_pauli_mat` and `inner_prod` -/

namespace PyQ

open Spec

/-- **C03**.  `inner_prod` returns 0 exactly when the matrices built from the two rows commute, 1 exactly when they
anticommute, and nothing else (in particular it does not raise). -/
theorem C03_inner_prod_decides_commutation (n : ℕ) (hn : 0 < n) (p q : List ℤ)
    (hpl : p.length = 2 * n) (hql : q.length = 2 * n) (hp : IsBinary p) (hq : IsBinary q) :
    ∃ P Q v, binaryRepToPauliMat ℂ [p, q] = .ok [P, Q] ∧ innerProd p q = .ok v ∧ (v = 0 ∨ v = 1) ∧
      P.rows = 2 ^ n ∧ P.cols = 2 ^ n ∧ Q.rows = 2 ^ n ∧ Q.cols = 2 ^ n ∧
      (v = 0 ↔ P.mat (2 ^ n) (2 ^ n) * Q.mat (2 ^ n) (2 ^ n) = Q.mat (2 ^ n) (2 ^ n) * P.mat (2 ^ n) (2 ^ n)) ∧
      (v = 1 ↔ P.mat (2 ^ n) (2 ^ n) * Q.mat (2 ^ n) (2 ^ n) = -(Q.mat (2 ^ n) (2 ^ n) * P.mat (2 ^ n) (2 ^ n))) := by
  obtain ⟨P, hP, hPr, hPc, hPm⟩ := rowToPauliMat_mat ℂ hn hpl hp
  obtain ⟨Q, hQ, hQr, hQc, hQm⟩ := rowToPauliMat_mat ℂ hn hql hq
  obtain ⟨v, hv, hv01, hvs⟩ := innerProd_spec hpl hql
  refine ⟨P, Q, v, ?_, hv, hv01, hPr, hPc, hQr, hQc, ?_⟩
  · unfold binaryRepToPauliMat
    rw [mapM_ok_iff]
    exact .cons hP (.cons hQ .nil)
  rw [hPm, hQm, Matrix.submatrix_mul_equiv, Matrix.submatrix_mul_equiv, pauliMatrix_comm, ← hvs]
  set M := (pauliMatrix ℂ (rowPauli n q) * pauliMatrix ℂ (rowPauli n p)).submatrix (bitsEquiv n) (bitsEquiv n) with hM
  have hM0 : M ≠ 0 := by
    intro h0
    have hinv : (pauliMatrix ℂ (rowPauli n p)).transpose * ((pauliMatrix ℂ (rowPauli n q)).transpose *
        (pauliMatrix ℂ (rowPauli n q) * pauliMatrix ℂ (rowPauli n p))) = 1 := by
      rw [← mul_assoc (pauliMatrix ℂ (rowPauli n q)).transpose, pauliMatrix_transpose_mul, one_mul,
        pauliMatrix_transpose_mul]
    have hz : pauliMatrix ℂ (rowPauli n q) * pauliMatrix ℂ (rowPauli n p) = 0 := by
      ext a b
      have := congrFun (congrFun h0 ((bitsEquiv n).symm a)) ((bitsEquiv n).symm b)
      simpa [hM] using this
    rw [hz, mul_zero, mul_zero] at hinv
    have := congrFun (congrFun hinv 0) 0
    simp at this
  have hMneg : M ≠ -M := by
    intro h
    apply hM0
    have h2 : (2 : ℂ) • M = 0 := by
      rw [two_smul]; nth_rewrite 1 [h]; simp
    exact (smul_eq_zero.mp h2).resolve_left (by norm_num)
  rcases hv01 with rfl | rfl
  · have : ((sgn (((0 : ℤ) : ZMod 2)) : ℂ) • (pauliMatrix ℂ (rowPauli n q) * pauliMatrix ℂ (rowPauli n p))).submatrix
        (bitsEquiv n) (bitsEquiv n) = M := by simp [hM]
    rw [this]
    simp [hMneg]
  · have : ((sgn (((1 : ℤ) : ZMod 2)) : ℂ) • (pauliMatrix ℂ (rowPauli n q) * pauliMatrix ℂ (rowPauli n p))).submatrix
        (bitsEquiv n) (bitsEquiv n) = -M := by
      ext a b; simp [hM]
    rw [this]
    simp [hMneg.symm]

/-- Rows of the five-qubit code meet the hypotheses; XZZXI and IXZZX commute, XZZXI and ZIIII anticommute. -/
example : IsBinary [1, 0, 0, 1, 0, 0, 1, 1, 0, 0] ∧ IsBinary [0, 1, 0, 0, 1, 0, 0, 1, 1, 0] ∧
    innerProd [1, 0, 0, 1, 0, 0, 1, 1, 0, 0] [0, 1, 0, 0, 1, 0, 0, 1, 1, 0] = .ok 0 ∧
    innerProd [1, 0, 0, 1, 0, 0, 1, 1, 0, 0] [0, 0, 0, 0, 0, 1, 0, 0, 0, 0] = .ok 1 := by
  unfold IsBinary; decide

/-- **C03 (errors)**.  `inner_prod` of any two integer vectors raises exactly when the first has odd length or the two
lengths differ, the exception being `ValueError`; otherwise it returns 0 or 1. -/
theorem C03_errors (p q : List ℤ) :
    (∀ e, innerProd p q = .error e ↔ e = .value ∧ (p.length % 2 = 1 ∨ q.length ≠ p.length)) ∧
      ∀ v, innerProd p q = .ok v → v = 0 ∨ v = 1 := by
  have key : (p.length % 2 = 1 ∨ q.length ≠ p.length) → innerProd p q = .error .value := by
    intro h
    unfold innerProd dot1
    by_cases h1 : (p.take (p.length / 2)).length = (q.drop (p.length / 2)).length
    · have h2 : (p.drop (p.length / 2)).length ≠ (q.take (p.length / 2)).length := by
        simp only [List.length_take, List.length_drop] at h1 ⊢
        omega
      simp only [if_pos h1, if_neg h2]
      rfl
    · simp only [if_neg h1]
      rfl
  by_cases h : p.length % 2 = 1 ∨ q.length ≠ p.length
  · rw [key h]
    refine ⟨fun e => ⟨fun he => ⟨?_, h⟩, fun he => by rw [he.1]⟩, fun v hv => by cases hv⟩
    injection he with he
    exact he.symm
  · push Not at h
    obtain ⟨v, hv, h01, -⟩ := innerProd_spec (n := p.length / 2) (p := p) (q := q) (by omega) (by omega)
    rw [hv]
    refine ⟨fun e => ⟨fun he => (by cases he), fun he => ?_⟩, fun w hw => ?_⟩
    · rcases he.2 with h' | h'
      · omega
      · exact absurd h.2 h'
    · injection hw with hw
      rw [← hw]
      exact h01

/-- Rows for one and for two qubits cannot be compared. -/
example : innerProd [1, 0] [1, 0, 0, 1] = .error .value :=
  ((C03_errors _ _).1 _).mpr ⟨rfl, Or.inr (by decide)⟩

/-- **C04 (a)**.  The array built from a row is the tensor product of `X^x Z^z`, qubit 0 being the most significant:
it maps the basis vector `b` to `(-1)^(z·b)` times the basis vector `b + x`. -/
theorem C04_pauli_matrix_entries (n : ℕ) (hn : 0 < n) (p : List ℤ) (hpl : p.length = 2 * n) (hp : IsBinary p) :
    ∃ P, binaryRepToPauliMat ℂ [p] = .ok [P] ∧ P.rows = 2 ^ n ∧ P.cols = 2 ^ n ∧
      ∀ i < 2 ^ n, ∀ j < 2 ^ n, P.get i j =
        if bitsOf n i = bitsOf n j + (fun t : Fin n => ((p.getD t 0 : ℤ) : ZMod 2)) then
          ∏ t : Fin n, (-1 : ℂ) ^ ((p.getD (n + t) 0).toNat * (bitsOf n j t).val) else 0 := by
  obtain ⟨P, hP, hPr, hPc, hPm⟩ := rowToPauliMat_spec ℂ hn hpl hp
  refine ⟨P, by unfold binaryRepToPauliMat; rw [mapM_ok_iff]; exact .cons hP .nil, hPr, hPc, ?_⟩
  intro i hi j hj
  rw [hPm i hi j hj]
  unfold pauliMatrix
  by_cases h : bitsOf n i = bitsOf n j + (fun t : Fin n => ((p.getD t 0 : ℤ) : ZMod 2))
  · rw [if_pos h, if_pos (show bitsOf n i = bitsOf n j + (rowPauli n p).x from h)]
    unfold dotp
    rw [sgn_sum]
    refine Finset.prod_congr rfl ?_
    intro t _
    have hbin : p.getD (n + t) 0 = 0 ∨ p.getD (n + t) 0 = 1 := by
      have ht : n + t.val < p.length := by omega
      rw [List.getD_eq_getElem _ _ ht]; exact hp _ (List.getElem_mem ht)
    simp only [rowPauli]
    rcases hbin with h0 | h0 <;> rcases zmod2_cases (bitsOf n j t) with h1 | h1 <;> rw [h0, h1] <;>
      simp [ZMod.val_one]
  · rw [if_neg h, if_neg (show ¬ bitsOf n i = bitsOf n j + (rowPauli n p).x from h)]

/-- **C04 (b)**.  The matrices are orthogonal, the product of two is `(-1)^(z·x')` times the matrix of the mod-2 sum of the
rows, the square is `(-1)^(number of Y)`, and the trace vanishes unless the row is zero. -/
theorem C04_pauli_matrix_algebra (n : ℕ) (hn : 0 < n) (p q s : List ℤ)
    (hpl : p.length = 2 * n) (hql : q.length = 2 * n) (hsl : s.length = 2 * n)
    (hp : IsBinary p) (hq : IsBinary q) (hs : IsBinary s)
    (hsum : ∀ j < 2 * n, s.getD j 0 = (p.getD j 0 + q.getD j 0) % 2) :
    ∃ P Q S, binaryRepToPauliMat ℂ [p, q, s] = .ok [P, Q, S] ∧
      (P.mat (2 ^ n) (2 ^ n)).transpose * P.mat (2 ^ n) (2 ^ n) = 1 ∧
      P.mat (2 ^ n) (2 ^ n) * Q.mat (2 ^ n) (2 ^ n) =
        (-1 : ℂ) ^ (∑ j : Fin n, p.getD (n + j) 0 * q.getD j 0).toNat • S.mat (2 ^ n) (2 ^ n) ∧
      P.mat (2 ^ n) (2 ^ n) * P.mat (2 ^ n) (2 ^ n) =
        (-1 : ℂ) ^ (Finset.univ.filter (fun j : Fin n => p.getD j 0 = 1 ∧ p.getD (n + j) 0 = 1)).card • 1 ∧
      ((∃ j < 2 * n, p.getD j 0 = 1) → (P.mat (2 ^ n) (2 ^ n)).trace = 0) := by
  obtain ⟨P, hP, hPr, hPc, hPm⟩ := rowToPauliMat_mat ℂ hn hpl hp
  obtain ⟨Q, hQ, hQr, hQc, hQm⟩ := rowToPauliMat_mat ℂ hn hql hq
  obtain ⟨S, hS, hSr, hSc, hSm⟩ := rowToPauliMat_mat ℂ hn hsl hs
  have hbin : ∀ (b : List ℤ), IsBinary b → ∀ j, b.getD j 0 = 0 ∨ b.getD j 0 = 1 := by
    intro b hb j
    by_cases h : j < b.length
    · rw [List.getD_eq_getElem _ _ h]; exact hb _ (List.getElem_mem h)
    · left; rw [List.getD_eq_default _ _ (by omega)]
  have hsgn : ∀ m : ℕ, (sgn ((m : ℕ) : ZMod 2) : ℂ) = (-1) ^ m := by
    intro m
    induction m with
    | zero => simp
    | succ m ih => rw [Nat.cast_succ, sgn_add, ih, pow_succ]; simp
  refine ⟨P, Q, S, ?_, ?_, ?_, ?_, ?_⟩
  · unfold binaryRepToPauliMat
    rw [mapM_ok_iff]
    exact .cons hP (.cons hQ (.cons hS .nil))
  · rw [hPm, Matrix.transpose_submatrix, Matrix.submatrix_mul_equiv, pauliMatrix_transpose_mul,
      Matrix.submatrix_one_equiv]
  · rw [hPm, hQm, Matrix.submatrix_mul_equiv, pauliMatrix_mul, hSm]
    have h1 : (rowPauli n p).add (rowPauli n q) = rowPauli n s := by
      have hmod : ∀ z : ℤ, (((z % 2 : ℤ)) : ZMod 2) = (z : ZMod 2) := fun z => by
        simpa using ZMod.intCast_mod z 2
      simp only [Pauli.add, rowPauli, Pauli.mk.injEq]
      constructor
      · funext j; simp only [Pi.add_apply]; rw [hsum j (by omega), hmod]; push_cast; rfl
      · funext j; simp only [Pi.add_apply]; rw [hsum (n + j) (by omega), hmod]; push_cast; rfl
    have h2 : (sgn (dotp (rowPauli n p).z (rowPauli n q).x) : ℂ)
        = (-1) ^ (∑ j : Fin n, p.getD (n + j) 0 * q.getD j 0).toNat := by
      rw [← hsgn]
      congr 1
      have hnn : 0 ≤ ∑ j : Fin n, p.getD (n + j) 0 * q.getD j 0 := by
        apply Finset.sum_nonneg
        intro j _
        rcases hbin p hp (n + j) with h | h <;> rcases hbin q hq j with h' | h' <;> rw [h, h'] <;> norm_num
      have : (((∑ j : Fin n, p.getD (n + j) 0 * q.getD j 0).toNat : ℕ) : ZMod 2)
          = ((((∑ j : Fin n, p.getD (n + j) 0 * q.getD j 0).toNat : ℕ) : ℤ) : ZMod 2) := by push_cast; rfl
      rw [this, Int.toNat_of_nonneg hnn]
      push_cast
      rfl
    rw [h1, h2]
    rfl
  · rw [hPm, Matrix.submatrix_mul_equiv, pauliMatrix_sq]
    have h2 : (sgn (dotp (rowPauli n p).z (rowPauli n p).x) : ℂ)
        = (-1) ^ (Finset.univ.filter (fun j : Fin n => p.getD j 0 = 1 ∧ p.getD (n + j) 0 = 1)).card := by
      rw [← hsgn]
      congr 1
      rw [Finset.card_filter]
      push_cast
      unfold dotp
      refine Finset.sum_congr rfl ?_
      intro j _
      simp only [rowPauli]
      rcases hbin p hp (n + j) with h | h <;> rcases hbin p hp j with h' | h' <;> rw [h, h'] <;> simp
    rw [h2, Matrix.submatrix_smul]
    simp only [Pi.smul_apply, Matrix.submatrix_one_equiv]
  · rintro ⟨j, hj, hpj⟩
    rw [hPm]
    have : ((pauliMatrix ℂ (rowPauli n p)).submatrix (bitsEquiv n) (bitsEquiv n)).trace
        = (pauliMatrix ℂ (rowPauli n p)).trace := by
      unfold Matrix.trace
      simp only [Matrix.diag_apply, Matrix.submatrix_apply]
      exact Equiv.sum_comp (bitsEquiv n) (fun a => pauliMatrix ℂ (rowPauli n p) a a)
    rw [this]
    unfold Matrix.trace
    simp only [Matrix.diag_apply, pauliMatrix]
    by_cases hx : (rowPauli n p).x = 0
    · -- pure Z: pair b with b + e_j
      have hjn : n ≤ j := by
        by_contra hlt
        push Not at hlt
        have := congrFun hx ⟨j, hlt⟩
        simp [rowPauli, hpj, -List.getD_eq_getElem?_getD] at this
      obtain ⟨t, rfl⟩ := Nat.exists_eq_add_of_le hjn
      have ht : t < n := by omega
      let e : Fin n → ZMod 2 := Pi.single ⟨t, ht⟩ 1
      have hze : dotp (rowPauli n p).z e = 1 := by
        unfold dotp
        rw [Finset.sum_eq_single ⟨t, ht⟩]
        · simp [e, rowPauli, hpj, -List.getD_eq_getElem?_getD]
        · intro b _ hb; simp [e, hb]
        · simp
      simp only [hx, add_zero, if_true]
      have h1 : (∑ b : Fin n → ZMod 2, (sgn (dotp (rowPauli n p).z b) : ℂ))
          = ∑ b : Fin n → ZMod 2, (sgn (dotp (rowPauli n p).z (b + e)) : ℂ) :=
        (Equiv.sum_comp (Equiv.addRight e) (fun b => (sgn (dotp (rowPauli n p).z b) : ℂ))).symm
      have h2 : ∀ b : Fin n → ZMod 2, (sgn (dotp (rowPauli n p).z (b + e)) : ℂ) = - sgn (dotp (rowPauli n p).z b) := by
        intro b
        rw [dotp_add_right, hze, sgn_add]; simp
      simp only [h2, Finset.sum_neg_distrib] at h1
      exact self_eq_neg.mp h1
    · apply Finset.sum_eq_zero
      intro b _
      rw [if_neg]
      intro h
      apply hx
      exact (left_eq_add.mp h)

example : IsBinary [1, 1, 1, 1] ∧ IsBinary [1, 0, 0, 1] ∧ IsBinary [0, 1, 1, 0] ∧
    (∀ j < 2 * 2, [0, 1, 1, 0].getD j 0 = ([1, 1, 1, 1].getD j 0 + [1, 0, 0, 1].getD j 0) % 2) ∧
    (∃ j < 2 * 2, [1, 1, 1, 1].getD j 0 = 1) := by
  unfold IsBinary; decide

section Errors

variable (R : Type) [Ring R]

theorem kronFold_error {g : ℕ → Except PyErr (Arr R)} {l : List ℕ} {A : Arr R} {e : PyErr}
    (h : l.foldlM (fun acc j => do let M ← g j; return acc.kron M) A = .error e) : ∃ j ∈ l, g j = .error e := by
  induction l generalizing A with
  | nil => cases h
  | cons j l ih =>
    rw [List.foldlM_cons] at h
    rcases hg : g j with e' | M
    · rw [hg] at h
      exact ⟨j, by simp, by rw [hg]; exact h⟩
    · rw [hg] at h
      obtain ⟨i, hi, h'⟩ := ih h
      exact ⟨i, by simp [hi], h'⟩

theorem kronFold_ok {g : ℕ → Except PyErr (Arr R)} {l : List ℕ} {A B : Arr R}
    (h : l.foldlM (fun acc j => do let M ← g j; return acc.kron M) A = .ok B) : ∀ j ∈ l, ∃ M, g j = .ok M := by
  induction l generalizing A with
  | nil => simp
  | cons j l ih =>
    rw [List.foldlM_cons] at h
    rcases hg : g j with e' | M
    · rw [hg] at h; cases h
    · rw [hg] at h
      intro i hi
      rcases List.mem_cons.mp hi with rfl | hi
      · exact ⟨M, hg⟩
      · exact ih h i hi

/-- **C04 (errors)**.  `binary_rep_to_pauli_mat` of rows of length `2n`: an empty row gives `IndexError`, and otherwise the
call fails only with `ValueError`, exactly when some entry of some row is neither 0 nor 1. -/
theorem C04_errors (n : ℕ) (rows : List (List ℤ)) (hl : ∀ b ∈ rows, b.length = 2 * n) (e : PyErr) :
    binaryRepToPauliMat R rows = .error e ↔
      (n = 0 ∧ rows ≠ [] ∧ e = .index) ∨ (0 < n ∧ e = .value ∧ ∃ b ∈ rows, ∃ v ∈ b, v ≠ 0 ∧ v ≠ 1) := by
  have hq : ∀ x z : ℤ, ((∃ A, indexToQubitPauli R x z = .ok A) ∧ (x = 0 ∨ x = 1) ∧ (z = 0 ∨ z = 1)) ∨
      (indexToQubitPauli R x z = .error .value ∧ ¬ ((x = 0 ∨ x = 1) ∧ (z = 0 ∨ z = 1))) := by
    intro x z
    by_cases h : (x = 0 ∨ x = 1) ∧ (z = 0 ∨ z = 1)
    · left
      refine ⟨?_, h⟩
      obtain ⟨A, hA, -⟩ := indexToQubitPauli_ok R h.1 h.2
      exact ⟨A, hA⟩
    · right
      refine ⟨?_, h⟩
      unfold indexToQubitPauli
      rw [if_neg (by rintro ⟨rfl, rfl⟩; simp at h), if_neg (by rintro ⟨rfl, rfl⟩; simp at h),
        if_neg (by rintro ⟨rfl, rfl⟩; simp at h), if_neg (by rintro ⟨rfl, rfl⟩; simp at h)]
  have hrow : ∀ b : List ℤ, b.length = 2 * n → ∀ e, rowToPauliMat R b = .error e ↔
      (n = 0 ∧ e = .index) ∨ (0 < n ∧ e = .value ∧ ∃ v ∈ b, v ≠ 0 ∧ v ≠ 1) := by
    intro b hb e
    rcases Nat.eq_zero_or_pos n with rfl | hn
    · obtain rfl : b = [] := List.length_eq_zero_iff.mp (by omega)
      have : rowToPauliMat R [] = .error .index := rfl
      rw [this]
      simp [eq_comm]
    · by_cases hbin : IsBinary b
      · obtain ⟨A, hA, -⟩ := rowToPauliMat_spec R hn hb hbin
        rw [hA]
        constructor
        · intro h; cases h
        · rintro (⟨h, -⟩ | ⟨-, -, v, hv, h0, h1⟩)
          · omega
          · rcases hbin v hv with h | h
            · exact absurd h h0
            · exact absurd h h1
      · have hex : ∃ v ∈ b, v ≠ 0 ∧ v ≠ 1 := by
          unfold IsBinary at hbin
          push Not at hbin
          exact hbin
        have key : rowToPauliMat R b = .error .value := by
          have hn2 : b.length / 2 = n := by omega
          obtain ⟨g, hg⟩ : ∃ g : ℕ → Except PyErr (Arr R), ∀ j, g j = (do
              let x ← idx b j
              let z ← idx b (j + n)
              indexToQubitPauli R x z) := ⟨_, fun _ => rfl⟩
          have hstep : ∀ j < n, g j = indexToQubitPauli R (b.getD j 0) (b.getD (j + n) 0) := by
            intro j hj
            rw [hg]
            rw [idx_ok (by omega), idx_ok (by omega)]
            rfl
          have hform : rowToPauliMat R b = (do
              let first ← indexToQubitPauli R (b.getD 0 0) (b.getD (0 + n) 0)
              (List.range' 1 (n - 1)).foldlM (fun (acc : Arr R) j => do let M ← g j; return acc.kron M) first) := by
            unfold rowToPauliMat
            simp only [hn2]
            rw [idx_ok (by omega), idx_ok (by omega)]
            simp only [hg, ok_bind', bind_assoc, zero_add]
          rw [hform]
          rcases hr : (do
              let first ← indexToQubitPauli R (b.getD 0 0) (b.getD (0 + n) 0)
              (List.range' 1 (n - 1)).foldlM (fun (acc : Arr R) j => do let M ← g j; return acc.kron M) first) with e' | B
          · suffices h : e' = .value by rw [hr, h]
            rcases hq (b.getD 0 0) (b.getD (0 + n) 0) with ⟨⟨A, hA⟩, -⟩ | ⟨hE, -⟩
            · rw [hA] at hr
              simp only [ok_bind'] at hr
              obtain ⟨j, hj, hje⟩ := kronFold_error R hr
              rw [List.mem_range'_1] at hj
              rw [hstep j (by omega)] at hje
              rcases hq (b.getD j 0) (b.getD (j + n) 0) with ⟨⟨A, hA⟩, -⟩ | ⟨hE, -⟩
              · rw [hA] at hje; cases hje
              · rw [hE] at hje; injection hje with hje; exact hje.symm
            · rw [hE] at hr
              injection hr with hr
              exact hr.symm
          · exfalso
            have hgood : ∀ j < n, (b.getD j 0 = 0 ∨ b.getD j 0 = 1) ∧ (b.getD (j + n) 0 = 0 ∨ b.getD (j + n) 0 = 1) := by
              intro j hj
              rcases hq (b.getD 0 0) (b.getD (0 + n) 0) with ⟨⟨A, hA⟩, h0⟩ | ⟨hE, -⟩
              · rcases Nat.eq_zero_or_pos j with rfl | hj0
                · exact h0
                · rw [hA] at hr
                  simp only [ok_bind'] at hr
                  obtain ⟨M, hM⟩ := kronFold_ok R hr j (by rw [List.mem_range'_1]; omega)
                  rw [hstep j hj] at hM
                  rcases hq (b.getD j 0) (b.getD (j + n) 0) with ⟨-, h⟩ | ⟨hE, -⟩
                  · exact h
                  · rw [hE] at hM; cases hM
              · rw [hE] at hr; cases hr
            obtain ⟨v, hv, h0, h1⟩ := hex
            obtain ⟨i, hi, rfl⟩ := List.getElem_of_mem hv
            have hi' : b.getD i 0 = 0 ∨ b.getD i 0 = 1 := by
              rcases Nat.lt_or_ge i n with h | h
              · exact (hgood i h).1
              · have := (hgood (i - n) (by omega)).2
                rwa [Nat.sub_add_cancel h] at this
            rw [List.getD_eq_getElem _ _ hi] at hi'
            rcases hi' with h | h
            · exact h0 h
            · exact h1 h
        rw [key]
        constructor
        · intro h
          injection h with h
          exact Or.inr ⟨hn, h.symm, hex⟩
        · rintro (⟨h, -⟩ | ⟨-, rfl, -⟩)
          · omega
          · rfl
  unfold binaryRepToPauliMat
  constructor
  · intro h
    obtain ⟨pre, a, post, h1, h2, h3⟩ := mapM_error_iff.mp h
    have ha : a ∈ rows := by rw [h1]; simp
    rcases (hrow a (hl a ha) e).mp h3 with ⟨h, he⟩ | ⟨hn, he, hv⟩
    · exact Or.inl ⟨h, List.ne_nil_of_mem ha, he⟩
    · exact Or.inr ⟨hn, he, a, ha, hv⟩
  · intro h
    have hbad : ∃ b ∈ rows, rowToPauliMat R b = .error e := by
      rcases h with ⟨rfl, hne, rfl⟩ | ⟨hn, rfl, b, hb, hv⟩
      · obtain ⟨b, hb⟩ := List.exists_mem_of_ne_nil _ hne
        exact ⟨b, hb, (hrow b (hl b hb) _).mpr (Or.inl ⟨rfl, rfl⟩)⟩
      · exact ⟨b, hb, (hrow b (hl b hb) _).mpr (Or.inr ⟨hn, rfl, hv⟩)⟩
    obtain ⟨b, hb, hbe⟩ := hbad
    rcases hr : rows.mapM (rowToPauliMat R) with e' | r
    · obtain ⟨pre, a, post, h1, -, h3⟩ := mapM_error_iff.mp hr
      have ha : a ∈ rows := by rw [h1]; simp
      congr 1
      have q1 := (hrow a (hl a ha) e').mp h3
      have q2 := (hrow b (hl b hb) e).mp hbe
      rcases q1 with ⟨h4, h5⟩ | ⟨h4, h5, -⟩ <;> rcases q2 with ⟨h6, h7⟩ | ⟨h6, h7, -⟩
      · rw [h5, h7]
      · omega
      · omega
      · rw [h5, h7]
    · exfalso
      rw [mapM_ok_iff, List.forall₂_iff_get] at hr
      obtain ⟨j, hj, hj2⟩ := List.getElem_of_mem hb
      have := hr.2 j hj (by rw [← hr.1]; exact hj)
      simp only [List.get_eq_getElem, hj2] at this
      rw [hbe] at this
      cases this

end Errors

/-- A row with an entry 2, and an empty row. -/
example : binaryRepToPauliMat ℂ [[1, 0], [0, 2]] = .error .value ∧ binaryRepToPauliMat ℂ [[]] = .error .index :=
  ⟨(C04_errors ℂ 1 _ (by simp) _).mpr (Or.inr ⟨by norm_num, rfl, [0, 2], by simp, 2, by simp, by norm_num⟩),
    (C04_errors ℂ 0 _ (by simp) _).mpr (Or.inl ⟨rfl, by simp, rfl⟩)⟩

end PyQ
