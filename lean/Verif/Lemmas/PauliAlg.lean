import Verif.Spec.Pauli
import Mathlib.Data.Fin.Tuple.Basic
import Mathlib.Data.Fintype.BigOperators
import Mathlib.LinearAlgebra.Matrix.Trace
import Mathlib.Tactic.Ring
import Mathlib.Tactic.Abel
import Mathlib.Tactic.FinCases

/-! Algebra of the specification's Pauli matrices. -/

namespace PyQ.Spec

theorem zmod2_cases (a : ZMod 2) : a = 0 ∨ a = 1 := by
  revert a; decide

section
variable {R : Type} [Ring R]

@[simp] theorem sgn_zero : (sgn 0 : R) = 1 := by simp [sgn]
@[simp] theorem sgn_one : (sgn 1 : R) = -1 := by simp [sgn]

theorem sgn_add (a b : ZMod 2) : (sgn (a + b) : R) = sgn a * sgn b := by
  rcases zmod2_cases a with rfl | rfl <;> rcases zmod2_cases b with rfl | rfl <;> simp
  rw [show (1 : ZMod 2) + 1 = 0 from rfl]; simp

theorem sgn_mul_self (a : ZMod 2) : (sgn a : R) * sgn a = 1 := by
  rcases zmod2_cases a with rfl | rfl <;> simp

theorem sgn_comm (a : ZMod 2) (r : R) : sgn a * r = r * sgn a := by
  rcases zmod2_cases a with rfl | rfl <;> simp

theorem sgn_sum {ι : Type} (s : Finset ι) (f : ι → ZMod 2) {R : Type} [CommRing R] :
    (sgn (∑ i ∈ s, f i) : R) = ∏ i ∈ s, sgn (f i) := by
  classical
  induction s using Finset.induction_on with
  | empty => simp
  | insert a s ha ih => rw [Finset.sum_insert ha, Finset.prod_insert ha, sgn_add, ih]

end

variable {n : ℕ}

theorem dotp_comm (a b : Fin n → ZMod 2) : dotp a b = dotp b a := by
  simp [dotp, mul_comm]

theorem dotp_add_right (a b c : Fin n → ZMod 2) : dotp a (b + c) = dotp a b + dotp a c := by
  simp [dotp, mul_add, Finset.sum_add_distrib]

theorem dotp_add_left (a b c : Fin n → ZMod 2) : dotp (a + b) c = dotp a c + dotp b c := by
  simp [dotp, add_mul, Finset.sum_add_distrib]

@[simp] theorem dotp_zero_right (a : Fin n → ZMod 2) : dotp a 0 = 0 := by simp [dotp]
@[simp] theorem dotp_zero_left (a : Fin n → ZMod 2) : dotp 0 a = 0 := by simp [dotp]

theorem add_self_z (a : ZMod 2) : a + a = 0 := by
  rcases zmod2_cases a with rfl | rfl <;> decide

theorem add_self_f (a : Fin n → ZMod 2) : a + a = 0 := by
  funext j; exact add_self_z _

theorem add_add_cancel_f (a b : Fin n → ZMod 2) : a + b + b = a := by
  rw [add_assoc, add_self_f, add_zero]

theorem eq_add_iff_f (a b c : Fin n → ZMod 2) : a = b + c ↔ b = a + c := by
  constructor <;> (rintro rfl; rw [add_add_cancel_f])

theorem symp_comm (p q : Pauli n) : symp p q = symp q p := by
  unfold symp; rw [dotp_comm p.x, dotp_comm p.z, add_comm]

/-- The product of two Paulis without phase. -/
def Pauli.add (p q : Pauli n) : Pauli n := ⟨p.x + q.x, p.z + q.z⟩

section
variable {R : Type} [Ring R]

theorem pauliMatrix_mul (p q : Pauli n) :
    pauliMatrix R p * pauliMatrix R q = (sgn (dotp p.z q.x) : R) • pauliMatrix R (p.add q) := by
  ext a c
  rw [Matrix.mul_apply, Matrix.smul_apply]
  simp only [pauliMatrix, smul_eq_mul]
  rw [Finset.sum_eq_single (c + q.x)]
  · have : c + q.x + p.x = c + (p.add q).x := by simp only [Pauli.add]; abel
    rw [this, if_pos rfl]
    by_cases h : a = c + (p.add q).x
    · rw [if_pos h, if_pos h, show (p.add q).z = p.z + q.z from rfl, dotp_add_right, dotp_add_left, add_comm (dotp p.z c), sgn_add, sgn_add, mul_assoc]
    · rw [if_neg h, if_neg h, zero_mul, mul_zero]
  · intro b _ hb; simp [hb]
  · simp

theorem pauliMatrix_comm (p q : Pauli n) :
    pauliMatrix R p * pauliMatrix R q = (sgn (symp p q) : R) • (pauliMatrix R q * pauliMatrix R p) := by
  rw [pauliMatrix_mul, pauliMatrix_mul, smul_smul]
  have : p.add q = q.add p := by simp [Pauli.add, add_comm]
  rw [this]
  congr 1
  rw [symp, ← sgn_add, dotp_comm q.z p.x, add_comm (dotp p.x q.z), add_assoc, add_self_z, add_zero]

theorem pauliMatrix_zero : pauliMatrix R (⟨0, 0⟩ : Pauli n) = 1 := by
  ext a b
  simp [pauliMatrix, Matrix.one_apply]

theorem pauliMatrix_sq (p : Pauli n) :
    pauliMatrix R p * pauliMatrix R p = (sgn (dotp p.z p.x) : R) • (1 : Matrix _ _ R) := by
  rw [pauliMatrix_mul, ← pauliMatrix_zero]
  simp [Pauli.add, add_self_f]

theorem pauliMatrix_transpose_mul (p : Pauli n) :
    (pauliMatrix R p).transpose * pauliMatrix R p = 1 := by
  ext a c
  rw [Matrix.mul_apply]
  simp only [pauliMatrix, Matrix.transpose_apply]
  rw [Finset.sum_eq_single (c + p.x)]
  · simp only [add_left_inj, if_true, Matrix.one_apply]
    by_cases h : a = c
    · subst h; simp [sgn_mul_self]
    · rw [if_neg (fun h' => h h'.symm), if_neg h, zero_mul]
  · intro b _ hb; simp [hb]
  · simp

theorem pauliMatrix_mul_transpose (p : Pauli n) :
    pauliMatrix R p * (pauliMatrix R p).transpose = 1 := by
  ext a c
  rw [Matrix.mul_apply]
  simp only [pauliMatrix, Matrix.transpose_apply]
  rw [Finset.sum_eq_single (a + p.x)]
  · rw [add_add_cancel_f]
    simp only [if_true, Matrix.one_apply]
    by_cases h : a = c
    · subst h; simp [sgn_mul_self]
    · rw [if_neg (fun h' => h h'.symm), if_neg h, mul_zero]
  · intro b _ hb
    rw [if_neg, zero_mul]
    intro h; exact hb ((eq_add_iff_f _ _ _).mp h)
  · simp

end

/-! ### The basis index -/

theorem bitsOf_succ (n i : ℕ) : bitsOf (n + 1) i = Fin.snoc (bitsOf n (i / 2)) ((i : ℕ) : ZMod 2) := by
  funext j
  refine Fin.lastCases ?_ (fun j => ?_) j
  · simp [bitsOf]
  · simp only [bitsOf, Fin.snoc_castSucc, Fin.val_castSucc]
    rw [Nat.div_div_eq_div_mul]
    congr 2
    rw [mul_comm, ← pow_succ]
    congr 1
    omega

theorem bitsOf_inj (n : ℕ) {i j : ℕ} (hi : i < 2 ^ n) (hj : j < 2 ^ n) (h : bitsOf n i = bitsOf n j) : i = j := by
  induction n generalizing i j with
  | zero => simp at hi hj; omega
  | succ n ih =>
    rw [bitsOf_succ, bitsOf_succ] at h
    have h1 := congrArg (fun f : Fin (n + 1) → ZMod 2 => f (Fin.last n)) h
    simp only [Fin.snoc_last] at h1
    have h2 : bitsOf n (i / 2) = bitsOf n (j / 2) := by
      funext k
      have := congrFun h k.castSucc
      simpa using this
    rw [pow_succ] at hi hj
    have h3 := ih (i := i / 2) (j := j / 2) (by omega) (by omega) h2
    rw [ZMod.natCast_eq_natCast_iff] at h1
    have : i % 2 = j % 2 := h1
    omega

/-- The basis index as an equivalence. -/
noncomputable def bitsEquiv (n : ℕ) : Fin (2 ^ n) ≃ (Fin n → ZMod 2) :=
  Equiv.ofBijective (fun i => bitsOf n i) (by
    rw [Fintype.bijective_iff_injective_and_card]
    refine ⟨fun i j h => Fin.ext (bitsOf_inj n i.2 j.2 h), ?_⟩
    simp [ZMod.card])

@[simp] theorem bitsEquiv_apply (n : ℕ) (i : Fin (2 ^ n)) : bitsEquiv n i = bitsOf n i := rfl

end PyQ.Spec
