import Verif.Model.Pauli
import Verif.Lemmas.PauliAlg
import Verif.Lemmas.Except
import Mathlib.Data.Int.ModEq
import Mathlib.Tactic.IntervalCases
import Mathlib.Data.List.GetD

/-! The arrays built by `binary_rep_to_pauli_mat` are the specification's Pauli matrices. -/

namespace PyQ

open Spec

variable (R : Type) [Ring R]

/-- `X^x Z^z` as an array. -/
def single (x z : ZMod 2) : Arr R :=
  ⟨2, 2, fun i j => if ((i : ℕ) : ZMod 2) = (j : ℕ) + x then sgn (z * (j : ℕ)) else 0⟩

theorem indexToQubitPauli_ok {x z : ℤ} (hx : x = 0 ∨ x = 1) (hz : z = 0 ∨ z = 1) :
    ∃ A, indexToQubitPauli R x z = .ok A ∧ Arr.Same A (single R x z) := by
  have key : ∀ A : Arr R, A.rows = 2 → A.cols = 2 →
      (∀ i < 2, ∀ j < 2, A.get i j = (single R x z).get i j) → Arr.Same A (single R x z) := by
    intro A h1 h2 h3
    exact ⟨h1, h2, by rw [h1, h2]; exact h3⟩
  have e1 : (1 : ZMod 2) + 1 = 0 := rfl
  rcases hx with rfl | rfl <;> rcases hz with rfl | rfl
  · refine ⟨pauliI R, rfl, key _ rfl rfl ?_⟩
    intro i hi j hj
    interval_cases i <;> interval_cases j <;> simp [pauliI, Arr.eye, single]
  · refine ⟨pauliZ R, rfl, key _ rfl rfl ?_⟩
    intro i hi j hj
    interval_cases i <;> interval_cases j <;> simp [pauliZ, single]
  · refine ⟨pauliX R, rfl, key _ rfl rfl ?_⟩
    intro i hi j hj
    interval_cases i <;> interval_cases j <;> simp [pauliX, single, e1]
  · refine ⟨pauliY R, rfl, key _ rfl rfl ?_⟩
    intro i hi j hj
    interval_cases i <;> interval_cases j <;> simp [pauliY, single, e1]

/-- The Pauli on the first `m` qubits of a row of length `2n`. -/
def prefixPauli (n m : ℕ) (b : List ℤ) : Pauli m :=
  ⟨fun j => ((b.getD j 0 : ℤ) : ZMod 2), fun j => ((b.getD (n + j) 0 : ℤ) : ZMod 2)⟩

theorem pauliMatrix_snoc {m : ℕ} (p : Pauli (m + 1)) (i j : ℕ) :
    pauliMatrix R p (bitsOf (m + 1) i) (bitsOf (m + 1) j) =
      pauliMatrix R (⟨fun k => p.x k.castSucc, fun k => p.z k.castSucc⟩ : Pauli m) (bitsOf m (i / 2)) (bitsOf m (j / 2))
        * (single R (p.x (Fin.last m)) (p.z (Fin.last m))).get (i % 2) (j % 2) := by
  simp only [pauliMatrix, single, ZMod.natCast_mod]
  rw [bitsOf_succ, bitsOf_succ]
  have hcond : (Fin.snoc (bitsOf m (i / 2)) ((i : ℕ) : ZMod 2) : Fin (m + 1) → ZMod 2)
        = (Fin.snoc (bitsOf m (j / 2)) ((j : ℕ) : ZMod 2) : Fin (m + 1) → ZMod 2) + p.x ↔
      bitsOf m (i / 2) = bitsOf m (j / 2) + (fun k => p.x k.castSucc) ∧ ((i : ℕ) : ZMod 2) = (j : ℕ) + p.x (Fin.last m) := by
    constructor
    · intro h
      constructor
      · funext k; simpa using congrFun h k.castSucc
      · simpa using congrFun h (Fin.last m)
    · rintro ⟨h1, h2⟩
      funext k
      refine Fin.lastCases ?_ (fun k => ?_) k
      · simpa using h2
      · simpa using congrFun h1 k
  have hdot : dotp p.z (Fin.snoc (bitsOf m (j / 2)) ((j : ℕ) : ZMod 2) : Fin (m + 1) → ZMod 2)
      = dotp (fun k => p.z k.castSucc) (bitsOf m (j / 2)) + p.z (Fin.last m) * ((j : ℕ) : ZMod 2) := by
    simp [dotp, Fin.sum_univ_castSucc]
  by_cases h1 : bitsOf m (i / 2) = bitsOf m (j / 2) + (fun k => p.x k.castSucc)
  · by_cases h2 : ((i : ℕ) : ZMod 2) = (j : ℕ) + p.x (Fin.last m)
    · rw [if_pos (hcond.mpr ⟨h1, h2⟩), if_pos h1, if_pos h2, hdot, sgn_add]
    · rw [if_neg (fun h => h2 (hcond.mp h).2), if_neg h2, mul_zero]
  · rw [if_neg (fun h => h1 (hcond.mp h).1), if_neg h1, zero_mul]

theorem idx_ok {b : List ℤ} {j : ℕ} (h : j < b.length) : idx b j = .ok (b.getD j 0) := by
  unfold idx
  rw [List.getElem?_eq_getElem h, List.getD_eq_getElem _ _ h]

theorem rowToPauliMat_spec {n : ℕ} (hn : 0 < n) {b : List ℤ} (hl : b.length = 2 * n) (hb : IsBinary b) :
    ∃ A, rowToPauliMat R b = .ok A ∧ A.rows = 2 ^ n ∧ A.cols = 2 ^ n ∧
      ∀ i < 2 ^ n, ∀ j < 2 ^ n, A.get i j = pauliMatrix R (rowPauli n b) (bitsOf n i) (bitsOf n j) := by
  have hbin : ∀ j, b.getD j 0 = 0 ∨ b.getD j 0 = 1 := by
    intro j
    by_cases h : j < b.length
    · rw [List.getD_eq_getElem _ _ h]; exact hb _ (List.getElem_mem h)
    · left; rw [List.getD_eq_default _ _ (by omega)]
  have hn2 : b.length / 2 = n := by omega
  obtain ⟨A0, hA0, hS0⟩ := indexToQubitPauli_ok R (hbin 0) (hbin n)
  -- the fold over the first m further qubits
  have hfold : ∀ m, m + 1 ≤ n → ∃ A, (List.range' 1 m).foldlM (fun (acc : Arr R) j => do
        let M ← indexToQubitPauli R (← idx b j) (← idx b (j + n))
        return acc.kron M) A0 = .ok A ∧ A.rows = 2 ^ (m + 1) ∧ A.cols = 2 ^ (m + 1) ∧
      ∀ i < 2 ^ (m + 1), ∀ j < 2 ^ (m + 1),
        A.get i j = pauliMatrix R (prefixPauli n (m + 1) b) (bitsOf (m + 1) i) (bitsOf (m + 1) j) := by
    intro m
    induction m with
    | zero =>
      intro _
      refine ⟨A0, rfl, hS0.1, hS0.2.1, ?_⟩
      intro i hi j hj
      have hr := hS0.1; have hc := hS0.2.1
      simp only [zero_add, pow_one] at hi hj
      rw [hS0.2.2 i (by rw [hr]; exact hi) j (by rw [hc]; exact hj), pauliMatrix_snoc]
      have e : pauliMatrix R (⟨fun k => (prefixPauli n (0 + 1) b).x k.castSucc,
          fun k => (prefixPauli n (0 + 1) b).z k.castSucc⟩ : Pauli 0) (bitsOf 0 (i / 2)) (bitsOf 0 (j / 2)) = 1 := by
        unfold pauliMatrix
        rw [if_pos (Subsingleton.elim _ _)]
        simp [dotp]
      rw [e, one_mul, Nat.mod_eq_of_lt hi, Nat.mod_eq_of_lt hj]
      rfl
    | succ m ih =>
      intro hm
      obtain ⟨A, h1, h2, h3, h4⟩ := ih (by omega)
      obtain ⟨M, hM, hSM⟩ := indexToQubitPauli_ok R (hbin (m + 1)) (hbin (m + 1 + n))
      have hMr : M.rows = 2 := hSM.1
      have hMc : M.cols = 2 := hSM.2.1
      refine ⟨A.kron M, ?_, by simp [h2, hMr, pow_succ], by simp [h3, hMc, pow_succ], ?_⟩
      · rw [List.range'_1_concat, foldlM_append_except, h1]
        simp only [Except.bind, foldlM_cons_except]
        rw [add_comm 1 m, idx_ok (by omega), idx_ok (by omega)]
        simp only [ok_bind', hM]
        rfl
      · intro i hi j hj
        rw [pow_succ] at hi hj
        simp only [Arr.kron, hMr, hMc]
        rw [h4 (i / 2) (by omega) (j / 2) (by omega), hSM.2.2 (i % 2) (by rw [hMr]; omega) (j % 2) (by rw [hMc]; omega),
          pauliMatrix_snoc R (prefixPauli n (m + 1 + 1) b) i j]
        simp only [prefixPauli, Fin.val_last, Fin.val_castSucc, add_comm n]
  obtain ⟨A, h1, h2, h3, h4⟩ := hfold (n - 1) (by omega)
  have hn' : n - 1 + 1 = n := by omega
  rw [hn'] at h2 h3
  refine ⟨A, ?_, h2, h3, ?_⟩
  · unfold rowToPauliMat
    simp only [hn2]
    rw [idx_ok (by omega), idx_ok (by omega)]
    simp only [ok_bind', hA0]
    exact h1
  · intro i hi j hj
    rw [hn'] at h4
    exact h4 i hi j hj

/-- The array as a matrix: a reindexing of the specification's Pauli matrix. -/
theorem rowToPauliMat_mat {n : ℕ} (hn : 0 < n) {b : List ℤ} (hl : b.length = 2 * n) (hb : IsBinary b) :
    ∃ A, rowToPauliMat R b = .ok A ∧ A.rows = 2 ^ n ∧ A.cols = 2 ^ n ∧
      A.mat (2 ^ n) (2 ^ n) = (pauliMatrix R (rowPauli n b)).submatrix (bitsEquiv n) (bitsEquiv n) := by
  obtain ⟨A, h1, h2, h3, h4⟩ := rowToPauliMat_spec R hn hl hb
  refine ⟨A, h1, h2, h3, ?_⟩
  ext i j
  exact h4 i i.2 j j.2

theorem zipWith_sum (n : ℕ) (a b : List ℤ) (ha : a.length = n) (hb : b.length = n) :
    (List.zipWith (· * ·) a b).sum = ∑ j : Fin n, a.getD j 0 * b.getD j 0 := by
  induction n generalizing a b with
  | zero =>
    rw [List.length_eq_zero_iff] at ha
    simp [ha]
  | succ n ih =>
    obtain ⟨x, a, rfl⟩ := List.exists_cons_of_length_eq_add_one ha
    obtain ⟨y, b, rfl⟩ := List.exists_cons_of_length_eq_add_one hb
    rw [List.zipWith_cons_cons, List.sum_cons, ih a b (by simpa using ha) (by simpa using hb), Fin.sum_univ_succ]
    simp

/-- `inner_prod` on rows of length `2n` returns the symplectic form as 0 or 1. -/
theorem innerProd_spec {n : ℕ} {p q : List ℤ} (hp : p.length = 2 * n) (hq : q.length = 2 * n) :
    ∃ v, innerProd p q = .ok v ∧ (v = 0 ∨ v = 1) ∧ ((v : ℤ) : ZMod 2) = symp (rowPauli n p) (rowPauli n q) := by
  have hn : p.length / 2 = n := by omega
  unfold innerProd dot1
  simp only [hn]
  rw [if_pos (by simp; omega), if_pos (by simp; omega)]
  refine ⟨_, rfl, Int.emod_two_eq_zero_or_one _, ?_⟩
  rw [zipWith_sum n _ _ (by simp; omega) (by simp; omega), zipWith_sum n _ _ (by simp; omega) (by simp; omega)]
  have hmod : ∀ z : ℤ, (((z % 2 : ℤ)) : ZMod 2) = (z : ZMod 2) := fun z => by
    have := ZMod.intCast_mod z 2
    simpa using this
  rw [hmod]
  have ht : ∀ (l : List ℤ) (j : Fin n), (l.take n).getD j 0 = l.getD j 0 := by
    intro l j
    simp [List.getD_eq_getElem?_getD, j.2]
  have hd : ∀ (l : List ℤ) (j : Fin n), (l.drop n).getD j 0 = l.getD (n + j) 0 := by
    intro l j
    simp [List.getD_eq_getElem?_getD, List.getElem?_drop]
  simp only [ht, hd]
  push_cast
  rfl

end PyQ
