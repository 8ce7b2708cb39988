import Verif.Lemmas.Constructor

/-! The logical operators in coordinates. -/

namespace PyQ

open Spec

variable {n : ℕ}

/-- A sum over the qubits, split at the blocks of the normal form. -/
theorem sum_blocks {M : Type} [AddCommMonoid M] {m k r : ℕ} (hr : r ≤ m) (hk : m + k = n) (f : ℕ → M) :
    ∑ j ∈ Finset.range n, f j = ∑ a ∈ Finset.range r, f a + ∑ t ∈ Finset.range (m - r), f (r + t)
      + ∑ t ∈ Finset.range k, f (m + t) := by
  conv_lhs => rw [show n = (r + (m - r)) + k by omega]
  rw [Finset.sum_range_add, Finset.sum_range_add]
  rw [show r + (m - r) = m by omega]

variable {k r : ℕ} {nf : Arr ℤ}

theorem hstack_left {α : Type} (A B : Arr α) {i j : ℕ} (c : ℕ) (hc : A.cols = c) (h : j < c) :
    (A.hstack B).get i j = A.get i j := by
  unfold Arr.hstack; simp only; rw [if_pos (by omega)]

theorem hstack_right {α : Type} (A B : Arr α) {i j : ℕ} (c : ℕ) (hc : A.cols = c) (h : c ≤ j) :
    (A.hstack B).get i j = B.get i (j - c) := by
  subst hc; unfold Arr.hstack; simp only; rw [if_neg (by omega)]

/-- X part of a logical X operator. -/
theorem lx_x (h : NormalShape n k r nf) {i j : ℕ} (hj : j < n) :
    (logicalXOf n k r nf).get i j =
      if j < r then 0 else if j < nf.rows then nf.get j (2 * n - k + i) else if i = j - nf.rows then 1 else 0 := by
  have h1 := h.rows
  have h2 := h.rank_le
  unfold logicalXOf
  simp only
  rw [hstack_left _ _ (r + (nf.rows - r) + k + (r - 0)) rfl (by omega), hstack_left _ _ (r + (nf.rows - r) + k) rfl (by omega)]
  by_cases hjr : j < r
  · rw [hstack_left _ _ (r + (nf.rows - r)) rfl (by omega), hstack_left _ _ r rfl (by omega), if_pos hjr]
    rfl
  · rw [if_neg hjr]
    by_cases hjm : j < nf.rows
    · rw [hstack_left _ _ (r + (nf.rows - r)) rfl (by omega), hstack_right _ _ r rfl (by omega), if_pos hjm]
      show nf.get (r + (j - r)) (2 * n - k + i) = _
      rw [show r + (j - r) = j by omega]
    · rw [hstack_right _ _ (r + (nf.rows - r)) rfl (by omega), if_neg hjm, show r + (nf.rows - r) = nf.rows by omega]
      rfl

/-- Z part of a logical X operator, upper block. -/
theorem lx_z_low (h : NormalShape n k r nf) {i j : ℕ} (hj : j < r) :
    (logicalXOf n k r nf).get i (n + j) =
      ((∑ t ∈ Finset.range (nf.rows - r), nf.get (r + t) (2 * n - k + i) * nf.get j (n + r + t)) +
        nf.get j (2 * n - k + i)) % 2 := by
  have h1 := h.rows
  have h2 := h.rank_le
  unfold logicalXOf
  simp only
  rw [hstack_left _ _ (r + (nf.rows - r) + k + (r - 0)) rfl (by omega), hstack_right _ _ (r + (nf.rows - r) + k) rfl (by omega)]
  rw [show n + j - (r + (nf.rows - r) + k) = j by omega]
  simp only [Arr.transpose, blockE, blockC1, blockC2, Arr.slice, Arr.mod2, Arr.add, Arr.mul, Nat.zero_add]

/-- Z part of a logical X operator, the rest. -/
theorem lx_z_high (h : NormalShape n k r nf) {i j : ℕ} (hj : r ≤ j) :
    (logicalXOf n k r nf).get i (n + j) = 0 := by
  have h1 := h.rows
  have h2 := h.rank_le
  unfold logicalXOf
  simp only
  rw [hstack_right _ _ (r + (nf.rows - r) + k + (r - 0)) rfl (by omega)]
  rfl

theorem lx_shape (h : NormalShape n k r nf) : (logicalXOf n k r nf).rows = k ∧ (logicalXOf n k r nf).cols = 2 * n := by
  have h1 := h.rows
  have h2 := h.rank_le
  unfold logicalXOf
  simp only [Arr.hstack, Arr.zeros, Arr.transpose, blockE, blockC1, blockC2, Arr.slice, Arr.eye, Arr.mod2, Arr.add, Arr.mul]
  exact ⟨trivial, by omega⟩

theorem lz_x {i j : ℕ} (hj : j < n) : (logicalZOf n k r nf).get i j = 0 := by
  unfold logicalZOf
  rw [hstack_left _ _ (n + (r - 0) + (n - k - r)) rfl (by omega), hstack_left _ _ (n + (r - 0)) rfl (by omega),
    hstack_left _ _ n rfl hj]
  rfl

theorem lz_z (h : NormalShape n k r nf) {i j : ℕ} (hj : j < n) :
    (logicalZOf n k r nf).get i (n + j) =
      if j < r then nf.get j (nf.rows + i) else if j < nf.rows then 0 else if i = j - nf.rows then 1 else 0 := by
  have h1 := h.rows
  have h2 := h.rank_le
  unfold logicalZOf
  by_cases hjr : j < r
  · rw [hstack_left _ _ (n + (r - 0) + (n - k - r)) rfl (by omega), hstack_left _ _ (n + (r - 0)) rfl (by omega),
      hstack_right _ _ n rfl (by omega), if_pos hjr]
    show nf.get (0 + (n + j - n)) (n - k + i) = _
    rw [Nat.zero_add, show n + j - n = j by omega, show n - k = nf.rows by omega]
  · rw [if_neg hjr]
    by_cases hjm : j < nf.rows
    · rw [hstack_left _ _ (n + (r - 0) + (n - k - r)) rfl (by omega), hstack_right _ _ (n + (r - 0)) rfl (by omega), if_pos hjm]
      rfl
    · rw [hstack_right _ _ (n + (r - 0) + (n - k - r)) rfl (by omega), if_neg hjm,
        show n + j - (n + (r - 0) + (n - k - r)) = j - nf.rows by omega]
      rfl

theorem lz_shape (h : NormalShape n k r nf) : (logicalZOf n k r nf).rows = k ∧ (logicalZOf n k r nf).cols = 2 * n := by
  have h1 := h.rows
  have h2 := h.rank_le
  unfold logicalZOf
  simp only [Arr.hstack, Arr.zeros, Arr.transpose, blockA2, Arr.slice, Arr.eye]
  exact ⟨trivial, by omega⟩

theorem sum_ite_unit {m t : ℕ} (ht : t < m) (f : ℕ → ZMod 2) :
    ∑ a ∈ Finset.range m, f a * (((if a = t then 1 else 0 : ℤ)) : ZMod 2) = f t := by
  rw [Finset.sum_eq_single t]
  · simp
  · intro b _ hb; simp [hb]
  · intro h; exact absurd (Finset.mem_range.mpr ht) h

theorem sum_ite_unit' {m t : ℕ} (ht : t < m) (f : ℕ → ZMod 2) :
    ∑ a ∈ Finset.range m, (((if a = t then 1 else 0 : ℤ)) : ZMod 2) * f a = f t := by
  rw [← sum_ite_unit ht f]; exact Finset.sum_congr rfl fun _ _ => mul_comm _ _

/-- The symplectic product of two rows as sums over natural numbers. -/
theorem sympV_rowVec (A B : Arr ℤ) (a b : ℕ) : sympV (rowVec n A a) (rowVec n B b) =
    ∑ j ∈ Finset.range n, ((A.get a j : ℤ) : ZMod 2) * ((B.get b (n + j) : ℤ) : ZMod 2) +
    ∑ j ∈ Finset.range n, ((A.get a (n + j) : ℤ) : ZMod 2) * ((B.get b j : ℤ) : ZMod 2) := by
  rw [Finset.sum_range, Finset.sum_range]
  rfl

theorem lx_comm_nf (h : NormalShape n k r nf) {i a : ℕ} (hi : i < k) (ha : a < nf.rows) :
    sympV (rowVec n (logicalXOf n k r nf) i) (rowVec n nf a) = 0 := by
  have h1 := h.rows
  have h2 := h.rank_le
  have hk : 2 * n - k = n + nf.rows := by omega
  rw [sympV_rowVec, sum_blocks h2 h1, sum_blocks h2 h1]
  have x1 : ∑ j ∈ Finset.range r, (((logicalXOf n k r nf).get i j : ℤ) : ZMod 2) * ((nf.get a (n + j) : ℤ) : ZMod 2) = 0 := by
    refine Finset.sum_eq_zero fun j hj => ?_
    have hj := Finset.mem_range.mp hj
    rw [lx_x h (by omega), if_pos hj]; simp
  have x2 : ∑ t ∈ Finset.range (nf.rows - r), (((logicalXOf n k r nf).get i (r + t) : ℤ) : ZMod 2) * ((nf.get a (n + (r + t)) : ℤ) : ZMod 2)
      = ∑ t ∈ Finset.range (nf.rows - r), ((nf.get (r + t) (2 * n - k + i) : ℤ) : ZMod 2) * ((nf.get a (n + (r + t)) : ℤ) : ZMod 2) := by
    refine Finset.sum_congr rfl fun t ht => ?_
    have ht := Finset.mem_range.mp ht
    rw [lx_x h (by omega), if_neg (by omega), if_pos (by omega)]
  have x3 : ∑ t ∈ Finset.range k, (((logicalXOf n k r nf).get i (nf.rows + t) : ℤ) : ZMod 2) * ((nf.get a (n + (nf.rows + t)) : ℤ) : ZMod 2)
      = ((nf.get a (2 * n - k + i) : ℤ) : ZMod 2) := by
    rw [hk, add_assoc, ← sum_ite_unit' hi (fun t => ((nf.get a (n + (nf.rows + t)) : ℤ) : ZMod 2))]
    refine Finset.sum_congr rfl fun t ht => ?_
    have ht := Finset.mem_range.mp ht
    rw [lx_x h (by omega), if_neg (by omega), if_neg (by omega), show nf.rows + t - nf.rows = t by omega]
    simp only [eq_comm]
  have z2 : ∑ t ∈ Finset.range (nf.rows - r), (((logicalXOf n k r nf).get i (n + (r + t)) : ℤ) : ZMod 2) * ((nf.get a (r + t) : ℤ) : ZMod 2) = 0 :=
    Finset.sum_eq_zero fun t _ => by rw [lx_z_high h (by omega)]; simp
  have z3 : ∑ t ∈ Finset.range k, (((logicalXOf n k r nf).get i (n + (nf.rows + t)) : ℤ) : ZMod 2) * ((nf.get a (nf.rows + t) : ℤ) : ZMod 2) = 0 :=
    Finset.sum_eq_zero fun t _ => by rw [lx_z_high h (by omega)]; simp
  rw [x1, x2, x3, z2, z3]
  by_cases har : a < r
  · have z1 : ∑ j ∈ Finset.range r, (((logicalXOf n k r nf).get i (n + j) : ℤ) : ZMod 2) * ((nf.get a j : ℤ) : ZMod 2)
        = ∑ t ∈ Finset.range (nf.rows - r), ((nf.get (r + t) (2 * n - k + i) : ℤ) : ZMod 2) * ((nf.get a (n + (r + t)) : ℤ) : ZMod 2)
          + ((nf.get a (2 * n - k + i) : ℤ) : ZMod 2) := by
      have : ∀ j ∈ Finset.range r, (((logicalXOf n k r nf).get i (n + j) : ℤ) : ZMod 2) * ((nf.get a j : ℤ) : ZMod 2)
          = (((logicalXOf n k r nf).get i (n + j) : ℤ) : ZMod 2) * (((if j = a then 1 else 0 : ℤ)) : ZMod 2) := by
        intro j hj
        have hj := Finset.mem_range.mp hj
        rw [h.upperI a har j hj]
        simp only [eq_comm]
      rw [Finset.sum_congr rfl this, sum_ite_unit har (fun j => (((logicalXOf n k r nf).get i (n + j) : ℤ) : ZMod 2)),
        lx_z_low h har, zmod_emod2]
      push_cast
      simp only [Nat.add_assoc]
    rw [z1]
    simp only [zero_add, add_zero]
    exact add_self_z _
  · have z1 : ∑ j ∈ Finset.range r, (((logicalXOf n k r nf).get i (n + j) : ℤ) : ZMod 2) * ((nf.get a j : ℤ) : ZMod 2) = 0 := by
      refine Finset.sum_eq_zero fun j hj => ?_
      have hj := Finset.mem_range.mp hj
      rw [h.lowerX a (by omega) ha j (by omega)]; simp
    have x2' : ∑ t ∈ Finset.range (nf.rows - r), ((nf.get (r + t) (2 * n - k + i) : ℤ) : ZMod 2) * ((nf.get a (n + (r + t)) : ℤ) : ZMod 2)
        = ((nf.get a (2 * n - k + i) : ℤ) : ZMod 2) := by
      have : ∀ t ∈ Finset.range (nf.rows - r), ((nf.get (r + t) (2 * n - k + i) : ℤ) : ZMod 2) * ((nf.get a (n + (r + t)) : ℤ) : ZMod 2)
          = ((nf.get (r + t) (2 * n - k + i) : ℤ) : ZMod 2) * (((if t = a - r then 1 else 0 : ℤ)) : ZMod 2) := by
        intro t ht
        have ht := Finset.mem_range.mp ht
        rw [h.lowerI a (by omega) ha (r + t) (by omega) (by omega)]
        congr 3
        apply propext
        omega
      rw [Finset.sum_congr rfl this, sum_ite_unit (show a - r < nf.rows - r by omega)
        (fun t => ((nf.get (r + t) (2 * n - k + i) : ℤ) : ZMod 2)), show r + (a - r) = a by omega]
    rw [z1, x2']
    simp only [zero_add, add_zero]
    exact add_self_z _

theorem lz_comm_nf (h : NormalShape n k r nf) {i a : ℕ} (hi : i < k) (ha : a < nf.rows) :
    sympV (rowVec n (logicalZOf n k r nf) i) (rowVec n nf a) = 0 := by
  have h1 := h.rows
  have h2 := h.rank_le
  rw [sympV_rowVec]
  have x0 : ∑ j ∈ Finset.range n, (((logicalZOf n k r nf).get i j : ℤ) : ZMod 2) * ((nf.get a (n + j) : ℤ) : ZMod 2) = 0 :=
    Finset.sum_eq_zero fun j hj => by rw [lz_x (Finset.mem_range.mp hj)]; simp
  rw [x0, zero_add]
  by_cases har : a < r
  · rw [sum_blocks h2 h1]
    have z1 : ∑ j ∈ Finset.range r, (((logicalZOf n k r nf).get i (n + j) : ℤ) : ZMod 2) * ((nf.get a j : ℤ) : ZMod 2)
        = ((nf.get a (nf.rows + i) : ℤ) : ZMod 2) := by
      rw [← sum_ite_unit har (fun j => ((nf.get j (nf.rows + i) : ℤ) : ZMod 2))]
      refine Finset.sum_congr rfl fun j hj => ?_
      have hj := Finset.mem_range.mp hj
      rw [lz_z h (by omega), if_pos hj, h.upperI a har j hj]
      simp only [eq_comm]
    have z2 : ∑ t ∈ Finset.range (nf.rows - r), (((logicalZOf n k r nf).get i (n + (r + t)) : ℤ) : ZMod 2) * ((nf.get a (r + t) : ℤ) : ZMod 2) = 0 := by
      refine Finset.sum_eq_zero fun t ht => ?_
      have ht := Finset.mem_range.mp ht
      rw [lz_z h (by omega), if_neg (by omega), if_pos (by omega)]; simp
    have z3 : ∑ t ∈ Finset.range k, (((logicalZOf n k r nf).get i (n + (nf.rows + t)) : ℤ) : ZMod 2) * ((nf.get a (nf.rows + t) : ℤ) : ZMod 2)
        = ((nf.get a (nf.rows + i) : ℤ) : ZMod 2) := by
      rw [← sum_ite_unit' hi (fun t => ((nf.get a (nf.rows + t) : ℤ) : ZMod 2))]
      refine Finset.sum_congr rfl fun t ht => ?_
      have ht := Finset.mem_range.mp ht
      rw [lz_z h (by omega), if_neg (by omega), if_neg (by omega), show nf.rows + t - nf.rows = t by omega]
      simp only [eq_comm]
    rw [z1, z2, z3, add_zero]
    exact add_self_z _
  · refine Finset.sum_eq_zero fun j hj => ?_
    rw [h.lowerX a (by omega) ha j (Finset.mem_range.mp hj)]; simp

theorem lx_lz (h : NormalShape n k r nf) {i j : ℕ} (hi : i < k) (hj : j < k) :
    sympV (rowVec n (logicalXOf n k r nf) i) (rowVec n (logicalZOf n k r nf) j) = if i = j then 1 else 0 := by
  have h1 := h.rows
  have h2 := h.rank_le
  rw [sympV_rowVec]
  have x0 : ∑ t ∈ Finset.range n, (((logicalXOf n k r nf).get i (n + t) : ℤ) : ZMod 2) * (((logicalZOf n k r nf).get j t : ℤ) : ZMod 2) = 0 :=
    Finset.sum_eq_zero fun t ht => by rw [lz_x (Finset.mem_range.mp ht)]; simp
  rw [x0, add_zero, sum_blocks h2 h1]
  have z1 : ∑ t ∈ Finset.range r, (((logicalXOf n k r nf).get i t : ℤ) : ZMod 2) * (((logicalZOf n k r nf).get j (n + t) : ℤ) : ZMod 2) = 0 := by
    refine Finset.sum_eq_zero fun t ht => ?_
    have ht := Finset.mem_range.mp ht
    rw [lx_x h (by omega), if_pos ht]; simp
  have z2 : ∑ t ∈ Finset.range (nf.rows - r), (((logicalXOf n k r nf).get i (r + t) : ℤ) : ZMod 2) * (((logicalZOf n k r nf).get j (n + (r + t)) : ℤ) : ZMod 2) = 0 := by
    refine Finset.sum_eq_zero fun t ht => ?_
    have ht := Finset.mem_range.mp ht
    rw [lz_z h (by omega), if_neg (by omega), if_pos (by omega)]; simp
  have z3 : ∑ t ∈ Finset.range k, (((logicalXOf n k r nf).get i (nf.rows + t) : ℤ) : ZMod 2) * (((logicalZOf n k r nf).get j (n + (nf.rows + t)) : ℤ) : ZMod 2)
      = ((((if j = i then 1 else 0 : ℤ)) : ZMod 2)) := by
    rw [← sum_ite_unit' hi (fun t => (((if j = t then 1 else 0 : ℤ)) : ZMod 2))]
    refine Finset.sum_congr rfl fun t ht => ?_
    have ht := Finset.mem_range.mp ht
    have e1 : (logicalXOf n k r nf).get i (nf.rows + t) = if t = i then 1 else 0 := by
      rw [lx_x h (by omega), if_neg (by omega), if_neg (by omega), show nf.rows + t - nf.rows = t by omega]
      simp only [eq_comm]
    have e2 : (logicalZOf n k r nf).get j (n + (nf.rows + t)) = if j = t then 1 else 0 := by
      rw [lz_z h (by omega), if_neg (by omega), if_neg (by omega), show nf.rows + t - nf.rows = t by omega]
    rw [e1, e2]
  rw [z1, z2, z3, zero_add, zero_add]
  by_cases hij : i = j
  · subst hij; simp
  · rw [if_neg hij, if_neg (fun hh => hij hh.symm)]; simp

theorem lx_lx (h : NormalShape n k r nf) (i j : ℕ) :
    sympV (rowVec n (logicalXOf n k r nf) i) (rowVec n (logicalXOf n k r nf) j) = 0 := by
  have key : ∀ a b, ∑ t ∈ Finset.range n, (((logicalXOf n k r nf).get a t : ℤ) : ZMod 2) * (((logicalXOf n k r nf).get b (n + t) : ℤ) : ZMod 2) = 0 := by
    intro a b
    refine Finset.sum_eq_zero fun t htn => ?_
    by_cases ht : t < r
    · rw [lx_x h (Finset.mem_range.mp htn), if_pos ht]; simp
    · rw [lx_z_high h (by omega)]; simp
  rw [sympV_rowVec, key, zero_add]
  rw [← key j i]
  exact Finset.sum_congr rfl fun _ _ => mul_comm _ _

theorem lz_lz (i j : ℕ) :
    sympV (rowVec n (logicalZOf n k r nf) i) (rowVec n (logicalZOf n k r nf) j) = 0 := by
  rw [sympV_rowVec]
  have x0 : ∑ t ∈ Finset.range n, (((logicalZOf n k r nf).get i (n + t) : ℤ) : ZMod 2) * (((logicalZOf n k r nf).get j t : ℤ) : ZMod 2) = 0 :=
    Finset.sum_eq_zero fun t ht => by rw [lz_x (Finset.mem_range.mp ht)]; simp
  have x1 : ∑ t ∈ Finset.range n, (((logicalZOf n k r nf).get i t : ℤ) : ZMod 2) * (((logicalZOf n k r nf).get j (n + t) : ℤ) : ZMod 2) = 0 :=
    Finset.sum_eq_zero fun t ht => by rw [lz_x (Finset.mem_range.mp ht)]; simp
  rw [x0, x1, add_zero]

theorem lx_binary (h : NormalShape n k r nf) : BinaryArr (logicalXOf n k r nf) := by
  have h1 := h.rows
  have h2 := h.rank_le
  have hc := h.cols
  obtain ⟨s1, s2⟩ := lx_shape h
  intro i hi j hj
  rw [s1] at hi
  rw [s2] at hj
  by_cases hjn : j < n
  · rw [lx_x h hjn]
    split_ifs
    · simp
    · exact h.binary _ (by omega) _ (by omega)
    · simp
    · simp
  · obtain ⟨t, rfl⟩ := Nat.exists_eq_add_of_le (show n ≤ j by omega)
    by_cases ht : t < r
    · rw [lx_z_low h ht]; omega
    · rw [lx_z_high h (by omega)]; simp

theorem lz_binary (h : NormalShape n k r nf) : BinaryArr (logicalZOf n k r nf) := by
  have h1 := h.rows
  have h2 := h.rank_le
  have hc := h.cols
  obtain ⟨s1, s2⟩ := lz_shape h
  intro i hi j hj
  rw [s1] at hi
  rw [s2] at hj
  by_cases hjn : j < n
  · rw [lz_x hjn]; simp
  · obtain ⟨t, rfl⟩ := Nat.exists_eq_add_of_le (show n ≤ j by omega)
    rw [lz_z h (by omega)]
    split_ifs
    · exact h.binary _ (by omega) _ (by omega)
    · simp
    · simp
    · simp

end PyQ
