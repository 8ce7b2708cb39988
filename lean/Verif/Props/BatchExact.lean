import Verif.Props.ErrorClasses

/-!
# C28, exactly, for batches: what a sparse channel does with a list of matrices of every shape
-/

namespace PyQ

open Matrix

variable {ops : Arr3 ℂ} {a b d e : ℕ} {orth : List ℕ} {o : KrausObj}

/-- C28.  A sparse channel raises `ValueError` for a batch unless its matrices have the size of the input, and there is one matrix, or
one operator, or as many matrices as operators.  Otherwise it returns a single matrix instead of a batch. -/
theorem C28_batch_exact (h : QChan.init true ops a b d e orth = .ok o) (rho : Arr3 ℂ) :
    ((∃ out, o.channelBatchSparse rho false = .ok out ∧ out.rows = e ^ b ∧ out.cols = e ^ b) ↔
      (rho.rows = d ^ a ∧ rho.cols = d ^ a) ∧ (rho.len = 1 ∨ ops.len = 1 ∨ rho.len = ops.len)) ∧
    ∀ x, o.channelBatchSparse rho false = .error x → x = .value := by
  obtain ⟨g1, g2, -, -, -, -, -, -, g9, g10, g11, -⟩ := qchanInit_ok h
  have hnth : o.nth = ops := by rw [g1.nth, g2]; rfl
  unfold KrausObj.channelBatchSparse
  rw [factors_holds g1, hnth]
  simp only [Bool.false_eq_true, if_false]
  by_cases h1 : ops.cols = rho.rows ∧ (ops.len = rho.len ∨ ops.len = 1 ∨ rho.len = 1)
  · have m1 : ∃ p : Arr3 ℂ, Arr3.matmul3 ops rho = .ok p ∧ p.rows = e ^ b ∧ p.cols = rho.cols ∧
        p.len = if ops.len = 1 then rho.len else ops.len := by
      unfold Arr3.matmul3
      rw [if_pos h1]
      exact ⟨_, rfl, g11, rfl, rfl⟩
    obtain ⟨p, e1, e2, e3, e4⟩ := m1
    rw [e1, ok_bind']
    have hl : p.len = ops.conjT.len ∨ p.len = 1 ∨ ops.conjT.len = 1 := by
      rw [e4]
      show _ = ops.len ∨ _ ∨ ops.len = 1
      by_cases hh : ops.len = 1
      · exact Or.inr (Or.inr hh)
      · rw [if_neg hh]; exact Or.inl rfl
    by_cases h2 : rho.cols = d ^ a
    · have m2 : ∃ q : Arr3 ℂ, Arr3.matmul3 p ops.conjT = .ok q ∧ q.rows = e ^ b ∧ q.cols = e ^ b := by
        unfold Arr3.matmul3
        rw [if_pos ⟨by rw [e3, h2]; exact g10.symm, hl⟩]
        exact ⟨_, rfl, e2, g11⟩
      obtain ⟨q, f1, f2, f3⟩ := m2
      rw [f1, ok_bind']
      refine ⟨⟨fun _ => ⟨⟨h1.1.symm.trans g10, h2⟩, ?_⟩, fun _ => ⟨_, rfl, f2, f3⟩⟩, fun x hx => by cases hx⟩
      rcases h1.2 with hh | hh | hh
      · exact Or.inr (Or.inr hh.symm)
      · exact Or.inr (Or.inl hh)
      · exact Or.inl hh
    · have m2 : Arr3.matmul3 p ops.conjT = .error .value := by
        unfold Arr3.matmul3
        rw [if_neg]
        rintro ⟨hh, -⟩
        exact h2 (e3.symm.trans (hh.trans g10))
      rw [m2]
      refine ⟨⟨?_, ?_⟩, ?_⟩
      · rintro ⟨_, hh, -⟩; cases hh
      · rintro ⟨⟨-, hh⟩, -⟩; exact absurd hh h2
      · intro x hx; cases hx; rfl
  · have m1 : Arr3.matmul3 ops rho = .error .value := by
      unfold Arr3.matmul3
      rw [if_neg h1]
    rw [m1]
    refine ⟨⟨?_, ?_⟩, ?_⟩
    · rintro ⟨_, hh, -⟩; cases hh
    · rintro ⟨⟨hh, -⟩, h3⟩
      refine absurd ⟨g10.trans hh.symm, ?_⟩ h1
      rcases h3 with h3 | h3 | h3
      · exact Or.inr (Or.inr h3)
      · exact Or.inr (Or.inl h3)
      · exact Or.inl h3.symm
    · intro x hx; cases hx; rfl

/-- C28.  A batch of one matrix gives the image of this matrix, without the axis of the batch. -/
theorem C28_batch_one (h : QChan.init true ops a b d e orth = .ok o) (rho : Arr3 ℂ) (h1 : rho.len = 1)
    (h2 : rho.rows = d ^ a) (h3 : rho.cols = d ^ a) :
    ∃ out : Arr ℂ, o.channelBatchSparse rho false = .ok out ∧ out.rows = e ^ b ∧ out.cols = e ^ b ∧
      out.mat (e ^ b) (e ^ b) = Spec.applyKraus (ops.ops ops.len (e ^ b) (d ^ a)) (rho.ops 1 (d ^ a) (d ^ a) 0) := by
  obtain ⟨g1, g2, -, -, -, -, -, -, g9, g10, g11, -⟩ := qchanInit_ok h
  have hnth : o.nth = ops := by rw [g1.nth, g2]; rfl
  unfold KrausObj.channelBatchSparse
  rw [factors_holds g1, hnth]
  simp only [Bool.false_eq_true, if_false]
  have hlen : (if ops.len = 1 then rho.len else ops.len) = ops.len := by split <;> omega
  have m1 : Arr3.matmul3 ops rho = .ok ⟨ops.len, ops.rows, rho.cols, fun k i j =>
      ∑ t ∈ Finset.range ops.cols, ops.get (if ops.len = 1 then 0 else k) i t * rho.get 0 t j⟩ := by
    unfold Arr3.matmul3
    rw [if_pos ⟨by rw [g10, h2], Or.inr (Or.inr h1)⟩, hlen]
    simp only [h1, if_true]
  rw [m1, ok_bind']
  unfold Arr3.matmul3
  rw [if_pos ⟨by simp only [Arr3.conjT]; rw [h3, g10], Or.inl rfl⟩, ok_bind']
  refine ⟨_, rfl, g11, g11, ?_⟩
  ext x y
  simp only [Arr3.sum0, Arr.mat, Arr3.conjT, ite_self]
  rw [Finset.sum_range, Spec.applyKraus, Matrix.sum_apply]
  refine Finset.sum_congr rfl fun k _ => ?_
  have hif : ∀ inst : Decidable (ops.len = 1), @ite ℕ (ops.len = 1) inst 0 (k : ℕ) = k := by
    intro inst
    have := k.2
    split_ifs <;> omega
  rw [Matrix.mul_apply, h3, Finset.sum_range]
  refine Finset.sum_congr rfl fun t _ => ?_
  rw [Matrix.mul_apply, g10, Finset.sum_range]
  simp only [hif]
  exact congrArg₂ (· * ·) rfl (congrArg star (congrArg (fun z => ops.get z y t) (hif _)))

/-- C28.  A sparse channel with one operator maps a batch to the image of the sum of its matrices. -/
theorem C28_batch_summed_refuted (h : QChan.init true ops a b d e orth = .ok o) (hl : ops.len = 1) (rho : Arr3 ℂ)
    (h2 : rho.rows = d ^ a) (h3 : rho.cols = d ^ a) :
    ∃ out : Arr ℂ, o.channelBatchSparse rho false = .ok out ∧ out.rows = e ^ b ∧ out.cols = e ^ b ∧
      out.mat (e ^ b) (e ^ b) = Spec.applyKraus (ops.ops ops.len (e ^ b) (d ^ a)) (∑ k, rho.ops rho.len (d ^ a) (d ^ a) k) := by
  obtain ⟨g1, g2, -, -, -, -, -, -, g9, g10, g11, -⟩ := qchanInit_ok h
  have hnth : o.nth = ops := by rw [g1.nth, g2]; rfl
  unfold KrausObj.channelBatchSparse
  rw [factors_holds g1, hnth]
  simp only [Bool.false_eq_true, if_false]
  have m1 : Arr3.matmul3 ops rho = .ok ⟨rho.len, ops.rows, rho.cols, fun k i j =>
      ∑ t ∈ Finset.range ops.cols, ops.get 0 i t * rho.get (if rho.len = 1 then 0 else k) t j⟩ := by
    unfold Arr3.matmul3
    rw [if_pos ⟨by rw [g10, h2], Or.inr (Or.inl hl)⟩]
    simp only [hl, if_true]
  rw [m1, ok_bind']
  unfold Arr3.matmul3
  rw [if_pos ⟨by simp only [Arr3.conjT]; rw [h3, g10], Or.inr (Or.inr hl)⟩, ok_bind']
  refine ⟨_, rfl, g11, g11, ?_⟩
  have happ : Spec.applyKraus (ops.ops ops.len (e ^ b) (d ^ a)) (∑ k, rho.ops rho.len (d ^ a) (d ^ a) k) =
      ∑ k : Fin rho.len, (Matrix.of fun (i : Fin (e ^ b)) (j : Fin (d ^ a)) => ops.get 0 i j) * rho.ops rho.len (d ^ a) (d ^ a) k *
        (Matrix.of fun (i : Fin (e ^ b)) (j : Fin (d ^ a)) => ops.get 0 i j)ᴴ := by
    rw [Spec.applyKraus]
    have hu : (Finset.univ : Finset (Fin ops.len)) = {⟨0, by omega⟩} := by
      ext i
      simp only [Finset.mem_univ, Finset.mem_singleton, true_iff]
      ext
      have := i.2
      show (i : ℕ) = 0
      omega
    rw [hu, Finset.sum_singleton, Matrix.mul_sum, Matrix.sum_mul]
    rfl
  rw [happ]
  ext x y
  simp only [Arr3.sum0, Arr.mat, Arr3.conjT, hl, if_true]
  have hlen : (if rho.len = 1 then 1 else rho.len) = rho.len := by split <;> omega
  rw [hlen, Finset.sum_range, Matrix.sum_apply]
  refine Finset.sum_congr rfl fun k _ => ?_
  have hif : ∀ inst : Decidable (rho.len = 1), @ite ℕ (rho.len = 1) inst 0 (k : ℕ) = k := by
    intro inst
    have := k.2
    split_ifs <;> omega
  rw [Matrix.mul_apply, h3, Finset.sum_range]
  refine Finset.sum_congr rfl fun t _ => ?_
  rw [Matrix.mul_apply, g10, Finset.sum_range]
  simp only [hif]
  rfl

/-- Two states given to the sparse identity channel: their sum is returned, of trace two. -/
example : ∃ (o : KrausObj) (out : Arr ℂ), QChan.init true (idOps 1) 1 1 2 2 [] = .ok o ∧
    o.channelBatchSparse ⟨2, 2, 2, fun k i j => if i = k ∧ j = k then 1 else 0⟩ false = .ok out ∧ out.mat 2 2 = 1 := by
  obtain ⟨o, ho⟩ : ∃ o, QChan.init true (idOps 1) 1 1 2 2 [] = .ok o := by
    obtain ⟨os, od, h1, -⟩ := C28_fidelity_refuted
    exact ⟨os, h1⟩
  obtain ⟨out, h1, -, -, h4⟩ := C28_batch_summed_refuted ho rfl ⟨2, 2, 2, fun k i j => if i = k ∧ j = k then 1 else 0⟩ rfl rfl
  refine ⟨o, out, ho, h1, Eq.trans h4 ?_⟩
  change (∑ i : Fin 1, (idOps 1).ops 1 2 2 i * (∑ k : Fin 2, _) * ((idOps 1).ops 1 2 2 i)ᴴ) = (1 : Matrix (Fin 2) (Fin 2) ℂ)
  have hid : ∀ i : Fin 1, (idOps 1).ops 1 2 2 i = 1 := by
    intro i
    ext x y
    fin_cases i; fin_cases x <;> fin_cases y <;> simp [idOps, Arr3.ops]
  simp only [hid, one_mul, Matrix.conjTranspose_one, mul_one, Finset.univ_unique, Finset.sum_singleton, Fin.sum_univ_two]
  ext x y
  fin_cases x <;> fin_cases y <;> simp [Arr3.ops]

end PyQ
