import Verif.Props.Channel
import Verif.Props.KrausBlocks

/-! # More about batches of matrices (C28) and about the exceptions of the constructor (C81) -/

namespace PyQ

open Matrix

section
variable {ops : Arr3 ℂ} {a b d e : ℕ} {orth : List ℕ} {o : KrausObj}

/-- C28 is false for batches of as many matrices as there are operators: a dense object returns the list of the outputs
(`C23_batch`), while a sparse object applies the first operator to the first matrix, the second to the second and so on, and
returns the one matrix that is the sum of these. -/
theorem C28_batch_paired_refuted (h : QChan.init true ops a b d e orth = .ok o) (rho : Arr3 ℂ) (h1 : rho.len = ops.len)
    (h2 : rho.rows = d ^ a) (h3 : rho.cols = d ^ a) :
    ∃ out : Arr ℂ, o.channelBatchSparse rho false = .ok out ∧ out.rows = e ^ b ∧ out.cols = e ^ b ∧
      out.mat (e ^ b) (e ^ b) = ∑ k : Fin ops.len, ops.ops ops.len (e ^ b) (d ^ a) k *
        rho.ops ops.len (d ^ a) (d ^ a) k * (ops.ops ops.len (e ^ b) (d ^ a) k)ᴴ := by
  obtain ⟨g1, g2, -, -, -, -, -, -, g9, g10, g11, -⟩ := qchanInit_ok h
  unfold KrausObj.channelBatchSparse
  rw [factors_holds g1]
  have : o.nth = ops := by rw [g1.nth, g2]; rfl
  rw [this]
  simp only [Bool.false_eq_true, if_false]
  have m1 : Arr3.matmul3 ops rho = .ok ⟨ops.len, ops.rows, rho.cols, fun k i j =>
      ∑ t ∈ Finset.range ops.cols, ops.get (if ops.len = 1 then 0 else k) i t * rho.get (if ops.len = 1 then 0 else k) t j⟩ := by
    unfold Arr3.matmul3
    rw [if_pos ⟨by rw [g10, h2], Or.inl h1.symm⟩, h1, ite_self]
  rw [m1, ok_bind']
  unfold Arr3.matmul3
  rw [if_pos ⟨by simp only [Arr3.conjT]; rw [h3, g10], Or.inl rfl⟩, ok_bind']
  refine ⟨_, rfl, g11, g11, ?_⟩
  ext x y
  simp only [Arr3.sum0, Arr.mat, Arr3.conjT, ite_self]
  rw [Finset.sum_range, Matrix.sum_apply]
  refine Finset.sum_congr rfl fun k _ => ?_
  have hif : ∀ inst : Decidable (ops.len = 1), @ite ℕ (ops.len = 1) inst 0 (k : ℕ) = k := by
    intro inst
    have := k.2
    split_ifs <;> omega
  rw [Matrix.mul_apply, h3, Finset.sum_range]
  refine Finset.sum_congr rfl fun t _ => ?_
  rw [Matrix.mul_apply, g10, Finset.sum_range]
  simp only [hif]
  exact congrArg₂ (· * ·) rfl (congrArg star (congrArg (fun z => ops.get z y t) (hif _)))

/-- A batch of two matrices for the sparse dephasing channel: the result is one matrix, `K₀ ρ₀ K₀ᴴ + K₁ ρ₁ K₁ᴴ`. -/
example : ∃ (o : KrausObj) (out : Arr ℂ), QChan.init true dephOps 1 1 2 2 [] = .ok o ∧
    o.channelBatchSparse ⟨2, 2, 2, fun k i j => if i = k ∧ j = k then 1 else 0⟩ false = .ok out ∧ out.rows = 2 := by
  obtain ⟨o, ho⟩ := deph_ok true []
  obtain ⟨out, h1, h2, -⟩ := C28_batch_paired_refuted ho ⟨2, 2, 2, fun k i j => if i = k ∧ j = k then 1 else 0⟩ rfl rfl rfl
  exact ⟨o, out, ho, h1, h2⟩

end

variable {chk : QutipChecks} {a b d e : ℕ} {orth : List ℕ} {sp : Bool}

private lemma pyAssert_error_class (c : Prop) {hd : Decidable c} {x : PyErr}
    (h : (if c then (.ok () : Except PyErr Unit) else .error .assertion) = .error x) : x = .assertion := by
  by_cases hc : c
  · rw [if_pos hc] at h; cases h
  · rw [if_neg hc] at h; injection h with h; exact h.symm

/-- C81.  The exceptions for a three-dimensional array: `IndexError` if it holds no matrix, and otherwise `AssertionError` if
the matrices have the wrong shape or do not preserve the trace up to the tolerance. -/
theorem C81_array_errors (spa : Bool) (A : Arr3 ℂ) (hsp : spa = false ∨ sp = true) :
    (A.len = 0 → Chan.init chk (.array3 spa A) (Qubits.list a b) d e orth sp = .error .index) ∧
    (0 < A.len → ¬ (A.rows = e ^ b ∧ A.cols = d ^ a ∧ Spec.NearlyTP (A.ops A.len (e ^ b) (d ^ a))) →
      Chan.init chk (.array3 spa A) (Qubits.list a b) d e orth sp = .error .assertion) := by
  have hdef : Chan.init chk (.array3 spa A) (Qubits.list a b) d e orth sp = (do
      let k ← QChan.init sp A a b d e orth
      return ⟨sp, .kraus k⟩) := by
    have hn : ¬ (spa = true ∧ sp = false) := by
      rintro ⟨h1, h2⟩
      rcases hsp with h | h
      · rw [h] at h1; cases h1
      · rw [h] at h2; cases h2
    show Chan.initKraus (.array3 spa A) (Qubits.list a b) d e orth sp = _
    unfold Chan.initKraus
    simp only
    rw [if_neg hn]
    rfl
  rw [hdef]
  have hex : ∀ k : KrausObj, k.nth = A → k.nthConj = A.conjT → ∃ x, k.exchange = .ok x := by
    intro k h1 h2
    unfold KrausObj.exchange Arr3.tensordot
    rw [h1, h2, ite_self, if_pos (show A.conjT.cols = A.rows from rfl)]
    exact ⟨_, rfl⟩
  constructor
  · intro h0
    unfold QChan.init KrausObj.init
    obtain ⟨x, hx⟩ := hex ⟨sp, A, a, b, d, e, (if sp then [] else orth), 1, A, A.conjT, ⟨0, 0, 0, 0, fun _ _ _ _ => 0⟩⟩ rfl rfl
    simp only [h0, true_or, pyAssert, if_true, hx, bind, Except.bind, pure, Except.pure]
  · intro h0 hnot
    rcases hk : QChan.init sp A a b d e orth with x | k
    · have : x = .assertion := by
        unfold QChan.init KrausObj.init at hk
        by_cases c1 : A.len = 0 ∨ A.cols = d ^ a
        · by_cases c2 : A.len = 0 ∨ A.rows = e ^ b
          · obtain ⟨y, hy⟩ := hex ⟨sp, A, a, b, d, e, (if sp then [] else orth), 1, A, A.conjT, ⟨0, 0, 0, 0, fun _ _ _ _ => 0⟩⟩ rfl rfl
            simp only [if_pos c1, if_pos c2, pyAssert, hy, bind, Except.bind, pure, Except.pure, if_neg h0.ne'] at hk
            split at hk
            · rename_i err heq
              injection hk with hk
              rw [← hk]
              exact pyAssert_error_class _ heq
            · cases hk
          · simp only [c1, c2, pyAssert, if_true, if_false, bind, Except.bind] at hk
            injection hk with hk; exact hk.symm
        · simp only [c1, pyAssert, if_false, bind, Except.bind] at hk
          injection hk with hk; exact hk.symm
      rw [this]
      rfl
    · exact absurd ((qchanInit_iff sp A a b d e orth).1 ⟨k, hk⟩).2 hnot

/-- Both cases occur: an array without matrices, and the operator `2`. -/
example : Chan.init chk (.array3 false ⟨0, 2, 2, fun _ _ _ => 0⟩) (Qubits.list 1 1) 2 2 [] false = .error .index ∧
    Chan.init chk (.array3 false ⟨1, 3, 2, fun _ _ _ => 0⟩) (Qubits.list 1 1) 2 2 [] false = .error .assertion :=
  ⟨(C81_array_errors false _ (Or.inl rfl)).1 rfl, (C81_array_errors false _ (Or.inl rfl)).2 (by decide) (by
    rintro ⟨h, -⟩
    revert h
    decide)⟩

end PyQ
