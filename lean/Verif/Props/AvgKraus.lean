import Verif.Props.KrausBlocks

/-!
# C31: what `average_entanglement_fidelity` of Kraus objects returns
-/

namespace PyQ

open Matrix

variable {ops : Arr3 ℂ} {a b d e : ℕ} {orth : List ℕ} {o : KrausObj}

/-- C31, what dense objects return for every ensemble: the sum of all entries of each product `K ρ_i` takes the place of its
trace. -/
theorem C31_dense_value (h : QChan.init false ops a b d e orth = .ok o) (calls : List QChan.Call)
    (ens : List (ℝ × Arr ℂ)) (hens : ∀ x ∈ ens, x.2.rows = d ^ a ∧ x.2.cols = d ^ a) :
    QChan.avgFidelity (QChan.history o calls) (ens.map Prod.fst) (ens.map Prod.snd) =
      .ok (ens.map fun x => x.1 * ∑ k, ‖∑ i, ∑ j, (ops.ops ops.len (e ^ b) (d ^ a) k * x.2.mat (d ^ a) (d ^ a)) i j‖ ^ 2).sum := by
  obtain ⟨h1, h2, h3, h4, h5, h6, h7, h8, h9, h10, h11, h12⟩ := qchanInit_ok h
  obtain ⟨p1, p2, -⟩ := history_static o calls
  have hk : (QChan.history o calls).kraus = ops := p1.trans h2
  have hsp : (QChan.history o calls).sparse = false := p2.trans h3
  unfold QChan.avgFidelity
  induction ens with
  | nil => rfl
  | cons x xs ih =>
    obtain ⟨hr, hc⟩ := hens x (by simp)
    have ih' := ih (fun y hy => hens y (by simp [hy]))
    simp only [List.map_cons, KrausObj.avgFidelity, List.sum_cons]
    rw [ih']
    have ht : (QChan.history o calls).fidTerm x.2 =
        .ok (∑ k, ‖∑ i, ∑ j, (ops.ops ops.len (e ^ b) (d ^ a) k * x.2.mat (d ^ a) (d ^ a)) i j‖ ^ 2) := by
      rw [fidTerm_dense (by simp [hsp]) (by rw [hk, h10, hr]), hk]
      congr 1
      rw [Finset.sum_range]
      refine Finset.sum_congr rfl fun k _ => ?_
      congr 2
      rw [h10, h11, hc, Finset.sum_range]
      refine Finset.sum_congr rfl fun i _ => ?_
      rw [Finset.sum_comm, Finset.sum_range]
      refine Finset.sum_congr rfl fun j _ => ?_
      rw [Matrix.mul_apply, Finset.sum_range]
      rfl
    rw [ht]
    rfl

/-- C31, what sparse objects return for every ensemble: the trace runs over the number of the operator and its row, and the
absolute squares are added up over the columns. -/
theorem C31_sparse_value (h : QChan.init true ops a b d e orth = .ok o) (calls : List QChan.Call)
    (ens : List (ℝ × Arr ℂ)) (hens : ∀ x ∈ ens, x.2.rows = d ^ a ∧ x.2.cols = d ^ a) :
    QChan.avgFidelity (QChan.history o calls) (ens.map Prod.fst) (ens.map Prod.snd) =
      .ok (ens.map fun x => x.1 * ∑ j, ‖∑ k : Fin ops.len, ∑ i : Fin (e ^ b), if (k : ℕ) = i then
        (ops.ops ops.len (e ^ b) (d ^ a) k * x.2.mat (d ^ a) (d ^ a)) i j else 0‖ ^ 2).sum := by
  obtain ⟨h1, h2, h3, h4, h5, h6, h7, h8, h9, h10, h11, h12⟩ := qchanInit_ok h
  obtain ⟨p1, p2, -⟩ := history_static o calls
  have hk : (QChan.history o calls).kraus = ops := p1.trans h2
  have hsp : (QChan.history o calls).sparse = true := p2.trans h3
  unfold QChan.avgFidelity
  induction ens with
  | nil => rfl
  | cons x xs ih =>
    obtain ⟨hr, hc⟩ := hens x (by simp)
    have ih' := ih (fun y hy => hens y (by simp [hy]))
    simp only [List.map_cons, KrausObj.avgFidelity, List.sum_cons]
    rw [ih']
    have ht : (QChan.history o calls).fidTerm x.2 =
        .ok (∑ j, ‖∑ k : Fin ops.len, ∑ i : Fin (e ^ b), if (k : ℕ) = i then
          (ops.ops ops.len (e ^ b) (d ^ a) k * x.2.mat (d ^ a) (d ^ a)) i j else 0‖ ^ 2) := by
      unfold KrausObj.fidTerm
      rw [if_pos hsp, hk, if_pos (h10.trans hr.symm), hc, Finset.sum_range]
      congr 1
      refine Finset.sum_congr rfl fun j _ => ?_
      congr 2
      have hg : ∀ k : Fin ops.len, (∑ i : Fin (e ^ b), if (k : ℕ) = i then
          (ops.ops ops.len (e ^ b) (d ^ a) k * x.2.mat (d ^ a) (d ^ a)) i j else 0) =
          if (k : ℕ) < e ^ b then ∑ m ∈ Finset.range ops.cols, ops.get k k m * x.2.get m j else 0 := by
        intro k
        split_ifs with hlt
        · rw [Finset.sum_eq_single (⟨k, hlt⟩ : Fin (e ^ b))]
          · rw [if_pos rfl, Matrix.mul_apply, h10, Finset.sum_range]
            rfl
          · intro i _ hi
            rw [if_neg fun hki => hi (Fin.ext hki.symm)]
          · simp
        · refine Finset.sum_eq_zero fun i _ => if_neg fun (hki : (k : ℕ) = i) => hlt (hki.symm ▸ i.2)
      rw [Finset.sum_congr rfl fun k _ => hg k, ← Finset.sum_range fun k => if k < e ^ b then
        ∑ m ∈ Finset.range ops.cols, ops.get k k m * x.2.get m j else 0, ← Finset.sum_filter, h11]
      refine Finset.sum_congr ?_ fun _ _ => rfl
      ext k
      simp
    rw [ht]
    rfl

/-- Both apply to the dephasing channel and an ensemble with a state that is not diagonal. -/
example : ∃ o o', QChan.init false dephOps 1 1 2 2 [] = .ok o ∧ QChan.init true dephOps 1 1 2 2 [] = .ok o' ∧
    QChan.avgFidelity o [1 / 2, 1 / 2] [plusState, mixedState] = .ok (5 / 4) ∧
    QChan.avgFidelity o' [1 / 2, 1 / 2] [plusState, mixedState] = .ok (5 / 4) := by
  obtain ⟨o, ho⟩ := deph_ok false []
  obtain ⟨o', ho'⟩ := deph_ok true []
  refine ⟨o, o', ho, ho', ?_, ?_⟩
  · refine (C31_dense_value ho [] [(1 / 2, plusState), (1 / 2, mixedState)] ?_).trans ?_
    · simp [plusState, mixedState]
    · simp only [List.map_cons, List.map_nil, List.sum_cons, List.sum_nil]
      change Except.ok ((1 / 2 : ℝ) * ∑ k : Fin 2, ‖∑ i : Fin 2, ∑ j : Fin 2, (dephOps.ops 2 2 2 k * plusState.mat 2 2) i j‖ ^ 2 +
        ((1 / 2 : ℝ) * ∑ k : Fin 2, ‖∑ i : Fin 2, ∑ j : Fin 2, (dephOps.ops 2 2 2 k * mixedState.mat 2 2) i j‖ ^ 2 + 0)) = _
      simp [Fin.sum_univ_two, Matrix.mul_apply, dephOps, Arr3.ops, plusState, mixedState, Arr.mat]
      norm_num
  · refine (C31_sparse_value ho' [] [(1 / 2, plusState), (1 / 2, mixedState)] ?_).trans ?_
    · simp [plusState, mixedState]
    · simp only [List.map_cons, List.map_nil, List.sum_cons, List.sum_nil]
      change Except.ok ((1 / 2 : ℝ) * ∑ j : Fin 2, ‖∑ k : Fin 2, ∑ i : Fin 2, if (k : ℕ) = i then (dephOps.ops 2 2 2 k * plusState.mat 2 2) i j else 0‖ ^ 2 +
        ((1 / 2 : ℝ) * ∑ j : Fin 2, ‖∑ k : Fin 2, ∑ i : Fin 2, if (k : ℕ) = i then (dephOps.ops 2 2 2 k * mixedState.mat 2 2) i j else 0‖ ^ 2 + 0)) = _
      simp [Fin.sum_univ_two, Matrix.mul_apply, dephOps, Arr3.ops, plusState, mixedState, Arr.mat]
      norm_num

end PyQ
