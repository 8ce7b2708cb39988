import Verif.Model.Stabilizer
import Verif.Spec.Stabilizer
import Verif.Lemmas.PauliAlg
import Mathlib.LinearAlgebra.Span.Basic
import Mathlib.LinearAlgebra.Dimension.Constructions
import Mathlib.LinearAlgebra.FiniteDimensional.Basic

/-! Invariants of the elimination: the row span up to relabelling qubits. -/

namespace PyQ

open Spec

variable {n : ℕ}

theorem zmod_emod2 (z : ℤ) : (((z % 2 : ℤ)) : ZMod 2) = (z : ZMod 2) := by
  simpa using ZMod.intCast_mod z 2

/-- Same shape, same generated group up to a relabelling of the qubits. -/
structure Equi (n : ℕ) (A B : Arr ℤ) : Prop where
  rows : B.rows = A.rows
  cols : B.cols = A.cols
  span : ∃ σ : Equiv.Perm (Fin n), rowSpan n B = (rowSpan n A).map (relabel σ).toLinearMap

theorem relabel_one : (relabel (1 : Equiv.Perm (Fin n))).toLinearMap = LinearMap.id := by
  ext v <;> rfl

theorem relabel_mul (σ τ : Equiv.Perm (Fin n)) :
    (relabel τ).toLinearMap.comp (relabel σ).toLinearMap = (relabel (σ * τ)).toLinearMap := by
  ext v <;> rfl

theorem Equi.refl (A : Arr ℤ) : Equi n A A :=
  ⟨rfl, rfl, 1, by rw [relabel_one, Submodule.map_id]⟩

theorem Equi.trans {A B C : Arr ℤ} (h1 : Equi n A B) (h2 : Equi n B C) : Equi n A C := by
  obtain ⟨σ, hσ⟩ := h1.span
  obtain ⟨τ, hτ⟩ := h2.span
  exact ⟨h2.rows.trans h1.rows, h2.cols.trans h1.cols, σ * τ, by rw [hτ, hσ, ← Submodule.map_comp, relabel_mul]⟩

theorem Equi.of_span {A B : Arr ℤ} (h1 : B.rows = A.rows) (h2 : B.cols = A.cols) (h3 : rowSpan n B = rowSpan n A) :
    Equi n A B := ⟨h1, h2, 1, by rw [relabel_one, Submodule.map_id, h3]⟩

theorem equi_of_relabel {A B : Arr ℤ} (h1 : B.rows = A.rows) (h2 : B.cols = A.cols) (σ : Equiv.Perm (Fin n))
    (h : ∀ i, rowVec n B i = relabel σ (rowVec n A i)) : Equi n A B := by
  refine ⟨h1, h2, σ, ?_⟩
  unfold rowSpan
  rw [Submodule.map_span, ← Set.range_comp, h1]
  congr 1
  ext v
  simp only [Set.mem_range, Function.comp]
  constructor
  · rintro ⟨i, rfl⟩; exact ⟨i, (h i).symm⟩
  · rintro ⟨i, rfl⟩; exact ⟨i, h i⟩

theorem equi_swapCols1 (A : Arr ℤ) {c d : ℕ} (hc : c < n) (hd : d < n) :
    Equi n A ((A.swapCols c d).swapCols (c + n) (d + n)) := by
  refine equi_of_relabel rfl rfl (Equiv.swap ⟨c, hc⟩ ⟨d, hd⟩) ?_
  intro i
  ext j
  · simp only [rowVec, Arr.swapCols, relabel, LinearEquiv.coe_mk, LinearMap.coe_mk, AddHom.coe_mk, Function.comp]
    rw [Equiv.swap_apply_def]
    simp only [Fin.ext_iff]
    congr 2
    have hj := j.2
    split_ifs <;> (try simp only at *) <;> omega
  · simp only [rowVec, Arr.swapCols, relabel, LinearEquiv.coe_mk, LinearMap.coe_mk, AddHom.coe_mk, Function.comp]
    rw [Equiv.swap_apply_def]
    simp only [Fin.ext_iff]
    congr 2
    have hj := j.2
    split_ifs <;> (try simp only at *) <;> omega

theorem equi_swapCols2 (A : Arr ℤ) {c d : ℕ} (hc : c < n) (hd : d < n) :
    Equi n A ((A.swapCols (n + c) (n + d)).swapCols c d) := by
  refine equi_of_relabel rfl rfl (Equiv.swap ⟨c, hc⟩ ⟨d, hd⟩) ?_
  intro i
  ext j
  · simp only [rowVec, Arr.swapCols, relabel, LinearEquiv.coe_mk, LinearMap.coe_mk, AddHom.coe_mk, Function.comp]
    rw [Equiv.swap_apply_def]
    simp only [Fin.ext_iff]
    congr 2
    have hj := j.2
    split_ifs <;> (try simp only at *) <;> omega
  · simp only [rowVec, Arr.swapCols, relabel, LinearEquiv.coe_mk, LinearMap.coe_mk, AddHom.coe_mk, Function.comp]
    rw [Equiv.swap_apply_def]
    simp only [Fin.ext_iff]
    congr 2
    have hj := j.2
    split_ifs <;> (try simp only at *) <;> omega

theorem rowVec_swapRows (A : Arr ℤ) (a b i : ℕ) :
    rowVec n (A.swapRows a b) i = rowVec n A (if i = a then b else if i = b then a else i) := rfl

theorem equi_swapRows (A : Arr ℤ) {a b : ℕ} (ha : a < A.rows) (hb : b < A.rows) :
    Equi n A (A.swapRows a b) := by
  refine Equi.of_span rfl rfl ?_
  unfold rowSpan
  congr 1
  ext v
  simp only [Set.mem_range]
  constructor
  · rintro ⟨i, rfl⟩
    refine ⟨⟨if i.val = a then b else if i.val = b then a else i.val, ?_⟩, rfl⟩
    have := i.2
    split_ifs
    · exact hb
    · exact ha
    · exact this
  · rintro ⟨i, rfl⟩
    refine ⟨⟨if i.val = a then b else if i.val = b then a else i.val, ?_⟩, ?_⟩
    · have := i.2
      show _ < A.rows
      split_ifs
      · exact hb
      · exact ha
      · exact this
    · rw [rowVec_swapRows]
      congr 1
      simp only
      split_ifs <;> simp_all

theorem rowVec_addRow (A : Arr ℤ) (p d i : ℕ) :
    rowVec n (A.addRow p d) i = if i = d then rowVec n A p + rowVec n A d else rowVec n A i := by
  by_cases h : i = d
  · subst h
    rw [if_pos rfl]
    ext j <;> simp [rowVec, Arr.addRow, zmod_emod2]
  · rw [if_neg h]
    ext j <;> simp [rowVec, Arr.addRow, h]

theorem equi_addRow (A : Arr ℤ) {p d : ℕ} (hp : p < A.rows) (hd : d < A.rows) (hne : d ≠ p) :
    Equi n A (A.addRow p d) := by
  refine Equi.of_span rfl rfl ?_
  unfold rowSpan
  apply le_antisymm
  · rw [Submodule.span_le]
    rintro v ⟨i, rfl⟩
    simp only [rowVec_addRow]
    by_cases h : i.val = d
    · rw [if_pos h]
      exact Submodule.add_mem _ (Submodule.subset_span ⟨⟨p, hp⟩, rfl⟩) (Submodule.subset_span ⟨⟨d, hd⟩, rfl⟩)
    · rw [if_neg h]
      exact Submodule.subset_span ⟨i, rfl⟩
  · rw [Submodule.span_le]
    rintro v ⟨i, rfl⟩
    by_cases h : i.val = d
    · have h1 : rowVec n A d = rowVec n (A.addRow p d) d + rowVec n (A.addRow p d) p := by
        rw [rowVec_addRow, rowVec_addRow, if_pos rfl, if_neg hne.symm]
        rw [add_comm (rowVec n A p), add_assoc]
        have : rowVec n A p + rowVec n A p = 0 := by
          ext j <;> exact add_self_z _
        rw [this, add_zero]
      simp only [h, h1]
      exact Submodule.add_mem _ (Submodule.subset_span ⟨⟨d, hd⟩, rfl⟩) (Submodule.subset_span ⟨⟨p, hp⟩, rfl⟩)
    · have h1 : rowVec n A i = rowVec n (A.addRow p d) i := by rw [rowVec_addRow, if_neg h]
      simp only [h1]
      exact Submodule.subset_span ⟨i, rfl⟩

theorem equi_elimColumn (rows : List ℕ) (p col : ℕ) (A : Arr ℤ) (hp : p < A.rows)
    (hr : ∀ i ∈ rows, i < A.rows) : Equi n A (elimColumn rows p col A) := by
  unfold elimColumn
  induction rows generalizing A with
  | nil => exact Equi.refl A
  | cons i l ih =>
    rw [List.foldl_cons]
    split_ifs with h
    · have h1 : Equi n A (A.addRow p i) := equi_addRow A hp (hr i (by simp)) h.1
      exact h1.trans (ih _ hp (fun j hj => hr j (by simp [hj])))
    · exact ih _ hp (fun j hj => hr j (by simp [hj]))

theorem findPivot_some {A : Arr ℤ} {n j c r : ℕ} (h : findPivot A n j = some (c, r)) :
    j ≤ c ∧ c < n ∧ j ≤ r ∧ r < A.rows ∧ A.get r c = 1 := by
  unfold findPivot at h
  have h1 := List.find?_some h
  have h2 := List.mem_of_find?_eq_some h
  simp only [List.mem_flatMap, List.mem_range'_1, List.mem_map, Prod.mk.injEq] at h2
  obtain ⟨c', hc', r', hr', rfl, rfl⟩ := h2
  simp only [decide_eq_true_eq] at h1
  omega

theorem findPivot_none {A : Arr ℤ} {n j : ℕ} (h : findPivot A n j = none) :
    ∀ c r, j ≤ c → c < n → j ≤ r → r < A.rows → A.get r c ≠ 1 := by
  intro c r hc1 hc2 hr1 hr2
  unfold findPivot at h
  rw [List.find?_eq_none] at h
  have := h (c, r) (by
    simp only [List.mem_flatMap, List.mem_range'_1, List.mem_map, Prod.mk.injEq]
    exact ⟨c, by omega, r, by omega, rfl, rfl⟩)
  simpa using this

theorem equi_pivotSwap1 (A : Arr ℤ) {j : ℕ} (hjn : j < n) (hj : j < A.rows) : Equi n A (pivotSwap1 n j A) := by
  unfold pivotSwap1
  split_ifs
  · rcases h : findPivot A n j with _ | ⟨c, r⟩
    · exact Equi.refl A
    · obtain ⟨h1, h2, h3, h4, -⟩ := findPivot_some h
      exact (equi_swapCols1 A h2 hjn).trans (equi_swapRows _ hj h4)
  · exact Equi.refl A

theorem equi_firstBlockStep (A : Arr ℤ) {j : ℕ} (hjn : j < n) (hj : j < A.rows) : Equi n A (firstBlockStep n A j) := by
  have h1 := equi_pivotSwap1 (n := n) A hjn hj
  refine h1.trans (equi_elimColumn _ _ _ _ (by rw [h1.rows]; exact hj) ?_)
  intro i hi
  rw [h1.rows]
  simpa using hi

theorem equi_foldl {f : Arr ℤ → ℕ → Arr ℤ} (l : List ℕ) (P : ℕ → ℕ → Prop)
    (hf : ∀ A j, P A.rows j → Equi n A (f A j)) (A : Arr ℤ) (hl : ∀ j ∈ l, P A.rows j) : Equi n A (l.foldl f A) := by
  induction l generalizing A with
  | nil => exact Equi.refl A
  | cons j l ih =>
    rw [List.foldl_cons]
    have h1 := hf A j (hl j (by simp))
    refine h1.trans (ih _ ?_)
    intro i hi
    rw [h1.rows]
    exact hl i (by simp [hi])

theorem equi_firstBlock (A : Arr ℤ) {rank : ℕ} (h1 : rank ≤ n) (h2 : rank ≤ A.rows) : Equi n A (firstBlock n rank A) := by
  unfold firstBlock
  refine equi_foldl _ (fun m j => j < n ∧ j < m) (fun A j h => equi_firstBlockStep A h.1 h.2) A ?_
  intro j hj
  have := List.mem_range.mp hj
  omega

theorem equi_rowSwap2 (A : Arr ℤ) {t : ℕ} (ht : t < A.rows) : Equi n A (rowSwap2 n A t) := by
  unfold rowSwap2
  split_ifs
  · rcases h : (List.range' (t + 1) (A.rows - (t + 1))).find? (fun i => decide (A.get i (n + t) = 1)) with _ | i
    · exact Equi.refl A
    · have h2 := List.mem_of_find?_eq_some h
      rw [List.mem_range'_1] at h2
      exact equi_swapRows A (by omega) ht
  · exact Equi.refl A

theorem equi_colSwap2 (A : Arr ℤ) {t : ℕ} (ht : t < n) : Equi n A (colSwap2 n A t) := by
  unfold colSwap2
  split_ifs
  · rcases h : (List.range' (n + t + 1) (2 * n - (n + t + 1))).find? (fun c => decide (A.get t c = 1)) with _ | c
    · exact Equi.refl A
    · have h2 := List.mem_of_find?_eq_some h
      rw [List.mem_range'_1] at h2
      obtain ⟨d, rfl⟩ := Nat.exists_eq_add_of_le (show n ≤ c by omega)
      simp only [Nat.add_sub_cancel_left]
      exact equi_swapCols2 A (by omega) ht
  · exact Equi.refl A

theorem equi_secondBlockStep (A : Arr ℤ) {k rank t : ℕ} (ht : t < n) (ht2 : t < A.rows) (hk : n - k ≤ A.rows) :
    Equi n A (secondBlockStep n k rank A t) := by
  have h1 := equi_colSwap2 (n := n) A ht
  refine h1.trans (equi_elimColumn _ _ _ _ (by rw [h1.rows]; exact ht2) ?_)
  intro i hi
  rw [h1.rows]
  rw [List.mem_range'_1] at hi
  omega

theorem equi_secondBlockLoops (A : Arr ℤ) {k rank rankE : ℕ} (h1 : rank + rankE ≤ n) (h2 : rank + rankE ≤ A.rows)
    (hk : n - k ≤ A.rows) : Equi n A (secondBlockLoops n k rank rankE A) := by
  unfold secondBlockLoops
  have e1 : Equi n A ((List.range' rank rankE).foldl (rowSwap2 n) A) := by
    refine equi_foldl _ (fun m j => j < m) (fun A j h => equi_rowSwap2 A h) A ?_
    intro j hj
    rw [List.mem_range'_1] at hj
    omega
  refine e1.trans (equi_foldl _ (fun m j => j < n ∧ j < m ∧ n - k ≤ m)
    (fun A j h => equi_secondBlockStep A h.1 h.2.1 h.2.2) _ ?_)
  intro j hj
  rw [List.mem_range'_1] at hj
  rw [e1.rows]
  omega

end PyQ
