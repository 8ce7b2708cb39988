import Verif.Lemmas.Rebuild
import Verif.Props.Correctable

/-! **C138**: a code built from the generators another code yields is that code. -/

namespace PyQ

open Spec

variable {n k : ℕ}

/-- **C138**.  Iterating over an accepted code with independent generators yields generators that
`StabilizerCode(list(code), n, k)` accepts and leaves as they are: the new code yields the same rows, has the same rank and
the same logical operators, and all its circuits are those of the first code. -/
theorem C138_rebuild (s : StabInput) (c : StabCode) (h : stabInit s n k none = .ok c) (hb : BinaryArr c.stab)
    (hind : Independent n c.stab) :
    ∃ c', stabInit (.rows c.iter) n k none = .ok c' ∧ BinaryArr c'.stab ∧ Independent n c'.stab ∧ c'.iter = c.iter ∧
      Arr.Same c'.stab c.normalForm ∧ c'.rank = c.rank ∧ Arr.Same c'.logicalX c.logicalX ∧ Arr.Same c'.logicalZ c.logicalZ ∧
      SameCircuits c' c := by
  obtain ⟨hn, hk, hrows, hs, hlx, hlz, hcom⟩ := accepted_facts h hb hind
  have hp : 0 < c.normalForm.rows := by
    rw [← hrows]
    exact initArray_rows_pos (stabInit_ok h).1
  obtain ⟨c', h1, h2, h3, h4, h5, h6, h7, h8, h9, h10⟩ := stabInit_fixed hs hcom hp
  have hs' := normalShape_congr hs h2
  have hcols := hs.cols
  have hR := hs.rows
  have hr := hs.rank_le
  have hu : ∀ i < c.rank, ∀ j < 2 * n, c'.normalForm.get i j = c.normalForm.get i j :=
    fun i hi j hj => h2.2.2 i (by rw [h2.1]; omega) j (by rw [h2.2.1]; omega)
  have hX : Arr.Same c'.logicalX c.logicalX := by
    rw [h9, hlx]
    exact logicalXOf_same hs hs' hu fun i hi hi2 j hj hj2 => h2.2.2 i (by rw [h2.1]; omega) j (by rw [h2.2.1]; omega)
  have hZ : Arr.Same c'.logicalZ c.logicalZ := by
    rw [h10, hlz]
    exact logicalZOf_same hs hs' hu
  refine ⟨c', h1, h4, h5, ?_, h6, h3, hX, hZ, sameCircuits_of (by rw [h7, hn]) (by rw [h8, hk]) h3 (by rw [h6.1, hrows]) ?_ hX hZ ?_⟩
  · unfold StabCode.iter
    rw [h2.1]
    apply List.map_congr_left
    intro i hi
    exact row_congr h2 (List.mem_range.mp hi)
  · intro i hi
    exact row_congr h2 (by omega)
  · rw [h7, h9, (lx_shape hs').2]
    omega

theorem row_get {A : Arr ℤ} {i j : ℕ} (hj : j < A.cols) : (A.row i).getD j 0 = A.get i j := by
  rw [List.getD_eq_getElem _ _ (by simpa [Arr.row] using hj)]
  simp [Arr.row]

/-- The rows two codes yield are equal only if their arrays agree. -/
theorem same_of_iter {c c' : StabCode} (hi : c.iter = c'.iter) (hc : c.normalForm.cols = 2 * n)
    (hc' : c'.normalForm.cols = 2 * n) : Arr.Same c.normalForm c'.normalForm := by
  have hr : c.normalForm.rows = c'.normalForm.rows := by
    have := congrArg List.length hi
    simpa [StabCode.iter] using this
  refine ⟨hr, by rw [hc, hc'], fun i hi' j hj => ?_⟩
  have e : c.normalForm.row i = c'.normalForm.row i := by
    have := congrArg (fun l => l.getD i []) hi
    simp only [StabCode.iter] at this
    rw [List.getD_eq_getElem _ _ (by simpa using hi'), List.getD_eq_getElem _ _ (by simpa using hr ▸ hi')] at this
    simpa using this
  rw [← row_get hj, e, row_get (by omega)]

/-- **C138**.  What iterating over a code yields determines the code: two accepted codes on the same number of qubits that
yield the same rows have the same rank, the same logical operators and the same circuits, whatever generators and in
whatever form they were built from. -/
theorem C138_iter_determines (s s' : StabInput) (c c' : StabCode) (h : stabInit s n k none = .ok c)
    (h' : stabInit s' n k none = .ok c') (hb : BinaryArr c.stab) (hind : Independent n c.stab) (hb' : BinaryArr c'.stab)
    (hind' : Independent n c'.stab) (hi : c.iter = c'.iter) :
    c.rank = c'.rank ∧ Arr.Same c.logicalX c'.logicalX ∧ Arr.Same c.logicalZ c'.logicalZ ∧ SameCircuits c c' := by
  obtain ⟨hn, hk, hrows, hs, hlx, hlz, -⟩ := accepted_facts h hb hind
  obtain ⟨hn', hk', hrows', hs', hlx', hlz', -⟩ := accepted_facts h' hb' hind'
  have hS := same_of_iter hi hs.cols hs'.cols
  have hr : c.rank = c'.rank := by
    have a := (normalShape_xRank hs).1
    have b := (normalShape_xRank (normalShape_congr hs' hS)).1
    omega
  have hs2 := hr ▸ hs
  have hcols := hs.cols
  have hR := hs.rows
  have hrl := hs.rank_le
  have hu : ∀ i < c'.rank, ∀ j < 2 * n, c.normalForm.get i j = c'.normalForm.get i j :=
    fun i hi j hj => hS.2.2 i (by omega) j (by omega)
  have hX : Arr.Same c.logicalX c'.logicalX := by
    rw [hlx, hlx', hr]
    exact logicalXOf_same hs' hs2 hu fun i hi hi2 j hj hj2 => hS.2.2 i (by rw [hS.1]; omega) j (by omega)
  have hZ : Arr.Same c.logicalZ c'.logicalZ := by
    rw [hlz, hlz', hr]
    exact logicalZOf_same hs' hs2 hu
  refine ⟨hr, hX, hZ, sameCircuits_of (by rw [hn, hn']) (by rw [hk, hk']) hr (by rw [hrows, hrows', hS.1]) ?_ hX hZ ?_⟩
  · intro i hi
    exact row_congr hS (by rw [← hS.1]; omega)
  · rw [hn, hlx, (lx_shape hs).2]
    omega

/-- The five-qubit code: it yields other rows than it was given, and the code rebuilt from these yields them again. -/
example : ∃ c c', stabInit (.rows fiveRows) 5 1 none = .ok c ∧ c.iter ≠ fiveRows ∧
    stabInit (.rows c.iter) 5 1 none = .ok c' ∧ c'.iter = c.iter ∧ SameCircuits c' c := by
  obtain ⟨c, h, hb, hind, -, hit⟩ := five_code
  obtain ⟨c', h1, -, -, h2, -, -, -, -, h3⟩ := C138_rebuild _ c h hb hind
  exact ⟨c, c', h, by rw [hit]; decide, h1, h2, h3⟩

end PyQ
