import Verif.Props.Dependent
import Verif.Props.CircuitGuards

/-! # C18 for generators that are not independent -/

namespace PyQ

open Spec

variable {n k : ℕ}

/-- **C18, encoding, independent or not**. -/
theorem C18_encoding_guard_any (s : StabInput) (c : StabCode) (h : stabInit s n k none = .ok c) (hb : BinaryArr c.stab)
    (len : ℕ) (δ : List ℤ) :
    (encodingCircuit c len δ = .error .assertion ↔ δ.length ≠ k ∨ len ≠ n ∨ ∃ v ∈ δ, v ≠ 0 ∧ v ≠ 1) ∧
    ((∃ gs, encodingCircuit c len δ = .ok gs ∧ ∀ g ∈ gs, g.WF n) ↔ δ.length = k ∧ len = n ∧ ∀ v ∈ δ, v = 0 ∨ v = 1) := by
  obtain ⟨l, c', h1, h2, h3, -, -, -, -, h8⟩ := C139_as_independent s c h hb
  rw [← h8.encoding]
  exact C18_encoding_guard _ n k c' h1 h2 h3 len δ

/-- **C18, logical operators, independent or not**. -/
theorem C18_logical_guard_any (s : StabInput) (c : StabCode) (h : stabInit s n k none = .ok c) (hb : BinaryArr c.stab)
    (op : List Char) :
    ((∃ gs, logicalCircuit c n op = .ok gs ∧ ∀ g ∈ gs, g.WF n) ↔ GoodName k op) ∧
    (logicalCircuit c n op = .error .value ↔ NotADigit op) ∧
    (logicalCircuit c n op = .error .assertion ↔ ¬ GoodName k op ∧ ¬ NotADigit op) := by
  obtain ⟨l, c', h1, h2, h3, -, -, -, -, h8⟩ := C139_as_independent s c h hb
  rw [← h8.logical]
  exact C18_logical_guard _ n k c' h1 h2 h3 op

/-- **C18, decoding, independent or not**. -/
theorem C18_decoding_wires_any (s : StabInput) (c : StabCode) (h : stabInit s n k none = .ok c) (hb : BinaryArr c.stab) :
    (∃ gs, decodingCircuit c n true = .ok gs ∧ ∀ g ∈ gs, g.WF (n + k)) ∧
    (∃ gs, decodingCircuit c (n + k) false = .ok gs ∧ ∀ g ∈ gs, g.WF (n + k)) := by
  obtain ⟨l, c', h1, h2, h3, -, -, -, -, h8⟩ := C139_as_independent s c h hb
  rw [← h8.decoding, ← h8.decoding]
  exact C18_decoding_wires _ n k c' h1 h2 h3

theorem lx_x_weak {r : ℕ} {nf : Arr ℤ} (h1 : nf.rows + k = n) (h2 : r ≤ nf.rows) {i j : ℕ} (hj : j < n) (hr : r ≤ j)
    (hjm : j < nf.rows) : (logicalXOf n k r nf).get i j = nf.get j (2 * n - k + i) := by
  unfold logicalXOf
  simp only
  rw [hstack_left _ _ (r + (nf.rows - r) + k + (r - 0)) rfl (by omega), hstack_left _ _ (r + (nf.rows - r) + k) rfl (by omega),
    hstack_left _ _ (r + (nf.rows - r)) rfl (by omega), hstack_right _ _ r rfl (by omega)]
  show nf.get (r + (j - r)) (2 * n - k + i) = _
  rw [show r + (j - r) = j by omega]

/-- **C11 and C139**: without independence the encoding circuit still produces the closed form of the documentation, with the
blocks of the code's own normal form. -/
theorem C139_closed_form (s : StabInput) (c : StabCode) (h : stabInit s n k none = .ok c) (hb : BinaryArr c.stab) (δ : List ℤ)
    (hlen : δ.length = k) (hδ : IsBinary δ) :
    ∃ gs, encodingCircuit c n δ = .ok gs ∧ (∀ g ∈ gs, g.WF n) ∧
      run gs (ket 0) = codeword n k c.rank c.normalForm (bitFn δ) := by
  obtain ⟨l, c', h1, h2, h3, h4, h5, h6, -, h8⟩ := C139_as_independent s c h hb
  obtain ⟨gs, g1, g2, g3⟩ := C11_encoding_closed_form _ n k c' h1 h2 h3 δ hlen hδ
  refine ⟨gs, by rw [← h8.encoding]; exact g1, g2, ?_⟩
  obtain ⟨-, -, -, r1, r2, -, -, -, hX, -⟩ := accepted_weak h hb
  obtain ⟨-, -, -, r1', r2', -, -, -, hX', -⟩ := accepted_weak h1 h2
  obtain ⟨-, -, -, hsh, -⟩ := accepted_facts h1 h2 h3
  rw [g3, h4]
  have hrow : ∀ i < c.rank, c'.normalForm.row i = c.normalForm.row i := by
    intro i hi
    have e := congrArg (fun l => l[i]?) h5
    simp only [StabCode.iter] at e
    rw [List.getElem?_take_of_lt hi, List.getElem?_take_of_lt hi, List.getElem?_map, List.getElem?_map,
      List.getElem?_range (by omega), List.getElem?_range (by omega)] at e
    simpa using e
  have hlab : codeLabel n k c.rank c'.normalForm (bitFn δ) = codeLabel n k c.rank c.normalForm (bitFn δ) := by
    funext j
    unfold codeLabel
    split_ifs with h1 h2
    · rfl
    · refine Finset.sum_congr rfl fun i hi => ?_
      have hi' := Finset.mem_range.mp hi
      have e := h6.2.2 i (by rw [hX', (lx_shape hsh).1]; exact hi') j (by rw [hX', (lx_shape hsh).2]; omega)
      rw [hX', hX, h4, lx_x_weak r1' (by omega) j.2 (by omega) (by omega), lx_x_weak r1 r2 j.2 (by omega) (by omega),
        show 2 * n - k + i = n + (n - k) + i by omega] at e
      rw [e]
    · rfl
  unfold codeword
  rw [hlab]
  congr 1
  exact List.map_congr_left fun i hi => by rw [hrow i (List.mem_range.mp hi)]

/-- Concrete case: the code with a redundant generator refuses two bits for its one qubit, and the name `Xx`. -/
example : ∃ c, stabInit (.rows redundantRows) 5 1 none = .ok c ∧ encodingCircuit c 5 [1, 0] = .error .assertion ∧
    logicalCircuit c 5 ['X', 'x'] = .error .value := by
  obtain ⟨c, h, hb, -⟩ := redundant_code
  refine ⟨c, h, (C18_encoding_guard_any _ c h hb 5 [1, 0]).1.mpr (.inl (by decide)),
    (C18_logical_guard_any _ c h hb ['X', 'x']).2.1.mpr ?_⟩
  refine ⟨'X', 'x', rfl, by decide, ?_⟩
  decide

end PyQ
