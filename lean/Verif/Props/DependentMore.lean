import Verif.Props.Dependent
import Verif.Props.EncodeState
import Verif.Props.Deallocate
import Verif.Props.CircuitSize
import Verif.Props.Unreset
import Verif.Props.StringsExact

/-!
# Generators that are not independent: encoding states, discarding, sizes (C139)

`C89`, `C68`, `C137` and `C140` are stated for independent generators.  By `C139_as_independent` the circuits of every accepted
code are those of a code with independent generators, so the parts of these properties that speak of circuits only hold for
every accepted code with 0/1 generators.
-/

namespace PyQ

open Spec

variable {n k : ℕ}

/-- **C139**, encoding a superposition (C89) without independence. -/
theorem C139_superposition (s : StabInput) (c : StabCode) (h : stabInit s n k none = .ok c) (hb : BinaryArr c.stab) :
    ∃ hk : k ≤ n, ∃ enc : (Fin k → ZMod 2) → List Gate, (∀ δ, encodingCircuit c n (bitsList δ) = .ok (enc δ)) ∧
      (∀ (σ : Fin k → ZMod 2) (ψ : Amp k), run (enc σ) (onLast n hk ψ) = ∑ δ, ψ δ • run (enc (δ + σ)) (ket 0)) ∧
      (∀ ψ : Amp k, run (enc 0) (onLast n hk ψ) = ∑ δ, ψ δ • run (enc δ) (ket 0)) := by
  obtain ⟨l, c', h1, h2, h3, -, -, -, -, h8⟩ := C139_as_independent s c h hb
  obtain ⟨hk, enc, g1, g2⟩ := C89_superposition _ n k c' h1 h2 h3
  exact ⟨hk, enc, fun δ => by rw [← h8.encoding]; exact g1 δ, g2⟩

/-- **C139**, decoding and discarding the code qubits (C68) without independence. -/
theorem C139_decode_discard (s : StabInput) (c : StabCode) (h : stabInit s n k none = .ok c) (hb : BinaryArr c.stab)
    (len : ℕ) (addAncilla : Bool) (hla : (len = n ∧ addAncilla = true) ∨ (len = n + k ∧ addAncilla = false)) :
    ∃ (enc : (Fin k → ZMod 2) → List Gate) (R : DecodeRun),
      (∀ δ, encodingCircuit c n (bitsList δ) = .ok (enc δ)) ∧
      decodingRun c len addAncilla true = .ok R ∧ (∀ g ∈ R.gates, g.WF (n + k)) ∧
      R.measured = List.range n ∧ R.returned = List.range' n k ∧
      ∀ α : (Fin k → ZMod 2) → ℂ, ∑ δ, Complex.normSq (α δ) = 1 →
        (∀ rs p Ψ, Reads (run R.gates (tensor (∑ δ, α δ • (run (enc δ) (ket 0) : Amp n)) (ket 0))) R.measured rs p Ψ →
          ∃ (b : Fin n → ZMod 2) (u : ℂ), rs = (List.range n).map (bitAt b) ∧ Complex.normSq u = 1 ∧
            p = Complex.normSq ((run (enc 0) (ket 0) : Amp n) b) ∧ Ψ = u • tensor (ket b) (∑ δ, α δ • ket δ)) ∧
        (∀ b : Fin n → ZMod 2, (run (enc 0) (ket 0) : Amp n) b ≠ 0 → ∃ p Ψ,
          Reads (run R.gates (tensor (∑ δ, α δ • (run (enc δ) (ket 0) : Amp n)) (ket (0 : Fin k → ZMod 2)))) R.measured
            ((List.range n).map (bitAt b)) p Ψ) := by
  obtain ⟨l, c', h1, h2, h3, -, -, -, -, h8⟩ := C139_as_independent s c h hb
  obtain ⟨enc, R, g1, g2, g3⟩ := C68_decode_discard _ n k c' h1 h2 h3 len addAncilla hla
  obtain ⟨hn, hk, -⟩ := accepted_weak h hb
  obtain ⟨hn', hk', -⟩ := accepted_weak h1 h2
  have e : decodingRun c' len addAncilla true = decodingRun c len addAncilla true := by
    unfold decodingRun decodingReturn
    rw [h8.decoding, hn, hk, hn', hk']
  exact ⟨enc, R, fun δ => by rw [← h8.encoding]; exact g1 δ, by rw [← e]; exact g2, g3⟩

/-- **C139**, the sizes of the circuits (C137) without independence. -/
theorem C139_sizes (s : StabInput) (c : StabCode) (h : stabInit s n k none = .ok c) (hb : BinaryArr c.stab)
    (δ : List ℤ) (hlen : δ.length = k) (hδ : IsBinary δ) (len : ℕ) (addAncilla : Bool)
    (hla : (len = n ∧ addAncilla = true) ∨ (len = n + k ∧ addAncilla = false)) :
    ∃ enc dec, encodingCircuit c n δ = .ok enc ∧ decodingCircuit c len addAncilla = .ok dec ∧
      enc.length = δ.count 1 +
        ∑ i ∈ Finset.range k, ((Finset.Ico c.rank (n - k)).filter fun q => c.logicalX.get i q = 1).card +
        ∑ i ∈ Finset.range c.rank, weight (rowPauli n (c.normalForm.row i)) ∧
      enc.length ≤ n ^ 2 ∧ (∀ g ∈ dec, g.ctrl.isSome) ∧
      dec.length = ∑ i ∈ Finset.range k,
        (weight (rowPauli n (c.logicalZ.row i)) + weight (rowPauli n (c.logicalX.row i))) := by
  obtain ⟨l, c', h1, h2, h3, h4, h5, h6, h7, h8⟩ := C139_as_independent s c h hb
  obtain ⟨-, -, -, -, hr, -, -, -, hx, hz⟩ := accepted_weak h hb
  obtain ⟨-, -, -, -, hr', -⟩ := accepted_weak h1 h2
  have hcx : c'.logicalX.cols = 2 * n := by
    obtain ⟨-, -, -, hsh, hX, -⟩ := accepted_facts h1 h2 h3
    rw [hX]
    exact (lx_shape hsh).2
  obtain ⟨enc, g1, g2, -, g3⟩ := C137_encoding _ n k c' h1 h2 h3 δ hlen hδ
  obtain ⟨dec, d1, d2, d3⟩ := C137_decoding _ n k c' h1 h2 h3 len addAncilla hla
  refine ⟨enc, dec, by rw [← h8.encoding]; exact g1, by rw [← h8.decoding]; exact d1, ?_, g3, d2, ?_⟩
  · rw [g2, h4]
    refine congrArg₂ _ (congrArg₂ _ rfl ?_) ?_
    · refine Finset.sum_congr rfl fun i hi => congrArg _ (Finset.filter_congr fun q hq => ?_)
      have hi := Finset.mem_range.mp hi
      have hq := (Finset.mem_Ico.mp hq).2
      rw [h6.2.2 i (by rw [h6.1, hx]; exact hi) q (by rw [hcx]; omega)]
    · refine Finset.sum_congr rfl fun i hi => ?_
      have hi := Finset.mem_range.mp hi
      have := congrArg (fun l => l.getD i []) h5
      simp only [StabCode.iter] at this
      rw [← List.map_take, ← List.map_take, List.take_range, List.take_range, List.getD_eq_getElem _ _ (by simp; omega),
        List.getD_eq_getElem _ _ (by simp; omega)] at this
      simp only [List.getElem_map, List.getElem_range] at this
      rw [this]
  · rw [d3]
    refine Finset.sum_congr rfl fun i hi => ?_
    have hi := Finset.mem_range.mp hi
    rw [row_congr h6 (by rw [hx]; exact hi), row_congr h7 (by rw [hz]; exact hi)]

/-- **C139**, a register that was not reset (C140) without independence. -/
theorem C139_unreset (s : StabInput) (c : StabCode) (h : stabInit s n k none = .ok c) (hb : BinaryArr c.stab) :
    ∃ hk : k ≤ n, ∃ enc : (Fin k → ZMod 2) → List Gate, (∀ δ, encodingCircuit c n (bitsList δ) = .ok (enc δ)) ∧
      ∃ E : (Fin (n - k) → ZMod 2) → Pauli n, E 0 = ⟨0, 0⟩ ∧
        (∀ a a', E (a + a') = ⟨(E a).x + (E a').x, (E a).z + (E a').z⟩) ∧
        (∀ (δ : Fin k → ZMod 2) (b : Fin n → ZMod 2), run (enc δ) (ket b) =
          pauliAct (E fun j => b ⟨j, by omega⟩) (run (enc (δ + fun i : Fin k => b ⟨n - k + i, by omega⟩)) (ket 0))) := by
  obtain ⟨l, c', h1, h2, h3, -, -, -, -, h8⟩ := C139_as_independent s c h hb
  obtain ⟨hk, enc, g1, E, g2, g3, g4, -⟩ := C140_pauli_error _ c' h1 h2 h3
  exact ⟨hk, enc, fun δ => by rw [← h8.encoding]; exact g1 δ, E, g2, g3, g4⟩

/-- Concrete case: the code with a redundant generator. -/
example : ∃ c, stabInit (.rows redundantRows) 5 1 none = .ok c ∧ BinaryArr c.stab := by
  obtain ⟨c, h, hb, -⟩ := redundant_code
  exact ⟨c, h, hb⟩

end PyQ
