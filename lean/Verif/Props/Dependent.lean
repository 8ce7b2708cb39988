import Verif.Lemmas.Dependent
import Verif.Lemmas.Concrete
import Verif.Props.AcceptExact

/-! **C139**: what a code built from generators that are not independent does. -/

namespace PyQ

open Spec

variable {n k r : ℕ}

/-- **C139**.  The constructor does not ask for independent generators.  Whatever 0/1 generators it accepts, the code has the
logical operators and all the circuits of a code with `n - k` independent generators, which starts with the same rows of the
first kind. -/
theorem C139_as_independent (s : StabInput) (c : StabCode) (h : stabInit s n k none = .ok c) (hb : BinaryArr c.stab) :
    ∃ l c', stabInit (.rows l) n k none = .ok c' ∧ BinaryArr c'.stab ∧ Independent n c'.stab ∧ c'.rank = c.rank ∧
      c'.iter.take c.rank = c.iter.take c.rank ∧ Arr.Same c'.logicalX c.logicalX ∧ Arr.Same c'.logicalZ c.logicalZ ∧
      SameCircuits c' c := by
  obtain ⟨c', h1, h2, h3, h4, h5, h6, h7, h8⟩ := accepted_completed h hb
  obtain ⟨-, -, -, hR, hr, -⟩ := accepted_weak h hb
  obtain ⟨-, -, -, hR', hr', -⟩ := accepted_weak h1 h2
  refine ⟨_, c', h1, h2, h3, h4, ?_, h6, h7, h8⟩
  unfold StabCode.iter
  rw [← List.map_take, ← List.map_take, List.take_range, List.take_range, show min c.rank c'.normalForm.rows = c.rank by omega,
    show min c.rank c.normalForm.rows = c.rank by omega]
  exact List.map_congr_left fun i hi => h5 i (List.mem_range.mp hi)

/-- **C139**, encoding: without independence the encoded basis states are still orthonormal. -/
theorem C139_isometry (s : StabInput) (c : StabCode) (h : stabInit s n k none = .ok c) (hb : BinaryArr c.stab)
    (δ δ' : List ℤ) (hlen : δ.length = k) (hδ : IsBinary δ) (hlen' : δ'.length = k) (hδ' : IsBinary δ') :
    ∃ gs gs', encodingCircuit c n δ = .ok gs ∧ encodingCircuit c n δ' = .ok gs' ∧
      braket (run gs (ket 0) : Amp n) (run gs' (ket 0)) = if δ = δ' then 1 else 0 := by
  obtain ⟨l, c', h1, h2, h3, -, -, -, -, h8⟩ := C139_as_independent s c h hb
  obtain ⟨gs, gs', g1, g2, g3⟩ := C12_encoding_isometry _ n k c' h1 h2 h3 δ δ' hlen hδ hlen' hδ'
  exact ⟨gs, gs', by rw [← h8.encoding]; exact g1, by rw [← h8.encoding]; exact g2, g3⟩

/-- **C139**, decoding: without independence the decoder still moves every encoded superposition to the ancillas. -/
theorem C139_decoding (s : StabInput) (c : StabCode) (h : stabInit s n k none = .ok c) (hb : BinaryArr c.stab)
    (len : ℕ) (addAncilla : Bool) (hla : (len = n ∧ addAncilla = true) ∨ (len = n + k ∧ addAncilla = false)) :
    ∃ (enc : (Fin k → ZMod 2) → List Gate) (dec : List Gate),
      (∀ δ, encodingCircuit c n (bitsList δ) = .ok (enc δ)) ∧
      decodingCircuit c len addAncilla = .ok dec ∧ (∀ g ∈ dec, g.WF (n + k)) ∧
      ∀ α : (Fin k → ZMod 2) → ℂ,
        run dec (tensor (∑ δ, α δ • (run (enc δ) (ket 0) : Amp n)) (ket 0)) =
          tensor (run (enc 0) (ket 0)) (∑ δ, α δ • ket δ) := by
  obtain ⟨l, c', h1, h2, h3, -, -, -, -, h8⟩ := C139_as_independent s c h hb
  obtain ⟨enc, dec, g1, g2, g3⟩ := C15_decoding _ n k c' h1 h2 h3 len addAncilla hla
  exact ⟨enc, dec, fun δ => by rw [← h8.encoding]; exact g1 δ, by rw [← h8.decoding]; exact g2, g3⟩

/-- **C139**, logical circuits: without independence the logical X circuit still flips the encoded bit and the logical Z
circuit still reads it. -/
theorem C139_logical (s : StabInput) (c : StabCode) (h : stabInit s n k none = .ok c) (hb : BinaryArr c.stab)
    (δ : List ℤ) (hlen : δ.length = k) (hδ : IsBinary δ) (i : ℕ) (hi : i < k) (hi10 : i < 10) :
    ∃ gs gs' xs zs, encodingCircuit c n δ = .ok gs ∧ encodingCircuit c n (δ.set i (1 - δ.getD i 0)) = .ok gs' ∧
      logicalCircuit c n ['X', Char.ofNat (48 + i)] = .ok xs ∧ logicalCircuit c n ['Z', Char.ofNat (48 + i)] = .ok zs ∧
      run xs (run gs (ket 0)) = (run gs' (ket 0) : Amp n) ∧
      run zs (run gs (ket 0)) = (if δ.getD i 0 = 1 then (-1 : ℂ) else 1) • (run gs (ket 0) : Amp n) := by
  obtain ⟨l, c', h1, h2, h3, -, -, -, -, h8⟩ := C139_as_independent s c h hb
  obtain ⟨gs, gs', xs, g1, g2, g3, g4⟩ := C14_logical_X _ n k c' h1 h2 h3 δ hlen hδ i hi hi10
  obtain ⟨gs2, zs, e1, e2, e3⟩ := C14_logical_Z _ n k c' h1 h2 h3 δ hlen hδ i hi hi10
  rw [g1] at e1
  cases e1
  exact ⟨gs, gs', xs, zs, by rw [← h8.encoding]; exact g1, by rw [← h8.encoding]; exact g2, by rw [← h8.logical]; exact g3,
    by rw [← h8.logical]; exact e2, g4, e3⟩

/-- **C139**, the logical operators without independence: the pairing is that of `k` qubits, the logical Z operators commute
with every row the code yields, the logical X operators with every row of the first kind. -/
theorem C139_logical_operators (s : StabInput) (c : StabCode) (h : stabInit s n k none = .ok c) (hb : BinaryArr c.stab) :
    (∀ i < k, ∀ j < k,
      symp (rowPauli n (c.logicalX.row i)) (rowPauli n (c.logicalZ.row j)) = (if i = j then 1 else 0) ∧
      symp (rowPauli n (c.logicalX.row i)) (rowPauli n (c.logicalX.row j)) = 0 ∧
      symp (rowPauli n (c.logicalZ.row i)) (rowPauli n (c.logicalZ.row j)) = 0) ∧
    (∀ i < k, ∀ g ∈ c.iter, symp (rowPauli n (c.logicalZ.row i)) (rowPauli n g) = 0) ∧
    (∀ i < k, ∀ g ∈ c.iter.take c.rank, symp (rowPauli n (c.logicalX.row i)) (rowPauli n g) = 0) := by
  obtain ⟨l, c', h1, h2, h3, h4, h5, h6, h7, h8⟩ := C139_as_independent s c h hb
  obtain ⟨r1, r2, r3, r4, -, -, r5, r6⟩ := C08_logical_operators _ n k c' h1 h2 h3
  have eX : ∀ i < k, c.logicalX.row i = c'.logicalX.row i := fun i hi => (row_congr h6 (by rw [← h6.1, r1]; exact hi)).symm
  have eZ : ∀ i < k, c.logicalZ.row i = c'.logicalZ.row i := fun i hi => (row_congr h7 (by rw [← h7.1, r3]; exact hi)).symm
  have hup : ∀ i < k, ∀ g ∈ c.iter.take c.rank, symp (rowPauli n (c.logicalX.row i)) (rowPauli n g) = 0 ∧
      symp (rowPauli n (c.logicalZ.row i)) (rowPauli n g) = 0 := by
    intro i hi g hg
    rw [← h5] at hg
    rw [eX i hi, eZ i hi]
    exact r5 i hi g (List.mem_of_mem_take hg)
  refine ⟨fun i hi j hj => ?_, ?_, fun i hi g hg => (hup i hi g hg).1⟩
  · rw [eX i hi, eX j hj, eZ i hi, eZ j hj]
    exact r6 i hi j hj
  · intro i hi g hg
    obtain ⟨-, -, -, hR, hr, -, hI, -, -, hZ⟩ := accepted_weak h hb
    simp only [StabCode.iter, List.mem_map, List.mem_range] at hg
    obtain ⟨a, ha, rfl⟩ := hg
    by_cases har : a < c.rank
    · refine (hup i hi _ ?_).2
      unfold StabCode.iter
      rw [← List.map_take, List.take_range]
      exact List.mem_map_of_mem (List.mem_range.mpr (by omega))
    · have hx : (rowPauli n (c.normalForm.row a)).x = 0 := by
        funext j
        rw [rowPauli_x hI.cols, hI.lowerX a (by omega) ha j j.2]; simp
      have hz : (rowPauli n (c.logicalZ.row i)).x = 0 := by
        funext j
        rw [rowPauli_x (by rw [← h7.2.1, r4]), hZ, lz_x j.2]; simp
      unfold symp
      rw [hx, hz, dotp_zero_left, dotp_zero_right, add_zero]

theorem codeLabel_sum {nf : Arr ℤ} (hsh : NormalShape n k r nf) (δ : ℕ → ZMod 2) (j : Fin n) :
    codeLabel n k r nf δ j = ∑ i ∈ Finset.range k, δ i * (rowPauli n ((logicalXOf n k r nf).row i)).x j := by
  have h1 := hsh.rows
  have h2 := hsh.rank_le
  have e : ∀ i, (rowPauli n ((logicalXOf n k r nf).row i)).x j = (((if j.val < r then 0 else if j.val < nf.rows then
      nf.get j (2 * n - k + i) else if i = j - nf.rows then 1 else 0 : ℤ)) : ZMod 2) := by
    intro i
    rw [rowPauli_x (lx_shape hsh).2, lx_x hsh j.2]
  simp only [e]
  unfold codeLabel
  by_cases a : j.val < r
  · simp [a]
  · by_cases b : j.val < n - k
    · have b' : j.val < nf.rows := by omega
      simp only [a, b, b', if_true, if_false]
      refine Finset.sum_congr rfl fun i _ => ?_
      rw [mul_comm, show n + (n - k) + i = 2 * n - k + i by omega]
    · have b' : ¬ j.val < nf.rows := by omega
      simp only [a, b, b', if_false]
      rw [show nf.rows = n - k by omega, sum_ite_unit (by omega)]

/-- **C139**, the sign.  A row the code yields, with an even number of Y's, multiplies the state encoded from `δ` by the sign
`(-1)^(Σ δ_i ⟨X_i, g⟩)`, where `⟨X_i, g⟩` is one if it anticommutes with the logical X operator `i`.  Missing for "fixes the
encoded states": the sign, see `C139_stabilised_refuted`. -/
theorem C139_sign_partial (s : StabInput) (c : StabCode) (h : stabInit s n k none = .ok c) (hb : BinaryArr c.stab)
    (δ : List ℤ) (hlen : δ.length = k) (hδ : IsBinary δ) :
    ∃ gs, encodingCircuit c n δ = .ok gs ∧ ∀ g ∈ c.iter, parityY (rowPauli n g) = 0 →
      pauliAct (rowPauli n g) (run gs (ket 0)) = (sgn (∑ i ∈ Finset.range k,
        bitFn δ i * symp (rowPauli n (c.logicalX.row i)) (rowPauli n g)) : ℂ) • run gs (ket 0) := by
  obtain ⟨c', h1, h2, h3, h4, h5, h6, h7, h8⟩ := accepted_completed h hb
  obtain ⟨-, -, -, hR, hr, -, hI, hcom, -, -⟩ := accepted_weak h hb
  obtain ⟨-, -, -, hsh, hX, -, -⟩ := accepted_facts h1 h2 h3
  obtain ⟨gs, g1, -, g3⟩ := C11_encoding_closed_form _ n k c' h1 h2 h3 δ hlen hδ
  obtain ⟨gs', g1', g4⟩ := C13_normal_form_rows_fix _ n k c' h1 h2 h3 δ hlen hδ
  rw [g1] at g1'
  cases g1'
  have hup := (C139_logical_operators s c h hb).2.2
  have hR' := hsh.rows
  refine ⟨gs, by rw [← h8.encoding]; exact g1, ?_⟩
  intro g hg hY
  simp only [StabCode.iter, List.mem_map, List.mem_range] at hg
  obtain ⟨a, ha, rfl⟩ := hg
  by_cases har : a < c.rank
  · have hmem : c.normalForm.row a ∈ c.iter.take c.rank := by
      unfold StabCode.iter
      rw [← List.map_take, List.take_range]
      exact List.mem_map_of_mem (List.mem_range.mpr (by omega))
    rw [Finset.sum_eq_zero fun i hi => by rw [hup i (Finset.mem_range.mp hi) _ hmem, mul_zero], sgn_zero, one_smul]
    refine g4 _ ?_ hY
    rw [← h5 a har]
    exact List.mem_map_of_mem (List.mem_range.mpr (by omega))
  · have hx : (rowPauli n (c.normalForm.row a)).x = 0 := by
      funext j
      rw [rowPauli_x hI.cols, hI.lowerX a (by omega) ha j j.2]; simp
    have hc : ∀ g ∈ (List.range c'.rank).map (fun i => rowPauli n (c'.normalForm.row i)), symp (rowPauli n (c.normalForm.row a)) g = 0 := by
      intro g hg
      simp only [List.mem_map, List.mem_range] at hg
      obtain ⟨i, hi, rfl⟩ := hg
      rw [h5 i (by omega), ← sympV_vec, rowPauli_row hI.cols, rowPauli_row hI.cols]
      exact hcom a ha i (by omega)
    rw [g3]
    unfold codeword
    rw [pauliAct_projected _ _ hc, hx, add_zero]
    congr 2
    unfold dotp
    simp only [codeLabel_sum hsh, Finset.mul_sum]
    rw [Finset.sum_comm]
    refine Finset.sum_congr rfl fun i hi => ?_
    have eX : c.logicalX.row i = (logicalXOf n k c'.rank c'.normalForm).row i := by
      rw [← hX]
      exact (row_congr h6 (by rw [← h6.1, hX, (lx_shape hsh).1]; exact Finset.mem_range.mp hi)).symm
    rw [eX]
    unfold symp
    rw [hx, dotp_zero_right, add_zero]
    unfold dotp
    rw [Finset.mul_sum]
    exact Finset.sum_congr rfl fun j _ => by ring

/-- **C139**, when a row fixes the encoded states: exactly when it commutes with all logical X operators.  For independent
generators this always holds (C08).  Missing for "every row the code yields fixes the encoded states": the rows that do not
commute with them, see `C139_stabilised_refuted`. -/
theorem C139_stabilised_iff_partial (s : StabInput) (c : StabCode) (h : stabInit s n k none = .ok c) (hb : BinaryArr c.stab)
    (g : List ℤ) (hg : g ∈ c.iter) (hY : parityY (rowPauli n g) = 0) :
    (∀ δ : List ℤ, δ.length = k → IsBinary δ → ∃ gs, encodingCircuit c n δ = .ok gs ∧
      pauliAct (rowPauli n g) (run gs (ket 0)) = (run gs (ket 0) : Amp n)) ↔
    ∀ i < k, symp (rowPauli n (c.logicalX.row i)) (rowPauli n g) = 0 := by
  constructor
  · intro hfix i hi
    let δ : List ℤ := (List.range k).map fun t => if t = i then 1 else 0
    have hlen : δ.length = k := by simp [δ]
    have hδ : IsBinary δ := by
      intro v hv
      simp only [δ, List.mem_map] at hv
      obtain ⟨t, -, rfl⟩ := hv
      split_ifs <;> simp
    obtain ⟨gs, g1, g2⟩ := hfix δ hlen hδ
    obtain ⟨gs', g1', g3⟩ := C139_sign_partial s c h hb δ hlen hδ
    obtain ⟨u, v, e1, e2, e3⟩ := C139_isometry s c h hb δ δ hlen hδ hlen hδ
    rw [g1] at g1' e1 e2
    cases g1'
    cases e1
    cases e2
    have hs := g3 g hg hY
    rw [g2] at hs
    have hsum : ∑ t ∈ Finset.range k, bitFn δ t * symp (rowPauli n (c.logicalX.row t)) (rowPauli n g) =
        symp (rowPauli n (c.logicalX.row i)) (rowPauli n g) := by
      rw [Finset.sum_eq_single i]
      · have : bitFn δ i = 1 := by
          unfold bitFn
          rw [List.getD_eq_getElem _ _ (by omega)]
          simp [δ]
        rw [this, one_mul]
      · intro t ht hne
        rw [Finset.mem_range] at ht
        have : bitFn δ t = 0 := by
          unfold bitFn
          rw [List.getD_eq_getElem _ _ (by omega)]
          simp [δ, hne]
        rw [this, zero_mul]
      · intro hh; exact absurd (Finset.mem_range.mpr hi) hh
    rw [hsum] at hs
    rcases zmod2_cases (symp (rowPauli n (c.logicalX.row i)) (rowPauli n g)) with h0 | h1
    · exact h0
    · exfalso
      rw [h1, sgn_one] at hs
      have := congrArg (braket (run gs (ket 0) : Amp n)) hs
      rw [braket_smul_right, e3, if_pos rfl] at this
      norm_num at this
  · intro hcom δ hlen hδ
    obtain ⟨gs, g1, g3⟩ := C139_sign_partial s c h hb δ hlen hδ
    refine ⟨gs, g1, ?_⟩
    rw [g3 g hg hY, Finset.sum_eq_zero fun i hi => by rw [hcom i (Finset.mem_range.mp hi), mul_zero], sgn_zero, one_smul]

/-- **C139**, the state encoded from zeros is fixed by every row with an even number of Y's. -/
theorem C139_zero_fixed (s : StabInput) (c : StabCode) (h : stabInit s n k none = .ok c) (hb : BinaryArr c.stab) :
    ∃ gs, encodingCircuit c n (List.replicate k 0) = .ok gs ∧ ∀ g ∈ c.iter, parityY (rowPauli n g) = 0 →
      pauliAct (rowPauli n g) (run gs (ket 0)) = (run gs (ket 0) : Amp n) := by
  obtain ⟨gs, g1, g3⟩ := C139_sign_partial s c h hb (List.replicate k 0) (by simp) (by
    intro v hv
    exact Or.inl (List.eq_of_mem_replicate hv))
  refine ⟨gs, g1, fun g hg hY => ?_⟩
  rw [g3 g hg hY, Finset.sum_eq_zero, sgn_zero, one_smul]
  intro i hi
  have : bitFn (List.replicate k 0) i = 0 := by
    unfold bitFn
    rw [List.getD_eq_getElem _ _ (by simpa using hi)]
    simp
  rw [this, zero_mul]

/-- Acceptance of a concrete list of rows, independent or not, with the resulting object. -/
theorem concrete_code_any {l : List (List ℤ)} {n k r e : ℕ} (hne : l ≠ []) (hl : ∀ r ∈ l, r.length = 2 * n)
    (hk : l.length + k = n) (hb : ∀ r ∈ l, IsBinary r)
    (hcom : ∀ p ∈ l, ∀ q ∈ l, symp (rowPauli n p) (rowPauli n q) = 0)
    (hr : ∀ (F : Type) [Field F], (Matrix.of fun (i : Fin l.length) (j : Fin n) =>
      (((Arr.ofRows (2 * n) l).get i j : ℤ) : F)).rank = r)
    (he : r = l.length ∨ npRank ((firstBlock n r (Arr.ofRows (2 * n) l)).slice r l.length (n + r) (2 * n)) = e) :
    ∃ c, stabInit (.rows l) n k none = .ok c ∧ BinaryArr c.stab ∧
      c.stab = Arr.ofRows (2 * n) l ∧ c.rank = r ∧
      c.normalForm = (if r = l.length then firstBlock n r (Arr.ofRows (2 * n) l)
        else secondBlockLoops n k r e (firstBlock n r (Arr.ofRows (2 * n) l))) := by
  have hA := initArray_rows_ok (n := n) (k := k) hne hl hk
  have hbA : BinaryArr (Arr.ofRows (2 * n) l) := ofRows_binary hb
  have hcomA : Commuting n (Arr.ofRows (2 * n) l) := by
    intro i hi j hj
    have hi' : i < l.length := hi
    have hj' : j < l.length := hj
    rw [rowVec_ofRows, rowVec_ofRows, List.getD_eq_getElem _ _ hi', List.getD_eq_getElem _ _ hj']
    exact hcom _ (List.getElem_mem hi') _ (List.getElem_mem hj')
  have hQ : xRankQ n (Arr.ofRows (2 * n) l) = r := hr ℚ
  have h2 : xRank2 n (Arr.ofRows (2 * n) l) = r := hr (ZMod 2)
  obtain ⟨c, hc⟩ := (stabInit_none_any hA hk hbA hcomA).1 (by rw [hQ, h2])
  obtain ⟨hst, -, -, hN, -⟩ := stabInit_ok hc
  rw [hA] at hst
  simp only [Except.ok.injEq] at hst
  refine ⟨c, hc, by rw [← hst]; exact hbA, hst.symm, ?_⟩
  rw [← hst] at hN
  have hrows : (firstBlock n r (Arr.ofRows (2 * n) l)).rows = l.length := by
    have := equi_firstBlock (n := n) (rank := r) (Arr.ofRows (2 * n) l) (by rw [← hQ]; exact xRankQ_le_n _)
      (by rw [← hQ]; exact xRankQ_le_rows _)
    exact this.rows
  have hcols : (firstBlock n r (Arr.ofRows (2 * n) l)).cols = 2 * n := by
    have := equi_firstBlock (n := n) (rank := r) (Arr.ofRows (2 * n) l) (by rw [← hQ]; exact xRankQ_le_n _)
      (by rw [← hQ]; exact xRankQ_le_rows _)
    exact this.cols
  have hpos : 0 < l.length := List.length_pos_iff.mpr hne
  have hrn : r ≤ l.length := by rw [← hQ]; exact xRankQ_le_rows (n := n) (Arr.ofRows (2 * n) l)
  unfold standardNormalForm at hN
  rw [matrixRank_ok (A := (Arr.ofRows (2 * n) l).slice 0 (Arr.ofRows (2 * n) l).rows 0 n) (show 0 < l.length - 0 by omega)
    (show 0 < n - 0 by omega)] at hN
  simp only [npRank_x, hQ, ok_bind'] at hN
  unfold secondBlock at hN
  by_cases h : r = l.length
  · rw [if_pos (by rw [hrows]; exact h)] at hN
    simp only [ok_bind', pure_ok', Except.ok.injEq, Prod.mk.injEq] at hN
    rw [if_pos h]
    exact ⟨hN.2.symm, hN.1.symm⟩
  · have he' := he.resolve_left h
    rw [if_neg (by rw [hrows]; exact h)] at hN
    rw [hrows, hcols, matrixRank_ok (A := (firstBlock n r (Arr.ofRows (2 * n) l)).slice r l.length (n + r) (2 * n))
      (show 0 < l.length - r by omega) (show 0 < 2 * n - (n + r) by omega)] at hN
    simp only [ok_bind', he'] at hN
    rw [if_neg (by omega)] at hN
    simp only [ok_bind', pure_ok', Except.ok.injEq, Prod.mk.injEq] at hN
    rw [if_neg h]
    exact ⟨hN.2.symm, hN.1.symm⟩

/-- `ZIZII`, `IZIII`, their product `ZZZII`, and `IIIIZ`. -/
def redundantRows : List (List ℤ) :=
  [[0, 0, 0, 0, 0, 1, 0, 1, 0, 0], [0, 0, 0, 0, 0, 0, 1, 0, 0, 0], [0, 0, 0, 0, 0, 1, 1, 1, 0, 0],
    [0, 0, 0, 0, 0, 0, 0, 0, 0, 1]]

/-- The elimination stops at the row it has made zero and never reaches `IIIIZ`. -/
theorem redundant_code : ∃ c, stabInit (.rows redundantRows) 5 1 none = .ok c ∧ BinaryArr c.stab ∧ c.rank = 0 ∧
    c.iter = [[0, 0, 0, 0, 0, 1, 0, 1, 0, 0], [0, 0, 0, 0, 0, 0, 1, 0, 0, 0], [0, 0, 0, 0, 0, 0, 0, 0, 0, 0],
      [0, 0, 0, 0, 0, 0, 0, 0, 0, 1]] ∧ c.logicalX.row 0 = [0, 0, 0, 1, 1, 0, 0, 0, 0, 0] := by
  obtain ⟨c, h1, h2, h4, h5, h6⟩ := concrete_code_any (l := redundantRows) (n := 5) (k := 1)
    (r := 0) (e := 3) (by decide) (by decide) (by decide) (by unfold IsBinary; decide) (by decide)
    (fun F _ => rank_cert (M := Matrix.of fun (i : Fin 4) (j : Fin 5) => (Arr.ofRows (2 * 5) redundantRows).get i j)
      (0 : Matrix (Fin 4) (Fin 0) ℤ) 0 0 0 (by decide) (by decide) F)
    (Or.inr (rank_cert (M := Matrix.of fun (i : Fin 4) (j : Fin 5) =>
        ((firstBlock 5 0 (Arr.ofRows (2 * 5) redundantRows)).slice 0 4 (5 + 0) (2 * 5)).get i j)
      !![1, 0, 0; 0, 1, 0; 1, 1, 0; 0, 0, 1] !![1, 0, 1, 0, 0; 0, 1, 0, 0, 0; 0, 0, 0, 0, 1]
      !![1, 0, 0, 0; 0, 1, 0, 0; 0, 0, 0, 1] !![1, 0, 0; 0, 1, 0; 0, 0, 0; 0, 0, 0; 0, 0, 1] (by decide) (by decide) ℚ))
  rw [if_neg (by decide)] at h6
  obtain ⟨-, -, -, -, -, -, -, -, hX, -⟩ := accepted_weak h1 h2
  refine ⟨c, h1, h2, h5, ?_, ?_⟩
  · unfold StabCode.iter
    rw [h6]
    decide
  · rw [hX, h5, h6]
    decide

/-- **C139**, refuted: it is not so that the generators of an accepted code fix its encoded states.  `StabilizerCode` accepts
`ZIZII`, `IZIII`, `ZZZII`, `IIIIZ` with `k = 1`, all four without Y; the logical X operator anticommutes with the generator
`IIIIZ`, and the state encoded from `1` changes sign under it. -/
theorem C139_stabilised_refuted : ∃ c gs, stabInit (.rows redundantRows) 5 1 none = .ok c ∧
    ∃ g ∈ redundantRows, g ∈ c.iter ∧ parityY (rowPauli 5 g) = 0 ∧
      symp (rowPauli 5 (c.logicalX.row 0)) (rowPauli 5 g) = 1 ∧ encodingCircuit c 5 [1] = .ok gs ∧
      pauliAct (rowPauli 5 g) (run gs (ket 0)) = -(run gs (ket 0) : Amp 5) ∧
      pauliAct (rowPauli 5 g) (run gs (ket 0)) ≠ (run gs (ket 0) : Amp 5) := by
  obtain ⟨c, h, hb, -, hit, hX⟩ := redundant_code
  obtain ⟨gs, g1, g2⟩ := C139_sign_partial _ c h hb [1] rfl (by simp [IsBinary])
  have hg : [0, 0, 0, 0, 0, 0, 0, 0, 0, 1] ∈ c.iter := by rw [hit]; decide
  have hs : symp (rowPauli 5 (c.logicalX.row 0)) (rowPauli 5 [0, 0, 0, 0, 0, 0, 0, 0, 0, 1]) = 1 := by rw [hX]; decide
  have hY : parityY (rowPauli 5 [0, 0, 0, 0, 0, 0, 0, 0, 0, 1]) = 0 := by decide
  have hn := g2 _ hg hY
  rw [Finset.sum_range_one, hs, show bitFn [1] 0 * 1 = 1 by decide, sgn_one, neg_one_smul] at hn
  refine ⟨c, gs, h, _, by decide, hg, hY, hs, g1, hn, ?_⟩
  intro he
  have hiff := (C139_isometry _ c h hb [1] [1] rfl (by simp [IsBinary]) rfl (by simp [IsBinary]))
  obtain ⟨u, v, e1, e2, e3⟩ := hiff
  rw [g1] at e1 e2
  cases e1
  cases e2
  rw [he] at hn
  have := congrArg (braket (run gs (ket 0) : Amp 5)) hn
  rw [← neg_one_smul ℂ, braket_smul_right, e3, if_pos rfl] at this
  norm_num at this

/-- The redundant code has the circuits of a code with independent generators, and its generators are not independent. -/
example : ∃ c c', stabInit (.rows redundantRows) 5 1 none = .ok c ∧ ¬ Independent 5 c.normalForm ∧
    Independent 5 c'.stab ∧ SameCircuits c' c := by
  obtain ⟨c, h, hb, -, hit, hX⟩ := redundant_code
  obtain ⟨l, c', -, -, h3, -, -, -, -, h8⟩ := C139_as_independent _ c h hb
  refine ⟨c, c', h, ?_, h3, h8⟩
  intro hi
  obtain ⟨-, -, -, hR, -, -, hI, -⟩ := accepted_weak h hb
  have hz : rowVec 5 c.normalForm 2 = 0 := by
    have e : c.normalForm.row 2 = [0, 0, 0, 0, 0, 0, 0, 0, 0, 0] := by
      have := congrArg (fun l => l.getD 2 []) hit
      simp only [StabCode.iter] at this
      rw [List.getD_eq_getElem _ _ (by simp; omega)] at this
      simpa using this
    rw [← rowPauli_row hI.cols, e]
    decide
  exact hi.ne_zero ⟨2, by omega⟩ hz

end PyQ
