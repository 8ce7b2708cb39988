import Verif.Props.Measure
import Verif.Props.SameCode
import Verif.Props.Rounds
import Verif.Props.Unreset
import Verif.Props.Digitise
import Verif.Props.ConcatSpace
import Verif.Props.DecodeError

/-! **C142**: preparing encoded states by measuring the generators. -/

namespace PyQ

open Spec

variable {k : ℕ} {s : StabInput} {c : StabCode}

/-- Measuring operators keeps the eigenvalues of an operator that commutes with them. -/
theorem history_keeps (c : StabCode) (p : Pauli c.n) (t : ZMod 2) (ss : List StabArg)
    (hv : ∀ s ∈ ss, s.Valid c.n ∧ parityY (s.pauli c.n) = 0) (hcom : ∀ s ∈ ss, symp p (s.pauli c.n) = 0) :
    ∀ φ rs φ', Normalised φ → History (FreshStep c) φ ss rs φ' → pauliAct p φ = (sgn t : ℂ) • φ →
      pauliAct p φ' = (sgn t : ℂ) • φ' := by
  induction ss with
  | nil =>
    intro φ rs φ' _ hh he
    cases hh
    exact he
  | cons x l ih =>
    intro φ rs φ' hφ hh he
    cases hh with
    | cons hs htail =>
      rename_i y r rs'
      obtain ⟨gs, h1, h2⟩ := C57_measures_partial c x (hv x (by simp)).1 (hv x (by simp)).2 c.n c.n (Or.inl ⟨rfl, rfl⟩)
      obtain ⟨p1, -, p3⟩ := h2 φ hφ
      obtain ⟨gs', q, g1, g2, g3⟩ := hs
      rw [h1] at g1
      cases g1
      rw [p1] at g2
      obtain ⟨χ, q1, q2, q3, q4⟩ := p3 r g2
      rw [q1] at g3
      have := tensor_qubit_inj g3
      subst this
      refine ih (fun s hs => hv s (by simp [hs])) (fun s hs => hcom s (by simp [hs])) _ _ _ q3 htail ?_
      rw [q2]
      unfold part
      rw [pauliAct_smul, pauliAct_smul, pauliAct_add, pauliAct_smul, pauliAct_comm, hcom x (by simp), sgn_zero, one_smul, he,
        pauliAct_smul, smul_comm (sgn r : ℂ), ← smul_add, smul_comm (sgn t : ℂ), smul_comm (sgn t : ℂ)]

/-- The rows of the normal form of a code with even numbers of Y's can be measured. -/
theorem iter_measurable (h : stabInit s c.n k none = .ok c) (hb : BinaryArr c.stab) (hind : Independent c.n c.stab)
    (hY : ∀ a < c.stab.rows, parityY (rowPauli c.n (c.stab.row a)) = 0) :
    (∀ a ∈ c.iter.map StabArg.bin, a.Valid c.n ∧ parityY (a.pauli c.n) = 0) ∧
    ∀ a ∈ c.iter.map StabArg.bin, ∀ a' ∈ c.iter.map StabArg.bin, symp (a.pauli c.n) (a'.pauli c.n) = 0 := by
  obtain ⟨hn, hk, hst, hsh, -, -, hcom⟩ := accepted_facts h hb hind
  obtain ⟨enc, e1, -, e3⟩ := encoded_family h hb hind
  constructor
  · intro a ha
    obtain ⟨g, hg, rfl⟩ := List.mem_map.mp ha
    obtain ⟨gs, h1, h2⟩ := C13_even_generators_rows_fix s c.n k c h hb hind hY (bitsList 0) (bitsList_length _) (bitsList_binary _)
    rw [e1] at h1
    cases h1
    constructor
    · simp only [StabCode.iter, List.mem_map, List.mem_range] at hg
      obtain ⟨i, hi, rfl⟩ := hg
      exact ⟨by rw [row_length, hsh.cols], row_binary hsh.binary hi⟩
    · refine parity_of_fixed (h2 g hg) ?_
      intro h0
      have := e3 0 0
      rw [h0, if_pos rfl] at this
      simp [braket] at this
  · intro a ha a' ha'
    obtain ⟨g, hg, rfl⟩ := List.mem_map.mp ha
    obtain ⟨g', hg', rfl⟩ := List.mem_map.mp ha'
    simp only [StabCode.iter, List.mem_map, List.mem_range] at hg hg'
    obtain ⟨i, hi, rfl⟩ := hg
    obtain ⟨j, hj, rfl⟩ := hg'
    show symp (rowPauli c.n _) (rowPauli c.n _) = 0
    rw [← sympV_vec, rowPauli_row hsh.cols, rowPauli_row hsh.cols]
    exact hcom i hi j hj

/-- **C142, every state**.  For every accepted code with independent binary generators that have an even number of Y's, and
every normalised state of the register: the circuits of `single_syndrome_measurement` on the generators can be run one after
the other; and whatever their results were, after `apply_stabilizer_circuit` with any operator that anticommutes with exactly
the generators that gave one, the state is a normalised superposition of encoded states. -/
theorem C142_projects_to_code (s : StabInput) (c : StabCode) (k : ℕ) (h : stabInit s c.n k none = .ok c)
    (hb : BinaryArr c.stab) (hind : Independent c.n c.stab)
    (hY : ∀ a < c.stab.rows, parityY (rowPauli c.n (c.stab.row a)) = 0) (φ : Amp c.n) (hφ : Normalised φ) :
    (∃ rs φ', History (FreshStep c) φ (c.iter.map .bin) rs φ') ∧
    ∀ rs φ', History (FreshStep c) φ (c.iter.map .bin) rs φ' → ∀ r : List ℤ, r.length = 2 * c.n → IsBinary r →
      signs c.n c.iter (rowPauli c.n r).vec = rs →
      ∃ corr, applyStabilizerCircuit c.n (.bin r) = .ok corr ∧ Normalised (run corr φ') ∧ Encoded c c.n k (run corr φ') := by
  obtain ⟨hm, hc⟩ := iter_measurable h hb hind hY
  obtain ⟨p1, p2⟩ := C58_projects c _ hm hc φ hφ
  refine ⟨p1, fun rs φ' hh r hl hr hs => ?_⟩
  obtain ⟨q1, q2, -⟩ := p2 rs φ' hh
  obtain ⟨corr, str, c1, -, c3, c4⟩ := C48_apply_stabilizer c.n r hl hr
  refine ⟨corr, c1, ?_, (encoded_iff h hb hind hY _).mpr ?_⟩
  · rw [c4]
    exact normalised_smul' (by simp) (normalised_pauli _ q1)
  · intro g hg
    have he : pauliAct (rowPauli c.n g) φ' = (sgn (sympV (rowPauli c.n g).vec (rowPauli c.n r).vec) : ℂ) • φ' := by
      rw [← hs, signs, List.forall₂_map_left_iff, List.forall₂_map_right_iff, List.forall₂_same] at q2
      exact q2 g hg
    rw [c4, pauliAct_smul, pauliAct_comm, he, pauliAct_smul, smul_smul (sgn _ : ℂ), sympV_vec, sgn_mul_self, one_smul]

/-- **C142, corrections**.  Whatever the results, there is a Pauli operator that anticommutes with exactly the generators that
gave one, and it can be chosen to commute with all the rows of `logical_z`. -/
theorem C142_correction_exists (s : StabInput) (n k : ℕ) (c : StabCode) (h : stabInit s n k none = .ok c)
    (hb : BinaryArr c.stab) (hind : Independent n c.stab) (rs : List (ZMod 2)) (hrs : rs.length = n - k) :
    ∃ r : List ℤ, r.length = 2 * n ∧ IsBinary r ∧ signs n c.iter (rowPauli n r).vec = rs ∧
      ∀ g ∈ rowsOf c.logicalZ, symp (rowPauli n g) (rowPauli n r) = 0 := by
  obtain ⟨hn, hk, hst, hsh, hX, hZ, -⟩ := accepted_facts h hb hind
  obtain ⟨-, -, -, -, -, -, l1, l2⟩ := C08_logical_operators s n k c h hb hind
  obtain ⟨hkn, -, -, E, -, hEadd, -, -, hEinj⟩ := C140_pauli_error s c h hb hind
  have hlen : c.iter.length = n - k := by
    have := hsh.rows
    simp [StabCode.iter]; omega
  have hsymp : ∀ (g : Pauli n) (a a'), symp g (E (a + a')) = symp g (E a) + symp g (E a') := by
    intro g a a'
    rw [hEadd]
    unfold symp
    simp only [dotp_add_right]
    ring
  set L : (Fin (n - k) → ZMod 2) → Fin (n - k) → ZMod 2 := fun a i => symp (rowPauli n (c.iter.getD i [])) (E a) with hL
  have hinj : Function.Injective L := by
    intro a a' he
    have h0 : a + a' = 0 := by
      apply hEinj
      intro g hg
      obtain ⟨i, hi, rfl⟩ := List.mem_iff_getElem.mp hg
      have := congrFun he ⟨i, by omega⟩
      simp only [hL, List.getD_eq_getElem _ _ hi] at this
      rw [hsymp, this, add_self_z]
    funext i
    have := congrFun h0 i
    simp only [Pi.add_apply, Pi.zero_apply] at this
    rcases zmod2_cases (a i) with e | e <;> rcases zmod2_cases (a' i) with e' | e' <;> rw [e, e'] at this ⊢ <;> revert this <;> decide
  obtain ⟨a, ha⟩ := (Finite.injective_iff_surjective.mp hinj) fun i => rs.getD i 0
  set v : BVec n := (E a).vec + ∑ i : Fin k, symp (rowPauli n (c.logicalZ.row i)) (E a) • (rowPauli n (c.logicalX.row i)).vec with hv
  obtain ⟨r1, r2, r3⟩ := pauliRow_spec (⟨v.1, v.2⟩ : Pauli n)
  have hvv : (⟨v.1, v.2⟩ : Pauli n).vec = v := rfl
  refine ⟨pauliRow ⟨v.1, v.2⟩, r1, r2, ?_, ?_⟩
  · rw [r3, hvv]
    apply List.ext_getElem
    · simp [signs, hlen, hrs]
    · intro i h1 h2
      have hi : i < c.iter.length := by simpa [signs] using h1
      have e := congrFun ha ⟨i, by omega⟩
      simp only [hL, List.getD_eq_getElem _ _ hi, List.getD_eq_getElem _ _ h2] at e
      simp only [signs, List.getElem_map]
      have hsv : sympV (rowPauli n c.iter[i]).vec v = rs[i] := by
        rw [hv, sympV_add_right, sympV_vec, e, sympV_sum_right, Finset.sum_eq_zero, add_zero]
        intro j _
        rw [sympV_smul_right, sympV_comm, sympV_vec, (l1 j j.2 _ (List.getElem_mem hi)).1, mul_zero]
      exact hsv
  · intro g hg
    simp only [rowsOf, List.mem_map, List.mem_range] at hg
    obtain ⟨j, hj, rfl⟩ := hg
    have hj' : j < k := by rw [hZ, (lz_shape hsh).1] at hj; exact hj
    rw [r3, ← sympV_vec, hvv, hv, sympV_add_right, sympV_vec, sympV_sum_right, Finset.sum_eq_single ⟨j, hj'⟩]
    · rw [sympV_smul_right, sympV_comm, sympV_vec, (l2 j hj' j hj').1, if_pos rfl, mul_one, add_self_z]
    · intro i _ hi
      rw [sympV_smul_right, sympV_comm, sympV_vec, (l2 i i.2 j hj').1, if_neg (fun e => hi (Fin.ext e)), mul_zero]
    · simp

/-- **C142, basis states**.  Started from a basis state, the state after the correction is one encoded state, up to a phase:
its `i`-th bit is what row `i` of `logical_z` reads off the basis state, flipped when the correction anticommutes with it. -/
theorem C142_from_basis (s : StabInput) (c : StabCode) (k : ℕ) (h : stabInit s c.n k none = .ok c)
    (hb : BinaryArr c.stab) (hind : Independent c.n c.stab)
    (hY : ∀ a < c.stab.rows, parityY (rowPauli c.n (c.stab.row a)) = 0) (b : Fin c.n → ZMod 2) :
    ∀ rs φ', History (FreshStep c) (ket b) (c.iter.map .bin) rs φ' → ∀ r : List ℤ, r.length = 2 * c.n → IsBinary r →
      signs c.n c.iter (rowPauli c.n r).vec = rs →
      ∃ corr enc, applyStabilizerCircuit c.n (.bin r) = .ok corr ∧
        encodingCircuit c c.n (bitsList fun i : Fin k => dotp (rowPauli c.n (c.logicalZ.row i)).z b +
          symp (rowPauli c.n (c.logicalZ.row i)) (rowPauli c.n r)) = .ok enc ∧
        ∃ ω : ℂ, Complex.normSq ω = 1 ∧ run corr φ' = ω • run enc (ket 0) := by
  intro rs φ' hh r hl hr hs
  obtain ⟨hn, hk, hst, hsh, hX, hZ, -⟩ := accepted_facts h hb hind
  obtain ⟨-, -, -, -, -, -, l1, -⟩ := C08_logical_operators s c.n k c h hb hind
  have hket : Normalised (ket b : Amp c.n) := normalised_of_braket (by rw [braket_ket, if_pos rfl])
  obtain ⟨hm, -⟩ := iter_measurable h hb hind hY
  obtain ⟨corr, c1, c2, enc, f1, α, hα⟩ := (C142_projects_to_code s c k h hb hind hY (ket b) hket).2 rs φ' hh r hl hr hs
  obtain ⟨enc', f1', f2, f3⟩ := encoded_family h hb hind
  obtain rfl : enc' = enc := by
    funext δ
    have h1 := f1' δ
    rw [f1] at h1
    exact (Except.ok.inj h1).symm
  set d : Fin k → ZMod 2 := fun i => dotp (rowPauli c.n (c.logicalZ.row i)).z b +
    symp (rowPauli c.n (c.logicalZ.row i)) (rowPauli c.n r) with hd
  have hbra : ∀ δ, braket (run (enc' δ) (ket 0)) (run corr φ') = α δ := by
    intro δ
    rw [hα, braket_sum_right]
    simp only [braket_smul_right, f3]
    simp
  have hzf : ∀ (i : Fin k) δ, pauliAct (rowPauli c.n (c.logicalZ.row i)) (run (enc' δ) (ket 0)) =
      (sgn (δ i) : ℂ) • (run (enc' δ) (ket 0) : Amp c.n) := by
    intro i δ
    rw [f2, hZ, lz_codeword hsh i.2, bitFn_bitsList, dif_pos i.2]
  have hzr : ∀ i : Fin k, pauliAct (rowPauli c.n (c.logicalZ.row i)) (run corr φ') = (sgn (d i) : ℂ) • run corr φ' := by
    intro i
    obtain ⟨corr', str, c1', -, -, c4⟩ := C48_apply_stabilizer c.n r hl hr
    rw [c1] at c1'
    cases c1'
    have hk := history_keeps c (rowPauli c.n (c.logicalZ.row i)) (dotp (rowPauli c.n (c.logicalZ.row i)).z b) _ hm (by
      intro x hx
      obtain ⟨g, hg, rfl⟩ := List.mem_map.mp hx
      exact (l1 i i.2 g hg).2) _ _ _ hket hh (by
      have hx : (rowPauli c.n (c.logicalZ.row i)).x = 0 := by
        funext j
        rw [hZ, rowPauli_x (lz_shape hsh).2, lz_x j.2]; rfl
      rw [pauliAct_ket, hx, add_zero])
    rw [c4, pauliAct_smul, pauliAct_comm, hk, pauliAct_smul, smul_smul (sgn _ : ℂ), ← sgn_add, smul_comm, hd, add_comm]
  have hαd : ∀ δ, δ ≠ d → α δ = 0 := by
    intro δ hδ
    obtain ⟨i, hi⟩ := Function.ne_iff.mp hδ
    have e1 : pauliAct (rowPauli c.n (c.logicalZ.row i)) (run corr φ') = ∑ δ', (α δ' * sgn (δ' i)) • run (enc' δ') (ket 0) := by
      rw [hα, pauliAct_sum']
      refine Finset.sum_congr rfl fun δ' _ => ?_
      rw [pauliAct_smul, hzf, smul_smul]
    have e2 : braket (run (enc' δ) (ket 0)) (pauliAct (rowPauli c.n (c.logicalZ.row i)) (run corr φ')) = α δ * sgn (δ i) := by
      rw [e1, braket_sum_right]
      simp only [braket_smul_right, f3]
      simp
    rw [hzr, braket_smul_right, hbra] at e2
    rcases zmod2_cases (δ i) with e | e <;> rcases zmod2_cases (d i) with e' | e' <;> rw [e, e'] at e2 hi
    · exact absurd rfl hi
    · simp only [sgn_zero, sgn_one] at e2
      linear_combination (-1 / 2 : ℂ) * e2
    · simp only [sgn_zero, sgn_one] at e2
      linear_combination (1 / 2 : ℂ) * e2
    · exact absurd rfl hi
  have hψ : run corr φ' = α d • run (enc' d) (ket 0) := by
    conv_lhs => rw [hα]
    rw [Finset.sum_eq_single d]
    · intro δ _ hδ
      rw [hαd δ hδ, zero_smul]
    · simp
  refine ⟨corr, enc' d, c1, f1 d, α d, ?_, hψ⟩
  have e := encoded_norm f3 α
  rw [← hα] at e
  have e' : normSq (run corr φ') = 1 := c2
  rw [e'] at e
  unfold normSq at e
  rw [Finset.sum_eq_single d (fun δ _ hδ => by rw [hαd δ hδ]; simp) (by simp)] at e
  exact e.symm

/-- **C142, encoded zero**.  Measuring the generators on a register of `|0…0⟩` and applying a correction that commutes with the
rows of `logical_z` gives, up to a phase, what `encoding_circuit` gives for all bits zero. -/
theorem C142_encoded_zero (s : StabInput) (c : StabCode) (k : ℕ) (h : stabInit s c.n k none = .ok c)
    (hb : BinaryArr c.stab) (hind : Independent c.n c.stab)
    (hY : ∀ a < c.stab.rows, parityY (rowPauli c.n (c.stab.row a)) = 0) :
    ∀ rs φ', History (FreshStep c) (ket 0) (c.iter.map .bin) rs φ' → ∃ r corr enc, IsBinary r ∧ r.length = 2 * c.n ∧
      applyStabilizerCircuit c.n (.bin r) = .ok corr ∧ encodingCircuit c c.n (List.replicate k 0) = .ok enc ∧
      ∃ ω : ℂ, Complex.normSq ω = 1 ∧ run corr φ' = ω • run enc (ket 0) := by
  intro rs φ' hh
  obtain ⟨hn, hk, hst, hsh, hX, hZ, -⟩ := accepted_facts h hb hind
  have hlen : rs.length = c.n - k := by
    have h1 := hsh.rows
    have h2 := history_length hh
    simp only [StabCode.iter, List.length_map, List.length_range] at h2
    omega
  obtain ⟨r, r1, r2, r3, r4⟩ := C142_correction_exists s c.n k c h hb hind rs hlen
  obtain ⟨corr, enc, e1, e2, e3⟩ := C142_from_basis s c k h hb hind hY 0 rs φ' hh r r1 r2 r3
  refine ⟨r, corr, enc, r2, r1, e1, ?_, e3⟩
  rw [← e2]
  congr 1
  apply List.ext_getElem
  · simp [bitsList]
  · intro i h1 h2
    have hi : i < k := by simpa using h1
    simp only [List.getElem_replicate, bitsList, List.getElem_ofFn, dotp_zero_right, zero_add]
    rw [r4]
    · rfl
    · simp only [rowsOf, List.mem_map, List.mem_range]
      exact ⟨i, by rw [hZ, (lz_shape hsh).1]; exact hi, rfl⟩

/-- The five-qubit code meets the hypotheses. -/
example : ∃ c, stabInit (.rows fiveRows) c.n 1 none = .ok c ∧ c.n = 5 ∧ BinaryArr c.stab ∧ Independent c.n c.stab ∧
    ∀ a < c.stab.rows, parityY (rowPauli c.n (c.stab.row a)) = 0 := by
  obtain ⟨c, h, hb, hind, hY, -⟩ := five_code
  obtain ⟨hn, hk, -⟩ := accepted_facts h hb hind
  refine ⟨c, ?_, hn, hb, ?_, ?_⟩
  · rw [hn]; exact h
  · rw [hn]; exact hind
  · rw [hn]; exact hY

end PyQ
