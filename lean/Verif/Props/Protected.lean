import Verif.Props.Rounds
import Verif.Spec.Protected

/-! # C132: logical operators between rounds of error correction -/

namespace PyQ

open Spec Module

section
variable {s : StabInput} {k : ℕ} {c : StabCode}

theorem bitFn_add_single {k : ℕ} (δ : Fin k → ZMod 2) (i : Fin k) :
    Function.update (bitFn (bitsList δ)) i (bitFn (bitsList δ) i + 1) = bitFn (bitsList (δ + Pi.single i 1)) := by
  funext j
  by_cases hj : j = i
  · subst hj
    rw [Function.update_self, bitFn_bitsList, bitFn_bitsList, dif_pos i.2, dif_pos i.2]
    simp
  · rw [Function.update_of_ne hj, bitFn_bitsList, bitFn_bitsList]
    split_ifs with hk
    · have : (⟨j, hk⟩ : Fin k) ≠ i := fun h => hj (by rw [← h])
      simp [this]
    · rfl

theorem sum_kets {k : ℕ} (α : Amp k) : ∑ δ, α δ • (ket δ : Amp k) = α := by
  funext b
  rw [Finset.sum_apply, Finset.sum_eq_single b]
  · simp [ket]
  · intro δ _ hne; simp [ket, Ne.symm hne]
  · simp

theorem dotp_single_left {k : ℕ} (i : Fin k) (b : Fin k → ZMod 2) : dotp (Pi.single i 1) b = b i := by
  unfold dotp; simp [Pi.single_apply]

theorem single_add_self {k : ℕ} (i : Fin k) : (Pi.single i 1 + Pi.single i 1 : Fin k → ZMod 2) = 0 := by
  rw [← two_smul (ZMod 2)]; exact zero_smul _ _

/-- The logical operators on superpositions of encoded states. -/
theorem logical_encoded (h : stabInit s c.n k none = .ok c) (hb : BinaryArr c.stab) (hind : Independent c.n c.stab)
    {enc : (Fin k → ZMod 2) → List Gate} (he : ∀ δ, encodingCircuit c c.n (bitsList δ) = .ok (enc δ))
    {p : Char} (hp : p = 'X' ∨ p = 'Y' ∨ p = 'Z') (i : Fin k) (hi : i.val < 10) :
    ∃ (gs : List Gate) (L : Pauli c.n), logicalCircuit c c.n [p, Char.ofNat (48 + i)] = .ok gs ∧
      (∀ ψ : Amp c.n, run gs ψ = pauliAct L ψ) ∧
      ∀ α : Amp k, pauliAct L (∑ δ, α δ • (run (enc δ) (ket 0) : Amp c.n)) =
        ∑ δ, (pauliAct (onQubit p i) α) δ • run (enc δ) (ket 0) := by
  obtain ⟨hn, hk, -, hsh, hX, hZ, -⟩ := accepted_facts h hb hind
  obtain ⟨enc', f1, f2, -⟩ := encoded_family h hb hind
  have henc : enc' = enc := by
    funext δ
    have h1 := f1 δ
    rw [he] at h1
    exact (Except.ok.inj h1).symm
  subst henc
  obtain ⟨gs, g1, -, g3⟩ := logicalCircuit_ok hk hsh hX hZ hp (intOfChar_digit hi) i.2
  refine ⟨gs, _, g1, g3, ?_⟩
  have hsum : ∀ (q : Pauli c.n) (α : Amp k), pauliAct q (∑ δ, α δ • (run (enc' δ) (ket 0) : Amp c.n)) =
      ∑ δ, α δ • pauliAct q (run (enc' δ) (ket 0)) := by
    intro q α
    unfold pauliAct
    rw [Matrix.mulVec_sum]
    exact Finset.sum_congr rfl fun δ _ => Matrix.mulVec_smul _ _ _
  have hLX : ∀ α : Amp k, pauliAct (rowPauli c.n (c.logicalX.row i)) (∑ δ, α δ • (run (enc' δ) (ket 0) : Amp c.n)) =
      ∑ δ, (pauliAct (⟨Pi.single i 1, 0⟩ : Pauli k) α) δ • run (enc' δ) (ket 0) := by
    intro α
    rw [hsum, ← Equiv.sum_comp (Equiv.addRight (Pi.single i 1 : Fin k → ZMod 2))]
    refine Finset.sum_congr rfl fun δ _ => ?_
    rw [pauliAct_apply, Equiv.coe_addRight, dotp_zero_left, sgn_zero, one_mul]
    congr 1
    rw [f2, f2, hX, lx_codeword hsh i.2, bitFn_add_single, add_assoc, single_add_self, add_zero]
  have hLZ : ∀ α : Amp k, pauliAct (rowPauli c.n (c.logicalZ.row i)) (∑ δ, α δ • (run (enc' δ) (ket 0) : Amp c.n)) =
      ∑ δ, (pauliAct (⟨0, Pi.single i 1⟩ : Pauli k) α) δ • run (enc' δ) (ket 0) := by
    intro α
    rw [hsum]
    refine Finset.sum_congr rfl fun δ _ => ?_
    rw [pauliAct_apply, add_zero, dotp_single_left, f2, hZ, lz_codeword hsh i.2, smul_smul, bitFn_bitsList, dif_pos i.2, mul_comm]
  intro α
  rcases hp with rfl | rfl | rfl
  · rw [if_pos rfl, hLX]; rfl
  · rw [if_neg (by decide), if_neg (by decide)]
    have hx : (rowPauli c.n (c.logicalZ.row i)).x = 0 := by
      funext j
      rw [hZ, rowPauli_x (lz_shape hsh).2, lz_x j.2]; rfl
    have h1 := pauliAct_comp (rowPauli c.n (c.logicalX.row i)) (rowPauli c.n (c.logicalZ.row i))
      (∑ δ, α δ • (run (enc' δ) (ket 0) : Amp c.n))
    rw [hx, dotp_zero_right, sgn_zero, one_smul] at h1
    have h2 := pauliAct_comp (⟨Pi.single i 1, 0⟩ : Pauli k) ⟨0, Pi.single i 1⟩ α
    rw [dotp_zero_right, sgn_zero, one_smul] at h2
    have h3 : (⟨Pi.single i 1, 0⟩ : Pauli k).add ⟨0, Pi.single i 1⟩ = onQubit 'Y' i := by
      simp [Pauli.add, onQubit]
    rw [← h1, hLZ, hLX, h2, h3]
  · rw [if_neg (by decide), if_pos rfl, hLZ]; rfl

theorem protected_from (h : stabInit s c.n k none = .ok c) (hb : BinaryArr c.stab) (hind : Independent c.n c.stab)
    (hY : ∀ a < c.stab.rows, parityY (rowPauli c.n (c.stab.row a)) = 0)
    {enc : (Fin k → ZMod 2) → List Gate} (he : ∀ δ, encodingCircuit c c.n (bitsList δ) = .ok (enc δ))
    {table : List (ZMod 2) → List ℤ} (ht : TableFor c.n table) (as : List (Action k)) (has : Named as) (v : BVec c.n) :
    ∃ ω : ℂ, Complex.normSq ω = 1 ∧ ∀ α : Amp k, Normalised α → ∀ z : ℂ, Complex.normSq z = 1 → ∀ φ,
      Protected c k table (z • pauliAct (ofVec v) (∑ δ, α δ • run (enc δ) (ket 0))) as φ ↔
        φ = (ω * z) • pauliAct (ofVec (leftover c.n c.iter table v (errors as))) (∑ δ, meaning as α δ • run (enc δ) (ket 0)) := by
  obtain ⟨enc', f1, -, f3⟩ := encoded_family h hb hind
  have henc : enc' = enc := by
    funext δ
    have h1 := f1 δ
    rw [he] at h1
    exact (Except.ok.inj h1).symm
  subst henc
  induction as generalizing v with
  | nil =>
    refine ⟨1, by simp, fun α _ z _ φ => ⟨fun hr => ?_, ?_⟩⟩
    · cases hr; rw [one_mul]; rfl
    · rintro rfl; rw [one_mul]; exact Protected.nil _
  | cons a as ih =>
    cases a with
    | round e =>
      obtain ⟨ω1, hω1, hr⟩ := rounds_from h hb hind ht [e] v
      obtain ⟨ω, hω, hall⟩ := ih has (leftover c.n c.iter table v [e])
      refine ⟨ω * ω1, by rw [map_mul, hω, hω1, one_mul], fun α hα z hz φ => ?_⟩
      have hN : Normalised (∑ δ, α δ • (run (enc' δ) (ket 0) : Amp c.n)) := by
        show normSq _ = 1
        rw [encoded_norm f3]; exact hα
      have hfix := encoded_fix h hb hind hY (ψ := ∑ δ, α δ • (run (enc' δ) (ket 0) : Amp c.n)) ⟨enc', f1, α, rfl⟩
      have hz1 : Complex.normSq (ω1 * z) = 1 := by rw [map_mul, hω1, hz, one_mul]
      have hnext := hall α hα (ω1 * z) hz1 φ
      rw [← mul_assoc] at hnext
      constructor
      · intro hP
        cases hP with
        | round h1 h2 =>
          rw [(hr _ hN hfix z hz _).mp h1] at h2
          exact hnext.mp h2
      · intro hφ
        exact Protected.round ((hr _ hN hfix z hz _).mpr rfl) (hnext.mpr hφ)
    | logical p i =>
      obtain ⟨hp, hi, has'⟩ := has
      obtain ⟨gs, L, g1, g2, g3⟩ := logical_encoded h hb hind f1 hp i hi
      obtain ⟨ω, hω, hall⟩ := ih has' v
      refine ⟨ω * sgn (symp L (ofVec v)), by rw [map_mul, hω, normSq_sgn, one_mul], fun α hα z hz φ => ?_⟩
      have hrun : run gs (z • pauliAct (ofVec v) (∑ δ, α δ • (run (enc' δ) (ket 0) : Amp c.n))) =
          (sgn (symp L (ofVec v)) * z : ℂ) • pauliAct (ofVec v) (∑ δ, (pauliAct (onQubit p i) α) δ • run (enc' δ) (ket 0)) := by
        rw [g2, pauliAct_smul, pauliAct_comm, g3, smul_smul, mul_comm]
      have hz1 : Complex.normSq (sgn (symp L (ofVec v)) * z : ℂ) = 1 := by rw [map_mul, normSq_sgn, hz, one_mul]
      have hnext := hall _ (normalised_pauli (onQubit p i) hα) _ hz1 φ
      rw [← mul_assoc] at hnext
      constructor
      · intro hP
        cases hP with
        | logical h1 h2 =>
          rw [g1] at h1
          cases h1
          rw [hrun] at h2
          exact hnext.mp h2
      · intro hφ
        exact Protected.logical g1 (by rw [hrun]; exact hnext.mpr hφ)

/-- **C132, any errors**.  For an accepted code with independent generators, each with an even number of `Y`s, any table and any
sequence of rounds of error correction and logical operators: whatever logical state is encoded, the sequence can be carried out and
leaves the encoding of the logical state with the operators applied, with the operator on it that the rounds alone would leave, up to one
factor of modulus one. -/
theorem C132_any_errors (h : stabInit s c.n k none = .ok c) (hb : BinaryArr c.stab) (hind : Independent c.n c.stab)
    (hY : ∀ a < c.stab.rows, parityY (rowPauli c.n (c.stab.row a)) = 0)
    (table : List (ZMod 2) → List ℤ) (ht : TableFor c.n table) (as : List (Action k)) (has : Named as) :
    ∃ (enc : (Fin k → ZMod 2) → List Gate) (ω : ℂ), (∀ δ, encodingCircuit c c.n (bitsList δ) = .ok (enc δ)) ∧
      Complex.normSq ω = 1 ∧ ∀ α : Amp k, Normalised α → ∀ φ,
        Protected c k table (∑ δ, α δ • run (enc δ) (ket 0)) as φ ↔
          φ = ω • pauliAct (ofVec (leftover c.n c.iter table 0 (errors as))) (∑ δ, meaning as α δ • run (enc δ) (ket 0)) := by
  obtain ⟨enc, f1, -, -⟩ := encoded_family h hb hind
  obtain ⟨ω, hω, hall⟩ := protected_from h hb hind hY f1 ht as has 0
  refine ⟨enc, ω, f1, hω, fun α hα φ => ?_⟩
  have := hall α hα 1 (by simp) φ
  rw [one_smul, mul_one] at this
  rwa [show pauliAct (ofVec (0 : BVec c.n)) (∑ δ, α δ • (run (enc δ) (ket 0) : Amp c.n)) = _ from pauliAct_one _] at this

/-- **C132**.  If the table undoes every error of a set and the errors of the rounds are in the set, the sequence computes: it leaves the
encoding of the logical state with the logical operators applied, times one factor of modulus one, and decoding gives this logical
state times the factor. -/
theorem C132_computes (h : stabInit s c.n k none = .ok c) (hb : BinaryArr c.stab) (hind : Independent c.n c.stab)
    (hY : ∀ a < c.stab.rows, parityY (rowPauli c.n (c.stab.row a)) = 0)
    (table : List (ZMod 2) → List ℤ) (ht : TableFor c.n table) (E : Set (List ℤ)) (hU : Undoes c k E table)
    (as : List (Action k)) (has : Named as) (hes : ∀ e ∈ errors as, e ∈ E) :
    ∃ (enc : (Fin k → ZMod 2) → List Gate) (dec : List Gate) (ω : ℂ),
      (∀ δ, encodingCircuit c c.n (bitsList δ) = .ok (enc δ)) ∧ decodingCircuit c c.n true = .ok dec ∧ Complex.normSq ω = 1 ∧
      ∀ α : Amp k, Normalised α →
        (∃ φ, Protected c k table (∑ δ, α δ • run (enc δ) (ket 0)) as φ) ∧
        ∀ φ, Protected c k table (∑ δ, α δ • run (enc δ) (ket 0)) as φ →
          φ = ω • ∑ δ, meaning as α δ • run (enc δ) (ket 0) ∧
          run dec (tensor φ (ket 0)) = ω • tensor (run (enc 0) (ket 0)) (meaning as α) := by
  obtain ⟨enc, ω, f1, hω, hall⟩ := C132_any_errors h hb hind hY table ht as has
  have hmem : leftover c.n c.iter table 0 (errors as) ∈ groupOf c.n c.iter :=
    leftover_mem h hb hind (fun e he => (C115_table h hb hind hY table ht E).mp hU e (hes e he)) (zero_mem _)
  obtain ⟨t, hg⟩ := group_act _ hmem
  obtain ⟨enc', dec, d1, d2, -, d4⟩ := C15_decoding s c.n k c h hb hind c.n true (Or.inl ⟨rfl, rfl⟩)
  have henc : enc' = enc := by
    funext δ
    have h1 := f1 δ
    rw [d1] at h1
    exact Except.ok.inj h1
  subst henc
  refine ⟨enc', dec, ω * sgn t, d1, d2, by rw [map_mul, hω, normSq_sgn, one_mul], fun α hα => ?_⟩
  have hall' := hall α hα
  refine ⟨⟨_, (hall' _).mpr rfl⟩, fun φ hφ => ?_⟩
  have hφ' := (hall' φ).mp hφ
  rw [hg _ (encoded_fix h hb hind hY ⟨enc', d1, meaning as α, rfl⟩), smul_smul] at hφ'
  refine ⟨hφ', ?_⟩
  rw [hφ', tensor_smul_left, run_smul, d4]
  congr 2
  exact sum_kets _

end

/-- The hypotheses are met: the five-qubit code with errors on single qubits, an X, a Y and a Z with errors in between. -/
example : ∃ c, stabInit (.rows fiveRows) c.n 1 none = .ok c ∧ BinaryArr c.stab ∧ Independent c.n c.stab ∧
    (∀ a < c.stab.rows, parityY (rowPauli c.n (c.stab.row a)) = 0) ∧ ∃ table, TableFor c.n table ∧
    Undoes c 1 {e | e.length = 2 * c.n ∧ IsBinary e ∧ weight (rowPauli c.n e) ≤ 1} table ∧
    Named ([.round [0, 1, 0, 0, 0, 0, 0, 0, 0, 0], .logical 'X' 0, .round [0, 0, 0, 0, 0, 0, 0, 1, 0, 0], .logical 'Y' 0,
      .round [0, 0, 0, 0, 1, 0, 0, 0, 0, 1], .logical 'Z' 0] : List (Action 1)) ∧
    ∀ e ∈ errors ([.round [0, 1, 0, 0, 0, 0, 0, 0, 0, 0], .logical 'X' 0, .round [0, 0, 0, 0, 0, 0, 0, 1, 0, 0], .logical 'Y' 0,
      .round [0, 0, 0, 0, 1, 0, 0, 0, 0, 1], .logical 'Z' 0] : List (Action 1)),
      e ∈ {e : List ℤ | e.length = 2 * c.n ∧ IsBinary e ∧ weight (rowPauli c.n e) ≤ 1} := by
  obtain ⟨c, h1, h2, h3, h4, h5⟩ := five_code
  have hn : c.n = 5 := (accepted_facts h1 h2 h3).1
  rw [← hn] at h1 h3 h4
  obtain ⟨table, ht, hU⟩ := C73_distance (.rows fiveRows) 1 c h1 h2 h3 h4 1 (by rw [hn]; exact five_distance h5)
  refine ⟨c, h1, h2, h3, h4, table, ht, hU, by simp [Named], ?_⟩
  intro e he
  rw [Set.mem_ofPred_eq, hn]
  simp only [errors, List.mem_cons, List.not_mem_nil, or_false] at he
  rcases he with rfl | rfl | rfl <;> exact ⟨rfl, by unfold IsBinary; decide, by decide⟩

end PyQ
