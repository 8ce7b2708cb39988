import Verif.Lemmas.Blocks
import Verif.Lemmas.HaarMoments
import Verif.Props.Concat
import Verif.Props.EndToEnd

/-! # C90: the states of a concatenated code -/

namespace PyQ

open Spec Module

theorem rowPauli_ofVec {n : ℕ} {A : Arr ℤ} (hc : A.cols = 2 * n) (i : ℕ) : rowPauli n (A.row i) = ofVec (rowVec n A i) := by
  rw [← rowPauli_row hc]; rfl

/-- An operator with an odd number of Y's fixes no state. -/
theorem parity_of_fixed {n : ℕ} {p : Pauli n} {ψ : Amp n} (h : pauliAct p ψ = ψ) (h0 : ψ ≠ 0) : parityY p = 0 := by
  by_contra hne
  have h1 : parityY p = 1 := (zmod2_cases _).resolve_left hne
  have h2 := pauliAct_comp p p ψ
  have h3 : p.add p = ⟨0, 0⟩ := by simp [Pauli.add, add_self_f]
  rw [h, h, show dotp p.z p.x = 1 from h1, sgn_one, h3, pauliAct_one, neg_one_smul] at h2
  exact h0 (self_eq_neg.mp h2)

/-- Two operators that fix the same nonzero state commute; so do two operators one of which fixes a state and its image
under the other. -/
theorem symp_of_fixed {n : ℕ} {p q : Pauli n} {ψ : Amp n} (h1 : pauliAct p ψ = ψ) (h2 : pauliAct p (pauliAct q ψ) = pauliAct q ψ)
    (h0 : pauliAct q ψ ≠ 0) : symp p q = 0 := by
  by_contra hne
  have h3 : symp p q = 1 := (zmod2_cases _).resolve_left hne
  have h4 := pauliAct_comm p q ψ
  rw [h1, h2, h3, sgn_one, neg_one_smul] at h4
  exact h0 (self_eq_neg.mp h4)

theorem ne_zero_of_braket {n : ℕ} {ψ : Amp n} (h : braket ψ ψ = 1) : ψ ≠ 0 := by
  rintro rfl
  unfold braket at h
  simp at h

theorem eq_zero_of_braket {n : ℕ} {ψ : Amp n} (h : braket ψ ψ = 0) : ψ = 0 := by
  rw [braket_self] at h
  have h' : ∑ b, Complex.normSq (ψ b) = 0 := by exact_mod_cast h
  rw [Finset.sum_eq_zero_iff_of_nonneg fun b _ => Complex.normSq_nonneg _] at h'
  funext b
  exact Complex.normSq_eq_zero.mp (h' b (Finset.mem_univ b))

/-- **C90**.  Let `c1` be an `[n, k]` code with independent generators with even numbers of Y's, and `c2` an `[m, 1]` code
whose generators fix its two encoded states and whose logical X has no Z part.  If `concatenate_codes` returns a code, then
its generators fix exactly the states obtained from a state fixed by the generators of `c1` by encoding every qubit with
`encoding_circuit` of `c2`; inner products are kept. -/
theorem C90_concatenated_states (s1 s2 : StabInput) (n k m : ℕ) (lo1 : Option (Arr ℤ × Arr ℤ)) (c1 c2 c : StabCode)
    (h1 : stabInit s1 n k lo1 = .ok c1) (h2 : stabInit s2 m 1 none = .ok c2)
    (hr1 : c1.stab.rows + k = n) (hb1 : BinaryArr c1.stab) (hb2 : BinaryArr c2.stab)
    (hi1 : Independent n c1.stab) (hi2 : Independent m c2.stab)
    (hY : ∀ i < c1.stab.rows, parityY (rowPauli n (c1.stab.row i)) = 0)
    (hx : ∀ q < m, c2.logicalX.get 0 (m + q) = 0)
    (hfix : ∀ (δ : Fin 1 → ZMod 2) gs, encodingCircuit c2 m (bitsList δ) = .ok gs → ∀ j < c2.stab.rows,
      pauliAct (rowPauli m (c2.stab.row j)) (run gs (ket 0)) = run gs (ket 0))
    (hc : concatenateCodes c1 c2 = .ok (some c)) :
    ∃ enc : ZMod 2 → List Gate, (∀ t, encodingCircuit c2 m (bitsList fun _ : Fin 1 => t) = .ok (enc t)) ∧
      c.n = n * m ∧ c.stab.rows + k = n * m ∧
      (∀ φ φ' : Amp n, braket (blockEncode (fun t => (run (enc t) (ket 0) : Amp m)) φ)
        (blockEncode (fun t => (run (enc t) (ket 0) : Amp m)) φ') = braket φ φ') ∧
      ∀ ψ : Amp (n * m), (∀ i < c.stab.rows, pauliAct (rowPauli (n * m) (c.stab.row i)) ψ = ψ) ↔
        ∃ φ : Amp n, (∀ i < c1.stab.rows, pauliAct (rowPauli n (c1.stab.row i)) φ = φ) ∧
          ψ = blockEncode (fun t => (run (enc t) (ket 0) : Amp m)) φ := by
  obtain ⟨hn2, hk2, -, hsh2, hX2, hZ2, -⟩ := accepted_facts h2 hb2 hi2
  obtain ⟨x1, x2, z1, z2, xb, zb, -, hll⟩ := C08_logical_operators s2 m 1 c2 h2 hb2 hi2
  obtain ⟨enc, e1, e2, e3⟩ := encoded_family h2 hb2 hi2
  obtain ⟨hA2, -, -, hN2, -⟩ := stabInit_ok h2
  have hc2 := initArray_cols hA2
  have hr2 : c2.stab.rows + 1 = m := by
    rw [← (standardNormalForm_equi hc2 hN2).1.rows]
    exact hsh2.rows
  set w : ZMod 2 → Amp m := fun t => run (enc fun _ => t) (ket 0) with hw
  have wX : ∀ t, pauliAct (ofVec (rowVec m c2.logicalX 0)) (w t) = w (t + 1) := by
    intro t
    rw [← rowPauli_ofVec x2, hw]
    simp only
    rw [e2, e2, hX2, lx_codeword hsh2 (by decide : 0 < 1)]
    congr 1
    funext i
    rw [bitFn_bitsList, bitFn_bitsList]
    by_cases h : i = 0
    · rw [h, Function.update_self]; rfl
    · rw [Function.update_of_ne h, bitFn_bitsList, dif_neg (by omega), dif_neg (by omega)]
  have wZ : ∀ t, pauliAct (ofVec (rowVec m c2.logicalZ 0)) (w t) = (sgn t : ℂ) • w t := by
    intro t
    rw [← rowPauli_ofVec z2, hw]
    simp only
    rw [e2, hZ2, lz_codeword hsh2 (by decide : 0 < 1), bitFn_bitsList]
    rfl
  have wg : ∀ j < c2.stab.rows, ∀ t, pauliAct (ofVec (rowVec m c2.stab j)) (w t) = w t := by
    intro j hj t
    rw [← rowPauli_ofVec hc2]
    exact hfix _ _ (e1 _) j hj
  have wo : ∀ a b, braket (w a) (w b) = if a = b then 1 else 0 := by
    intro a b
    rw [hw]
    simp only
    rw [e3]
    by_cases h : a = b
    · rw [if_pos h, if_pos (by rw [h])]
    · rw [if_neg h, if_neg (fun h' => h (congrFun h' 0))]
  have w0 : ∀ t, w t ≠ 0 := fun t => ne_zero_of_braket (by rw [wo, if_pos rfl])
  have hzx : ∀ q < m, c2.logicalZ.get 0 q = 0 := by
    intro q hq
    rw [hZ2]
    exact lz_x hq
  have hlog : LogicalOf (l := 1) c2.stab.rowList (fun _ => rowVec m c2.logicalX 0) (fun _ => rowVec m c2.logicalZ 0) := by
    have hll0 := hll 0 (by decide) 0 (by decide)
    rw [rowPauli_ofVec x2, rowPauli_ofVec z2] at hll0
    refine ⟨?_, ?_, ?_, ?_, ?_⟩
    · intro g hg a
      obtain ⟨j, hj, rfl⟩ := mem_rowList hg
      rw [rowPauli_row hc2]
      refine symp_of_fixed (p := ofVec (rowVec m c2.stab j)) (q := ofVec (rowVec m c2.logicalX 0)) (wg j hj 0) ?_ ?_
      · rw [wX]; exact wg j hj _
      · rw [wX]; exact w0 _
    · intro g hg a
      obtain ⟨j, hj, rfl⟩ := mem_rowList hg
      rw [rowPauli_row hc2]
      refine symp_of_fixed (p := ofVec (rowVec m c2.stab j)) (q := ofVec (rowVec m c2.logicalZ 0)) (wg j hj 0) ?_ ?_
      · rw [wZ, pauliAct_smul, wg j hj]
      · rw [wZ, sgn_zero, one_smul]; exact w0 _
    · intro a b
      rw [if_pos (Subsingleton.elim a b)]
      exact hll0.1
    · intro a b
      exact hll0.2.1
    · intro a b
      exact hll0.2.2
  obtain ⟨gens, g1, -, -, -, -, -⟩ := C21_generators s1 s2 n k m lo1 none c1 c2 h1 h2 hr1 hr2 hb1 hb2 (by omega) (by omega) xb zb
    x2 z2 hx hzx hlog
  obtain ⟨A, a1, a2, a3, a4⟩ := C21_code s1 s2 n k m lo1 none c1 c2 h1 h2 hr1 hr2 hb1 hb2 hi1 hi2 (by omega) (by omega) xb zb
    x2 z2 hx hzx hlog
  have hrank : xRankQ (n * m) A = xRank2 (n * m) A := by
    by_contra h
    rw [a4 h] at hc
    cases hc
  obtain ⟨c', d1, d2, -, d4, -, d6⟩ := a3 hrank
  rw [hc] at d1
  obtain rfl : c = c' := by injection d1 with d1; injection d1
  have hsc : stabInit (.rows gens) (n * m) k none = .ok c := by
    rw [hc] at g1
    rcases hs : stabInit (.rows gens) (n * m) k none with e | c0
    · rw [hs] at g1; cases g1
    · rw [hs] at g1
      injection g1 with g1
      injection g1 with g1
      rw [g1]
  obtain ⟨hAc, hcomc, -⟩ := stabInit_ok hsc
  obtain ⟨hA1, hcom1, -⟩ := stabInit_ok h1
  have hcc := initArray_cols hAc
  have hc1 := initArray_cols hA1
  subst d4
  refine ⟨fun t => enc fun _ => t, fun t => e1 _, d2, a1, braket_blockEncode w wo, ?_⟩
  -- the generators of the concatenated code fix the encoded state iff those of the outer code fix the state
  have hV : ∀ φ : Amp n, (∀ i < c.stab.rows, pauliAct (ofVec (rowVec (n * m) c.stab i)) (blockEncode w φ) = blockEncode w φ) ↔
      ∀ i < c1.stab.rows, pauliAct (ofVec (rowVec n c1.stab i)) φ = φ := by
    intro φ
    have hall : (∀ i < c.stab.rows, pauliAct (ofVec (rowVec (n * m) c.stab i)) (blockEncode w φ) = blockEncode w φ) ↔
        ∀ v ∈ (List.range c.stab.rows).map (rowVec (n * m) c.stab), pauliAct (ofVec v) (blockEncode w φ) = blockEncode w φ := by
      simp
    rw [hall, a2]
    have hsub := fun i => pauliAct_substituted w (rowVec m c2.logicalX 0) (rowVec m c2.logicalZ 0)
      (by
        funext q
        show ((c2.logicalX.get 0 (m + q) : ℤ) : ZMod 2) = 0
        rw [hx q q.2, Int.cast_zero]) wX wZ (rowVec n c1.stab i) φ
    constructor
    · intro h i hi
      have h3 := h _ (List.mem_append_right _ (List.mem_map.mpr ⟨i, List.mem_range.mpr hi, rfl⟩))
      rw [hsub] at h3
      have h4 : blockEncode w (pauliAct (ofVec (rowVec n c1.stab i)) φ + (-1 : ℂ) • φ) = 0 := by
        rw [blockEncode_add, blockEncode_smul, h3, neg_one_smul, add_neg_cancel]
      have h5 := braket_blockEncode w wo (pauliAct (ofVec (rowVec n c1.stab i)) φ + (-1 : ℂ) • φ)
        (pauliAct (ofVec (rowVec n c1.stab i)) φ + (-1 : ℂ) • φ)
      rw [h4] at h5
      have h6 := eq_zero_of_braket (h5.symm.trans (by unfold braket; simp))
      rw [neg_one_smul, ← sub_eq_add_neg] at h6
      exact sub_eq_zero.mp h6
    · intro h v hv
      rcases List.mem_append.mp hv with hv | hv
      · obtain ⟨b, -, hv⟩ := List.mem_flatMap.mp hv
        obtain ⟨j, hj, rfl⟩ := List.mem_map.mp hv
        exact pauliAct_inBlock w _ (wg j (List.mem_range.mp hj)) b φ
      · obtain ⟨i, hi, rfl⟩ := List.mem_map.mp hv
        rw [hsub, h i (List.mem_range.mp hi)]
  -- dimensions
  set ps : Fin c.stab.rows → Pauli (n * m) := fun i => ofVec (rowVec (n * m) c.stab i) with hps
  set ps1 : Fin c1.stab.rows → Pauli n := fun i => ofVec (rowVec n c1.stab i) with hps1
  have mem1 : ∀ φ : Amp n, φ ∈ fixedSpace ps1 ↔ ∀ i < c1.stab.rows, pauliAct (ofVec (rowVec n c1.stab i)) φ = φ := by
    intro φ
    rw [mem_fixedSpace]
    exact ⟨fun h i hi => h ⟨i, hi⟩, fun h i => h i i.2⟩
  have mem : ∀ ψ : Amp (n * m), ψ ∈ fixedSpace ps ↔ ∀ i < c.stab.rows, pauliAct (ofVec (rowVec (n * m) c.stab i)) ψ = ψ := by
    intro ψ
    rw [mem_fixedSpace]
    exact ⟨fun h i hi => h ⟨i, hi⟩, fun h i => h i i.2⟩
  have hdim1 : finrank ℂ (fixedSpace ps1) = 2 ^ k := by
    have h := fixed_finrank ps1 (fun i j => hcom1 i i.2 j j.2)
      (fun i => by have h := hY i i.2; rw [rowPauli_ofVec hc1] at h; exact h) hi1
    rw [show 2 ^ n = 2 ^ k * 2 ^ c1.stab.rows by rw [← pow_add]; congr 1; omega] at h
    exact Nat.eq_of_mul_eq_mul_right (by positivity) h
  -- a state of the concatenated code
  obtain ⟨φ0, hφ0, hne⟩ : ∃ φ ∈ fixedSpace ps1, φ ≠ 0 := by
    apply Submodule.exists_mem_ne_zero_of_ne_bot
    intro hbot
    rw [hbot, finrank_bot] at hdim1
    exact absurd hdim1.symm (by positivity)
  have hVne : blockEncode w φ0 ≠ 0 := by
    intro h0
    have h5 := braket_blockEncode w wo φ0 φ0
    rw [h0] at h5
    exact hne (eq_zero_of_braket (h5.symm.trans (by unfold braket; simp)))
  have hdim : finrank ℂ (fixedSpace ps) = 2 ^ k := by
    have h := fixed_finrank ps (fun i j => hcomc i i.2 j j.2)
      (fun i => parity_of_fixed ((hV φ0).mpr ((mem1 φ0).mp hφ0) i i.2) hVne) d6
    rw [show 2 ^ (n * m) = 2 ^ k * 2 ^ c.stab.rows by rw [← pow_add]; congr 1; omega] at h
    exact Nat.eq_of_mul_eq_mul_right (by positivity) h
  let V : fixedSpace ps1 →ₗ[ℂ] fixedSpace ps :=
    { toFun := fun φ => ⟨blockEncode w φ.1, (mem _).mpr ((hV φ.1).mpr ((mem1 _).mp φ.2))⟩
      map_add' := fun φ φ' => Subtype.ext (blockEncode_add w φ.1 φ'.1)
      map_smul' := fun a φ => Subtype.ext (blockEncode_smul w a φ.1) }
  have hinj : Function.Injective V := by
    rw [← LinearMap.ker_eq_bot, LinearMap.ker_eq_bot']
    intro φ hφ
    have h0 : blockEncode w φ.1 = 0 := congrArg Subtype.val hφ
    have h5 := braket_blockEncode w wo φ.1 φ.1
    rw [h0] at h5
    exact Subtype.ext (eq_zero_of_braket (h5.symm.trans (by unfold braket; simp)))
  have hsurj : Function.Surjective V :=
    (LinearMap.injective_iff_surjective_of_finrank_eq_finrank (by rw [hdim1, hdim])).mp hinj
  intro ψ
  simp only [rowPauli_ofVec hcc, rowPauli_ofVec hc1]
  constructor
  · intro h
    obtain ⟨φ, hφ⟩ := hsurj ⟨ψ, (mem ψ).mpr h⟩
    exact ⟨φ.1, (mem1 _).mp φ.2, (congrArg Subtype.val hφ).symm⟩
  · rintro ⟨φ, h, rfl⟩
    exact (hV φ).mpr h

/-- The generator XX fixes the encoded states of its code. -/
theorem codeXX_fix {c : StabCode} (h : stabInit (.rows [[1, 1, 0, 0]]) 2 1 none = .ok c) (δ : Fin 1 → ZMod 2) (gs : List Gate)
    (hg : encodingCircuit c 2 (bitsList δ) = .ok gs) (j : ℕ) (hj : j < c.stab.rows) :
    pauliAct (rowPauli 2 (c.stab.row j)) (run gs (ket 0)) = run gs (ket 0) := by
  obtain ⟨c', h1, h2, h3, h4, h5, h6⟩ := concrete_code (l := [[1, 1, 0, 0]]) (n := 2) (k := 1)
    (r := 1) (e := 0) (by decide) (by decide) (by decide) (by unfold IsBinary; decide) (by decide)
    (independent_cert _ (fun j a => if j = 0 ∧ a = 0 then 1 else 0) (by decide))
    (fun F _ => rank_cert (M := Matrix.of fun (i : Fin 1) (j : Fin 2) => (Arr.ofRows (2 * 2) [[1, 1, 0, 0]]).get i j)
      !![1] !![1, 1] !![1] !![1; 0] (by decide) (by decide) F)
    (Or.inl rfl)
  rw [if_pos (by decide)] at h6
  rw [h] at h1
  obtain rfl : c = c' := by injection h1
  have hj0 : j = 0 := by
    rw [h4] at hj
    have : j < 1 := hj
    omega
  subst hj0
  have hrow : c.stab.row 0 = [1, 1, 0, 0] := by rw [h4]; decide
  obtain ⟨gs', g1, g2⟩ := C13_even_generators_rows_fix _ 2 1 c h h2 h3 (by
    intro a ha
    rw [h4] at ha ⊢
    have : a < 1 := ha
    interval_cases a
    decide) (bitsList δ) (bitsList_length δ) (bitsList_binary δ)
  rw [hg] at g1
  obtain rfl : gs = gs' := by injection g1
  refine g2 _ ?_
  rw [hrow, iter_mem]
  rw [h6]
  exact ⟨0, by decide, by decide⟩

/-- The hypotheses of C90 are met by YY concatenated with XX. -/
example : ∃ c1 c2 c : StabCode, stabInit (.rows [[1, 1, 1, 1]]) 2 1 none = .ok c1 ∧
    stabInit (.rows [[1, 1, 0, 0]]) 2 1 none = .ok c2 ∧ c1.stab.rows + 1 = 2 ∧ BinaryArr c1.stab ∧ BinaryArr c2.stab ∧
    Independent 2 c1.stab ∧ Independent 2 c2.stab ∧ (∀ i < c1.stab.rows, parityY (rowPauli 2 (c1.stab.row i)) = 0) ∧
    (∀ q < 2, c2.logicalX.get 0 (2 + q) = 0) ∧
    (∀ (δ : Fin 1 → ZMod 2) gs, encodingCircuit c2 2 (bitsList δ) = .ok gs → ∀ j < c2.stab.rows,
      pauliAct (rowPauli 2 (c2.stab.row j)) (run gs (ket 0)) = run gs (ket 0)) ∧
    concatenateCodes c1 c2 = .ok (some c) := by
  obtain ⟨c1, c2, c, p1, q1, r1, -⟩ := concat_YY_XX
  obtain ⟨c1', p1', p2, p3, p4⟩ := codeYY
  obtain ⟨c2', q1', q2, q3, q4, qx, -⟩ := codeXX
  rw [p1] at p1'
  rw [q1] at q1'
  obtain rfl : c1 = c1' := by injection p1'
  obtain rfl : c2 = c2' := by injection q1'
  obtain ⟨-, x2, -⟩ := C08_logical_operators _ 2 1 c2 q1 q2 q3
  refine ⟨c1, c2, c, p1, q1, by rw [p4]; rfl, p2, q2, p3, q3, ?_, ?_, fun δ gs hg j hj => codeXX_fix q1 δ gs hg j hj, r1⟩
  · intro i hi
    rw [p4] at hi ⊢
    have : i < 1 := hi
    interval_cases i
    decide
  · intro q hq
    have : c2.logicalX.get 0 (2 + q) = (c2.logicalX.row 0).getD (2 + q) 0 := by
      simp [Arr.row, x2, show 2 + q < 4 by omega]
    rw [this, qx]
    interval_cases q <;> rfl

end PyQ
