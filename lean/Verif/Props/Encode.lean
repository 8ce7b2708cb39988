import Verif.Lemmas.Group
import Verif.Lemmas.Examples

/-! # C11, C12, C13: the encoding circuit

All theorems are about codes constructed with the default logical operators from independent 0/1 generators. -/

namespace PyQ

open Spec

/-- What is known of an accepted code. -/
theorem accepted_facts {s : StabInput} {n k : ℕ} {c : StabCode} (h : stabInit s n k none = .ok c)
    (hb : BinaryArr c.stab) (hind : Independent n c.stab) :
    c.n = n ∧ c.k = k ∧ c.stab.rows = c.normalForm.rows ∧ NormalShape n k c.rank c.normalForm ∧
      c.logicalX = logicalXOf n k c.rank c.normalForm ∧ c.logicalZ = logicalZOf n k c.rank c.normalForm ∧
      Commuting n c.normalForm := by
  obtain ⟨h1, h2, h3⟩ := accepted_logical h hb hind
  obtain ⟨hA, hcom, -, hN, hn, hk, -⟩ := stabInit_ok h
  obtain ⟨e, -⟩ := standardNormalForm_equi (initArray_cols hA) hN
  exact ⟨hn, hk, e.rows.symm, h1, h2, h3, e.commuting hcom⟩

/-- **C11**.  `encoding_circuit` on a register of `n` qubits and `k` bits `δ` succeeds; all its gates act inside the
register; applied to `|0...0⟩` they give `2^(-r/2) ∏_{i<r} (1 + g_i) |0^r, E δ, δ⟩`. -/
theorem C11_encoding_closed_form (s : StabInput) (n k : ℕ) (c : StabCode) (h : stabInit s n k none = .ok c)
    (hb : BinaryArr c.stab) (hind : Independent n c.stab) (δ : List ℤ) (hlen : δ.length = k) (hδ : IsBinary δ) :
    ∃ gs, encodingCircuit c n δ = .ok gs ∧ (∀ g ∈ gs, g.WF n) ∧
      run gs (ket 0) = codeword n k c.rank c.normalForm (bitFn δ) := by
  obtain ⟨hn, hk, hst, hsh, hX, -, -⟩ := accepted_facts h hb hind
  obtain ⟨gs, h1, h2, h3, -⟩ := encoding_ok hn hk hst hsh hX δ hlen hδ
  exact ⟨gs, h1, h2, h3⟩

/-- **C12**.  The encoded basis states are orthonormal: the inner product of the states encoded from `δ` and from `δ'` is
one if `δ = δ'` and zero otherwise. -/
theorem C12_encoding_isometry (s : StabInput) (n k : ℕ) (c : StabCode) (h : stabInit s n k none = .ok c)
    (hb : BinaryArr c.stab) (hind : Independent n c.stab) (δ δ' : List ℤ) (hlen : δ.length = k) (hδ : IsBinary δ)
    (hlen' : δ'.length = k) (hδ' : IsBinary δ') :
    ∃ gs gs', encodingCircuit c n δ = .ok gs ∧ encodingCircuit c n δ' = .ok gs' ∧
      braket (run gs (ket 0) : Amp n) (run gs' (ket 0)) = if δ = δ' then 1 else 0 := by
  obtain ⟨hn, hk, hst, hsh, hX, -, -⟩ := accepted_facts h hb hind
  obtain ⟨gs, h1, h2, -, rest, hgs, hrest⟩ := encoding_ok hn hk hst hsh hX δ hlen hδ
  have hr := hsh.rows
  refine ⟨gs, _, h1, hrest δ' hlen' hδ', ?_⟩
  subst hgs
  rw [run_append, run_append, run_unitary rest (fun g hg => h2 g (by simp [hg])), run_prepG (n - k) 0 δ hδ (by omega),
    run_prepG (n - k) 0 δ' hδ' (by omega), braket_ket]
  congr 1
  rw [eq_iff_iff]
  constructor
  · intro heq
    apply List.ext_getElem (by omega)
    intro i hi hi'
    have hv := congrFun heq ⟨n - k + i, by omega⟩
    simp only [Nat.add_zero, Nat.le_add_right, if_true, Pi.zero_apply, zero_add, Nat.add_sub_cancel_left] at hv
    rw [List.getD_eq_getElem _ _ hi, List.getD_eq_getElem _ _ hi'] at hv
    rcases hδ _ (List.getElem_mem hi) with e | e <;> rcases hδ' _ (List.getElem_mem hi') with e' | e' <;>
      rw [e, e'] at hv ⊢
    · exact absurd hv (by decide)
    · exact absurd hv (by decide)
  · rintro rfl; rfl

/-- **C13 (a)**.  Every row of the normal form (what iteration over the code yields) with an even number of Y's fixes every
encoded state. -/
theorem C13_normal_form_rows_fix (s : StabInput) (n k : ℕ) (c : StabCode) (h : stabInit s n k none = .ok c)
    (hb : BinaryArr c.stab) (hind : Independent n c.stab)
    (δ : List ℤ) (hlen : δ.length = k) (hδ : IsBinary δ) :
    ∃ gs, encodingCircuit c n δ = .ok gs ∧
      ∀ g ∈ c.iter, parityY (rowPauli n g) = 0 → pauliAct (rowPauli n g) (run gs (ket 0)) = run gs (ket 0) := by
  obtain ⟨gs, h1, -, h3⟩ := C11_encoding_closed_form s n k c h hb hind δ hlen hδ
  obtain ⟨-, -, -, hsh, -, -, hcom⟩ := accepted_facts h hb hind
  refine ⟨gs, h1, ?_⟩
  intro g hg hY
  simp only [StabCode.iter, List.mem_map, List.mem_range] at hg
  obtain ⟨a, ha, rfl⟩ := hg
  rw [h3]
  exact row_fixes hsh hcom ha hY _

/-- **C13 (a')**.  If all generators given have an even number of Y's, so have all rows of the normal form, and every
encoded state is fixed by all of them. -/
theorem C13_even_generators_rows_fix (s : StabInput) (n k : ℕ) (c : StabCode) (h : stabInit s n k none = .ok c)
    (hb : BinaryArr c.stab) (hind : Independent n c.stab)
    (hY : ∀ a < c.stab.rows, parityY (rowPauli n (c.stab.row a)) = 0)
    (δ : List ℤ) (hlen : δ.length = k) (hδ : IsBinary δ) :
    ∃ gs, encodingCircuit c n δ = .ok gs ∧ ∀ g ∈ c.iter, pauliAct (rowPauli n g) (run gs (ket 0)) = run gs (ket 0) := by
  obtain ⟨gs, h1, h2⟩ := C13_normal_form_rows_fix s n k c h hb hind δ hlen hδ
  refine ⟨gs, h1, fun g hg => h2 g hg ?_⟩
  -- the parity of Y's on the normal form
  obtain ⟨σ, hσ⟩ := (C06_normal_form_same_group s n k none c h).1
  have hmem : (rowPauli n g).vec ∈ groupOf n c.iter :=
    mem_groupOf hg
  rw [hσ] at hmem
  obtain ⟨u, hu, hu2⟩ := Submodule.mem_map.mp hmem
  obtain ⟨hA, hcomA, -⟩ := stabInit_ok h
  have hc := initArray_cols hA
  have hev := group_evenY (rows := (List.range c.stab.rows).map c.stab.row) (n := n) (by
    intro p hp q hq
    simp only [List.mem_map, List.mem_range] at hp hq
    obtain ⟨i, hi, rfl⟩ := hp
    obtain ⟨j, hj, rfl⟩ := hq
    rw [← sympV_vec, rowPauli_row hc, rowPauli_row hc]
    exact hcomA i hi j hj) (by
    intro p hp
    simp only [List.mem_map, List.mem_range] at hp
    obtain ⟨i, hi, rfl⟩ := hp
    exact hY i hi) u hu
  have := dotp_relabel σ u u
  rw [hev] at this
  have e : relabel σ u = (rowPauli n g).vec := hu2
  rw [e] at this
  exact this

/-- **C13 (b), partial**.  For generators with even numbers of Y's every encoded state is an eigenvector, with eigenvalue
`+1` or `-1`, of every generator given, after the relabelling of the qubits used by the elimination.  Missing for C13:
the eigenvalue `+1` (see `C13_sign_refuted`), the original labels (see `C13_relabelling_refuted`). -/
theorem C13_generators_eigen_partial (s : StabInput) (n k : ℕ) (c : StabCode) (h : stabInit s n k none = .ok c)
    (hb : BinaryArr c.stab) (hind : Independent n c.stab)
    (hY : ∀ a < c.stab.rows, parityY (rowPauli n (c.stab.row a)) = 0)
    (δ : List ℤ) (hlen : δ.length = k) (hδ : IsBinary δ) :
    ∃ gs, encodingCircuit c n δ = .ok gs ∧ ∃ σ : Equiv.Perm (Fin n),
      groupOf n c.iter = (groupOf n ((List.range c.stab.rows).map c.stab.row)).map (relabel σ).toLinearMap ∧
      ∀ a < c.stab.rows, ∃ t : ZMod 2,
        pauliAct (ofVec (relabel σ (rowPauli n (c.stab.row a)).vec)) (run gs (ket 0)) = (sgn t : ℂ) • run gs (ket 0) := by
  obtain ⟨gs, h1, h2⟩ := C13_even_generators_rows_fix s n k c h hb hind hY δ hlen hδ
  obtain ⟨σ, hσ⟩ := (C06_normal_form_same_group s n k none c h).1
  refine ⟨gs, h1, σ, hσ, ?_⟩
  intro a ha
  apply group_eigen h2
  rw [hσ]
  exact Submodule.mem_map_of_mem (mem_groupOf (List.mem_map_of_mem (List.mem_range.mpr ha)))

/-- **C13 (c), partial**.  If every generator given is a product of X's only or of Z's only, every encoded state is fixed
by every generator given, after the relabelling of the qubits used by the elimination. -/
theorem C13_css_fixed_partial (s : StabInput) (n k : ℕ) (c : StabCode) (h : stabInit s n k none = .ok c)
    (hb : BinaryArr c.stab) (hind : Independent n c.stab)
    (hcss : ∀ a < c.stab.rows, (rowPauli n (c.stab.row a)).x = 0 ∨ (rowPauli n (c.stab.row a)).z = 0)
    (δ : List ℤ) (hlen : δ.length = k) (hδ : IsBinary δ) :
    ∃ gs, encodingCircuit c n δ = .ok gs ∧ ∃ σ : Equiv.Perm (Fin n),
      groupOf n c.iter = (groupOf n ((List.range c.stab.rows).map c.stab.row)).map (relabel σ).toLinearMap ∧
      ∀ a < c.stab.rows,
        pauliAct (ofVec (relabel σ (rowPauli n (c.stab.row a)).vec)) (run gs (ket 0)) = run gs (ket 0) := by
  have hY : ∀ a < c.stab.rows, parityY (rowPauli n (c.stab.row a)) = 0 := by
    intro a ha
    unfold parityY
    rcases hcss a ha with e | e <;> rw [e] <;> simp
  obtain ⟨gs, h1, h2⟩ := C13_even_generators_rows_fix s n k c h hb hind hY δ hlen hδ
  obtain ⟨σ, hσ⟩ := (C06_normal_form_same_group s n k none c h).1
  refine ⟨gs, h1, σ, hσ, ?_⟩
  obtain ⟨hA, hcomA, -⟩ := stabInit_ok h
  have hc := initArray_cols hA
  -- Z parts never meet X parts in the group given, hence in the normal form
  have hzx := group_zx (rows := (List.range c.stab.rows).map c.stab.row) (n := n) (by
    intro p hp q hq
    simp only [List.mem_map, List.mem_range] at hp hq
    obtain ⟨i, hi, rfl⟩ := hp
    obtain ⟨j, hj, rfl⟩ := hq
    have hs := hcomA i hi j hj
    rw [← rowPauli_row hc, ← rowPauli_row hc, sympV_vec] at hs
    unfold symp at hs
    rcases hcss i hi with e | e
    · rw [e, dotp_zero_left, zero_add] at hs; exact hs
    · rw [e, dotp_zero_left])
  have hzx' : ∀ p ∈ c.iter, ∀ q ∈ c.iter, dotp (rowPauli n p).z (rowPauli n q).x = 0 := by
    intro p hp q hq
    have m1 := mem_groupOf (n := n) hp
    have m2 := mem_groupOf (n := n) hq
    rw [hσ] at m1 m2
    obtain ⟨u, hu, hu2⟩ := Submodule.mem_map.mp m1
    obtain ⟨v, hv, hv2⟩ := Submodule.mem_map.mp m2
    have e1 : relabel σ u = (rowPauli n p).vec := hu2
    have e2 : relabel σ v = (rowPauli n q).vec := hv2
    have := dotp_relabel σ u v
    rw [hzx u hu v hv, e1, e2] at this
    exact this
  intro a ha
  apply group_fixed hzx' h2
  rw [hσ]
  exact Submodule.mem_map_of_mem (mem_groupOf (List.mem_map_of_mem (List.mem_range.mpr ha)))

/-- **C13, no relabelling**.  If the normal form generates the same group as the generators given, the two statements hold
for the generators themselves: eigenvectors with eigenvalue a sign, and `+1` for generators of X's only or of Z's only. -/
theorem C13_same_group_partial (s : StabInput) (n k : ℕ) (c : StabCode) (h : stabInit s n k none = .ok c)
    (hb : BinaryArr c.stab) (hind : Independent n c.stab)
    (hsame : groupOf n c.iter = groupOf n ((List.range c.stab.rows).map c.stab.row))
    (hY : ∀ a < c.stab.rows, parityY (rowPauli n (c.stab.row a)) = 0)
    (δ : List ℤ) (hlen : δ.length = k) (hδ : IsBinary δ) :
    ∃ gs, encodingCircuit c n δ = .ok gs ∧
      (∀ a < c.stab.rows, ∃ t : ZMod 2,
        pauliAct (rowPauli n (c.stab.row a)) (run gs (ket 0)) = (sgn t : ℂ) • run gs (ket 0)) ∧
      ((∀ a < c.stab.rows, (rowPauli n (c.stab.row a)).x = 0 ∨ (rowPauli n (c.stab.row a)).z = 0) →
        ∀ a < c.stab.rows, pauliAct (rowPauli n (c.stab.row a)) (run gs (ket 0)) = run gs (ket 0)) := by
  obtain ⟨gs, h1, h2⟩ := C13_even_generators_rows_fix s n k c h hb hind hY δ hlen hδ
  have hmem : ∀ a < c.stab.rows, (rowPauli n (c.stab.row a)).vec ∈ groupOf n c.iter := by
    intro a ha
    rw [hsame]
    exact mem_groupOf (List.mem_map_of_mem (List.mem_range.mpr ha))
  refine ⟨gs, h1, ?_, ?_⟩
  · intro a ha
    have := group_eigen h2 _ (hmem a ha)
    rw [ofVec_vec] at this
    exact this
  intro hcss a ha
  obtain ⟨hA, hcomA, -⟩ := stabInit_ok h
  have hc := initArray_cols hA
  have hzx := group_zx (rows := (List.range c.stab.rows).map c.stab.row) (n := n) (by
    intro p hp q hq
    simp only [List.mem_map, List.mem_range] at hp hq
    obtain ⟨i, hi, rfl⟩ := hp
    obtain ⟨j, hj, rfl⟩ := hq
    have hs := hcomA i hi j hj
    rw [← rowPauli_row hc, ← rowPauli_row hc, sympV_vec] at hs
    unfold symp at hs
    rcases hcss i hi with e | e
    · rw [e, dotp_zero_left, zero_add] at hs; exact hs
    · rw [e, dotp_zero_left])
  have hzx' : ∀ p ∈ c.iter, ∀ q ∈ c.iter, dotp (rowPauli n p).z (rowPauli n q).x = 0 := by
    intro p hp q hq
    have m1 := mem_groupOf (n := n) hp
    have m2 := mem_groupOf (n := n) hq
    rw [hsame] at m1 m2
    exact hzx _ m1 _ m2
  have := group_fixed hzx' h2 _ (hmem a ha)
  rw [ofVec_vec] at this
  exact this

/-! ### Examples and counterexamples for C11, C12, C13 -/

/-- The `[[4,2]]` code XXXX, ZZZZ meets the hypotheses of all theorems above, including those of `C13_same_group_partial`. -/
example : ∃ c, stabInit (.rows [[1, 1, 1, 1, 0, 0, 0, 0], [0, 0, 0, 0, 1, 1, 1, 1]]) 4 2 none = .ok c ∧
    BinaryArr c.stab ∧ Independent 4 c.stab ∧
    groupOf 4 c.iter = groupOf 4 ((List.range c.stab.rows).map c.stab.row) ∧
    (∀ a < c.stab.rows, parityY (rowPauli 4 (c.stab.row a)) = 0) ∧
    (∀ a < c.stab.rows, (rowPauli 4 (c.stab.row a)).x = 0 ∨ (rowPauli 4 (c.stab.row a)).z = 0) ∧
    ([1, 0] : List ℤ).length = 2 ∧ IsBinary [1, 0] := by
  obtain ⟨c, h1, h2, h3, -, h4, h5, h6, h7, h8, h9⟩ := code422
  have hall : ∀ P : List ℤ → Prop, P [1, 1, 1, 1, 0, 0, 0, 0] → P [0, 0, 0, 0, 1, 1, 1, 1] → ∀ a < c.stab.rows, P (c.stab.row a) := by
    intro P p0 p1 a ha
    rw [h4] at ha
    match a, ha with
    | 0, _ => rw [h5]; exact p0
    | 1, _ => rw [h6]; exact p1
  refine ⟨c, h1, h2, h3, ?_, ?_, ?_, rfl, by unfold IsBinary; decide⟩
  · have e : c.iter = (List.range c.stab.rows).map c.stab.row := by
      unfold StabCode.iter
      rw [h7, h4]
      simp only [List.range_succ, List.range_zero, List.nil_append, List.map_append, List.map_cons, List.map_nil]
      rw [h5, h6, h8, h9]
    rw [e]
  · exact hall (fun l => parityY (rowPauli 4 l) = 0) (by decide) (by decide)
  · exact hall (fun l => (rowPauli 4 l).x = 0 ∨ (rowPauli 4 l).z = 0) (by decide) (by decide)

/-- An operator anticommuting with one that has `ψ` as a ±1 eigenvector does not have `ψ` as an eigenvector. -/
theorem not_eigen {n : ℕ} {a p : Pauli n} {ψ : Amp n} (hψ : ψ ≠ 0) {s : ZMod 2} (ha : pauliAct a ψ = (sgn s : ℂ) • ψ)
    (hs : symp a p = 1) (t : ℂ) : pauliAct p ψ ≠ t • ψ := by
  intro hp
  have h1 : pauliAct a (pauliAct p ψ) = (t * sgn s) • ψ := by rw [hp, pauliAct_smul, ha, smul_smul]
  have h2 : pauliAct p (pauliAct a ψ) = (t * sgn s) • ψ := by rw [ha, pauliAct_smul, hp, smul_smul, mul_comm]
  rw [pauliAct_comm, hs, h2, sgn_one, neg_smul, one_smul] at h1
  have h3 : (t * (sgn s : ℂ)) • ψ = 0 := by
    have : (2 : ℂ) • ((t * (sgn s : ℂ)) • ψ) = 0 := by
      rw [two_smul]; nth_rewrite 1 [← h1]; exact neg_add_cancel _
    exact (smul_eq_zero.mp this).resolve_left (by norm_num)
  have h4 : t * (sgn s : ℂ) = 0 := (smul_eq_zero.mp h3).resolve_right hψ
  have hne : (sgn s : ℂ) ≠ 0 := by rcases zmod2_cases s with rfl | rfl <;> simp
  have ht : t = 0 := (mul_eq_zero.mp h4).resolve_right hne
  rw [ht, zero_smul] at hp
  have h5 : pauliAct p (pauliAct p ψ) = 0 := by
    rw [hp]
    have := pauliAct_smul p (0 : ℂ) ψ
    rwa [zero_smul, zero_smul] at this
  rw [pauliAct_comp] at h5
  have h6 : p.add p = ⟨0, 0⟩ := by
    show (⟨p.x + p.x, p.z + p.z⟩ : Pauli n) = _
    rw [add_self_f, add_self_f]
  rw [h6, pauliAct_one] at h5
  have hne' : (sgn (dotp p.z p.x) : ℂ) ≠ 0 := by rcases zmod2_cases (dotp p.z p.x) with e | e <;> rw [e] <;> simp
  exact hψ ((smul_eq_zero.mp h5).resolve_left hne')

theorem encoded_ne_zero {s : StabInput} {n k : ℕ} {c : StabCode} (h : stabInit s n k none = .ok c)
    (hb : BinaryArr c.stab) (hind : Independent n c.stab) {δ : List ℤ} (hlen : δ.length = k) (hδ : IsBinary δ)
    {gs : List Gate} (hg : encodingCircuit c n δ = .ok gs) : (run gs (ket 0) : Amp n) ≠ 0 := by
  obtain ⟨gs1, gs2, h1, h2, h3⟩ := C12_encoding_isometry s n k c h hb hind δ δ hlen hδ hlen hδ
  rw [hg] at h1 h2
  cases h1; cases h2
  intro h0
  rw [h0, if_pos rfl] at h3
  unfold braket at h3
  simp at h3

/-- **C13 refuted (labels)**.  The code of the single generator IXX (no Y's) on three qubits is accepted; the state encoded
from `00` is not an eigenvector of IXX at all: it belongs to the code of XXI. -/
theorem C13_relabelling_refuted :
    ∃ c gs, stabInit (.rows [[0, 1, 1, 0, 0, 0]]) 3 2 none = .ok c ∧ BinaryArr c.stab ∧ Independent 3 c.stab ∧
      c.stab.row 0 = [0, 1, 1, 0, 0, 0] ∧ encodingCircuit c 3 [0, 0] = .ok gs ∧
      ∀ t : ℂ, pauliAct (rowPauli 3 (c.stab.row 0)) (run gs (ket 0)) ≠ t • run gs (ket 0) := by
  obtain ⟨c, h1, h2, h3, h4, h5, h6⟩ := C09_refuted
  have hbin : IsBinary [0, 0] := by unfold IsBinary; decide
  obtain ⟨gs, g1, -, g3⟩ := C11_encoding_closed_form _ 3 2 c h1 h2 h3 [0, 0] rfl hbin
  obtain ⟨-, -, -, hsh, -, hZ, -⟩ := accepted_facts h1 h2 h3
  refine ⟨c, gs, h1, h2, h3, h4, g1, ?_⟩
  intro t
  refine not_eigen (encoded_ne_zero h1 h2 h3 rfl hbin g1) (a := rowPauli 3 (c.logicalZ.row 0)) (s := bitFn [0, 0] 0) ?_ h6 t
  rw [g3, hZ]
  exact lz_codeword hsh (by omega) _

/-- **C13 refuted (sign)**.  The code of XZII and YYYY is accepted without moving qubits, but every encoded state is an
eigenvector of YYYY with eigenvalue `-1`: the state is outside the code. -/
theorem C13_sign_refuted :
    ∃ c, stabInit (.rows [[1, 0, 0, 0, 0, 1, 0, 0], [1, 1, 1, 1, 1, 1, 1, 1]]) 4 2 none = .ok c ∧ BinaryArr c.stab ∧
      Independent 4 c.stab ∧ c.stab.row 1 = [1, 1, 1, 1, 1, 1, 1, 1] ∧
      ∀ δ : List ℤ, δ.length = 2 → IsBinary δ → ∃ gs, encodingCircuit c 4 δ = .ok gs ∧
        pauliAct (rowPauli 4 (c.stab.row 1)) (run gs (ket 0)) = -run gs (ket 0) ∧ (run gs (ket 0) : Amp 4) ≠ 0 := by
  obtain ⟨c, h1, h2, h3, h4, h5, h6, h7, h8, h9, h10⟩ := codeSign
  refine ⟨c, h1, h2, h3, h7, ?_⟩
  intro δ hlen hδ
  obtain ⟨gs, g1, g2⟩ := C13_normal_form_rows_fix _ 4 2 c h1 h2 h3 δ hlen hδ
  refine ⟨gs, g1, ?_, encoded_ne_zero h1 h2 h3 hlen hδ g1⟩
  have m : ∀ a < 2, c.normalForm.row a ∈ c.iter := by
    intro a ha
    unfold StabCode.iter
    rw [h8]
    exact List.mem_map_of_mem (List.mem_range.mpr ha)
  have f0 := g2 _ (m 0 (by omega)) (by rw [h9]; decide)
  have f1 := g2 _ (m 1 (by omega)) (by rw [h10]; decide)
  have hc := pauliAct_comp (rowPauli 4 (c.normalForm.row 0)) (rowPauli 4 (c.normalForm.row 1)) (run gs (ket 0))
  rw [f1, f0] at hc
  have e1 : (rowPauli 4 (c.normalForm.row 0)).add (rowPauli 4 (c.normalForm.row 1)) = rowPauli 4 (c.stab.row 1) := by
    rw [h9, h10, h7]
    unfold Pauli.add
    congr 1 <;> decide
  have e2 : dotp (rowPauli 4 (c.normalForm.row 0)).z (rowPauli 4 (c.normalForm.row 1)).x = 1 := by rw [h9, h10]; decide
  rw [e1, e2, sgn_one, neg_smul, one_smul] at hc
  nth_rewrite 2 [hc]
  rw [neg_neg]

/-- **C13 refuted (odd number of Y's)**.  For the code of the single generator YI on two qubits the state encoded from `0`
is `(|00⟩ + |10⟩)/√2`, which is not an eigenvector of Y. -/
theorem C13_oddY_refuted :
    ∃ c gs, stabInit (.rows [[1, 0, 1, 0]]) 2 1 none = .ok c ∧ BinaryArr c.stab ∧ Independent 2 c.stab ∧
      c.stab.row 0 = [1, 0, 1, 0] ∧ c.normalForm.row 0 = [1, 0, 1, 0] ∧ encodingCircuit c 2 [0] = .ok gs ∧
      ∀ t : ℂ, pauliAct (rowPauli 2 (c.stab.row 0)) (run gs (ket 0)) ≠ t • run gs (ket 0) := by
  obtain ⟨c, h1, h2, h3, h4, h5, h6, h7, h8⟩ := codeY
  have hbin : IsBinary [0] := by unfold IsBinary; decide
  obtain ⟨gs, g1, -, g3⟩ := C11_encoding_closed_form _ 2 1 c h1 h2 h3 [0] rfl hbin
  refine ⟨c, gs, h1, h2, h3, h6, h8, g1, ?_⟩
  intro t
  refine not_eigen (encoded_ne_zero h1 h2 h3 rfl hbin g1) (a := rowPauli 2 [1, 0, 0, 0]) (s := 0) ?_ (by rw [h6]; decide) t
  have hlab : codeLabel 2 1 1 c.normalForm (bitFn [0]) = 0 := by
    funext j
    unfold codeLabel bitFn
    match j with
    | 0 => simp
    | 1 => simp
  rw [g3, h4]
  unfold codeword
  rw [hlab, show (List.range 1).map (fun i => rowPauli 2 (c.normalForm.row i)) = [rowPauli 2 [1, 0, 1, 0]] by
    simp only [List.range_succ, List.range_zero, List.nil_append, List.map_cons, List.map_nil]; rw [h8]]
  rw [projected_eq, projOp_cons]
  unfold projOp
  rw [List.foldl_nil, pauliAct_smul, pauliAct_add, pauliAct_ket, pauliAct_ket, pauliAct_smul, pauliAct_ket]
  simp only [dotp_zero_right, sgn_zero, one_smul, zero_add]
  have e1 : dotp (rowPauli 2 [1, 0, 0, 0]).z (rowPauli 2 [1, 0, 1, 0]).x = 0 := by decide
  have e2 : (rowPauli 2 [1, 0, 1, 0]).x + (rowPauli 2 [1, 0, 0, 0]).x = 0 := by decide
  have e3 : (rowPauli 2 [1, 0, 1, 0]).x = (rowPauli 2 [1, 0, 0, 0]).x := by decide
  rw [e1, e2, e3, sgn_zero, one_smul, add_comm]

end PyQ
