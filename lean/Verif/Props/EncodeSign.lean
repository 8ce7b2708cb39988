import Verif.Props.EndToEnd

/-! # C13: the sign with which a generator acts on the encoded states -/

namespace PyQ

open Spec

/-- The exponent of the sign between a product of Pauli operators, taken in order, and the Pauli operator with the same
letters: each pair counts the Z's of the earlier factor that meet X's of the later one. -/
def Spec.orderSign {n m : ℕ} (c : Fin m → ZMod 2) (p : Fin m → Pauli n) : ZMod 2 :=
  ∑ i, ∑ j, if i < j then c i * c j * dotp (p i).z (p j).x else 0

theorem dotp_combination {n m : ℕ} (a : Fin n → ZMod 2) (c : Fin m → ZMod 2) (f : Fin m → Fin n → ZMod 2) :
    dotp a (∑ i, c i • f i) = ∑ i, c i * dotp a (f i) := by
  unfold dotp
  simp only [Finset.sum_apply, Pi.smul_apply, smul_eq_mul, Finset.mul_sum]
  rw [Finset.sum_comm]
  exact Finset.sum_congr rfl fun i _ => Finset.sum_congr rfl fun j _ => by ring

theorem combination_fixed {n : ℕ} {ψ : Amp n} : ∀ {m : ℕ} (c : Fin m → ZMod 2) (p : Fin m → Pauli n),
    (∀ i, pauliAct (p i) ψ = ψ) →
      pauliAct (ofVec (∑ i, c i • (p i).vec)) ψ = (sgn (orderSign c p) : ℂ) • ψ := by
  intro m
  induction m with
  | zero =>
    intro c p _
    have h0 : ofVec (∑ i : Fin 0, c i • (p i).vec) = (⟨0, 0⟩ : Pauli n) := by simp [ofVec]
    rw [h0, pauliAct_one]
    simp [orderSign]
  | succ m ih =>
    intro c p hp
    have h1 := ih (fun i => c i.succ) (fun i => p i.succ) fun i => hp i.succ
    set w := ofVec (∑ i : Fin m, c i.succ • (p i.succ).vec) with hw
    have hsign : orderSign c p = c 0 * dotp (p 0).z w.x + orderSign (fun i => c i.succ) (fun i => p i.succ) := by
      have hx : w.x = ∑ i : Fin m, c i.succ • (p i.succ).x := by
        rw [hw]
        show (∑ i : Fin m, c i.succ • (p i.succ).vec).1 = _
        rw [Prod.fst_sum]
        rfl
      unfold orderSign
      rw [Fin.sum_univ_succ]
      congr 1
      · rw [Fin.sum_univ_succ, if_neg (lt_irrefl _), zero_add, hx, dotp_combination, Finset.mul_sum]
        refine Finset.sum_congr rfl fun j _ => ?_
        rw [if_pos (Fin.succ_pos j)]
        ring
      · refine Finset.sum_congr rfl fun i _ => ?_
        rw [Fin.sum_univ_succ, if_neg (by simp), zero_add]
        refine Finset.sum_congr rfl fun j _ => ?_
        simp only [Fin.succ_lt_succ_iff]
    rcases zmod2_cases (c 0) with h0 | h0
    · have hv : ofVec (∑ i, c i • (p i).vec) = w := by
        rw [Fin.sum_univ_succ, h0, zero_smul, zero_add]
      rw [hv, h1, hsign, h0, zero_mul, zero_add]
    · have hv : ofVec (∑ i, c i • (p i).vec) = (p 0).add w := by
        rw [Fin.sum_univ_succ, h0, one_smul]
        rfl
      have h2 := pauliAct_comp (p 0) w ψ
      rw [h1, pauliAct_smul, hp 0, ← hv] at h2
      have h3 : (sgn (dotp (p 0).z w.x) : ℂ) * sgn (dotp (p 0).z w.x) = 1 := sgn_mul_self _
      rw [hsign, h0, one_mul, sgn_add, mul_smul, h2, smul_smul, h3, one_smul]

/-- **C13 (b), exact sign**.  For generators with even numbers of Y's: a generator, after the relabelling of the qubits used by
the elimination, is in exactly one way a product of rows of the normal form, and it multiplies every encoded state by the
sign between that product, taken in order, and the generator.  In particular it fixes the encoded states iff this sign is
`+1`.  Missing for C13: that the sign is always `+1` (see `C13_sign_refuted`), the original labels. -/
theorem C13_sign_partial (s : StabInput) (n k : ℕ) (c : StabCode) (h : stabInit s n k none = .ok c)
    (hb : BinaryArr c.stab) (hind : Independent n c.stab)
    (hY : ∀ a < c.stab.rows, parityY (rowPauli n (c.stab.row a)) = 0) :
    ∃ σ : Equiv.Perm (Fin n),
      groupOf n c.iter = (groupOf n ((List.range c.stab.rows).map c.stab.row)).map (relabel σ).toLinearMap ∧
      ∀ a < c.stab.rows, ∃ u : Fin c.normalForm.rows → ZMod 2,
        (∀ u' : Fin c.normalForm.rows → ZMod 2,
          relabel σ (rowPauli n (c.stab.row a)).vec = ∑ i, u' i • (rowPauli n (c.normalForm.row i)).vec ↔ u' = u) ∧
        ∀ δ : List ℤ, δ.length = k → IsBinary δ → ∃ gs, encodingCircuit c n δ = .ok gs ∧
          pauliAct (ofVec (relabel σ (rowPauli n (c.stab.row a)).vec)) (run gs (ket 0)) =
            (sgn (orderSign u fun i => rowPauli n (c.normalForm.row i)) : ℂ) • run gs (ket 0) ∧
          (pauliAct (ofVec (relabel σ (rowPauli n (c.stab.row a)).vec)) (run gs (ket 0)) = (run gs (ket 0) : Amp n) ↔
            orderSign u (fun i => rowPauli n (c.normalForm.row i)) = 0) := by
  obtain ⟨σ, hσ⟩ := (C06_normal_form_same_group s n k none c h).1
  obtain ⟨-, -, hli, -, hspan⟩ := accepted_families h hb hind
  refine ⟨σ, hσ, ?_⟩
  intro a ha
  have hmem : relabel σ (rowPauli n (c.stab.row a)).vec ∈ groupOf n c.iter := by
    rw [hσ]
    exact Submodule.mem_map_of_mem (mem_groupOf (List.mem_map_of_mem (List.mem_range.mpr ha)))
  rw [hspan] at hmem
  obtain ⟨u, hu⟩ := (Submodule.mem_span_range_iff_exists_fun (ZMod 2)).mp hmem
  refine ⟨u, ?_, ?_⟩
  · intro u'
    constructor
    · intro h'
      rw [← hu] at h'
      have hz : ∑ i, (u i - u' i) • (rowPauli n (c.normalForm.row i)).vec = 0 := by
        simp only [sub_smul, Finset.sum_sub_distrib]
        rw [h', sub_self]
      funext i
      have := Fintype.linearIndependent_iff.mp hli _ hz i
      exact (sub_eq_zero.mp this).symm
    · rintro rfl; exact hu.symm
  · intro δ hlen hδ
    obtain ⟨gs, h1, h2⟩ := C13_even_generators_rows_fix s n k c h hb hind hY δ hlen hδ
    have h3 := combination_fixed u (fun i : Fin c.normalForm.rows => rowPauli n (c.normalForm.row i))
      fun i => h2 _ (iter_mem.mpr ⟨i, i.2, rfl⟩)
    rw [hu] at h3
    refine ⟨gs, h1, h3, ?_⟩
    rw [h3]
    constructor
    · intro h4
      rcases zmod2_cases (orderSign u fun i : Fin c.normalForm.rows => rowPauli n (c.normalForm.row i)) with h5 | h5
      · exact h5
      · rw [h5, sgn_one, neg_one_smul] at h4
        exact absurd (self_eq_neg.mp h4.symm) (encoded_ne_zero h hb hind hlen hδ h1)
    · intro h4
      rw [h4, sgn_zero, one_smul]

/-- The code XZII, YYYY meets the hypotheses, and YYYY is the product of both rows of the normal form with the sign `-1`. -/
example : ∃ c, stabInit (.rows [[1, 0, 0, 0, 0, 1, 0, 0], [1, 1, 1, 1, 1, 1, 1, 1]]) 4 2 none = .ok c ∧ BinaryArr c.stab ∧
    Independent 4 c.stab ∧ (∀ a < c.stab.rows, parityY (rowPauli 4 (c.stab.row a)) = 0) ∧ c.normalForm.rows = 2 ∧
    (rowPauli 4 (c.stab.row 1)).vec = ∑ i : Fin 2, (fun _ => (1 : ZMod 2)) i • (rowPauli 4 (c.normalForm.row i)).vec ∧
    orderSign (fun _ => 1) (fun i : Fin 2 => rowPauli 4 (c.normalForm.row i)) = 1 := by
  obtain ⟨c, h1, h2, h3, h4, h5, h6, h7, h8, h9, h10⟩ := codeSign
  refine ⟨c, h1, h2, h3, ?_, h8, ?_, ?_⟩
  · intro a ha
    rw [h5] at ha
    interval_cases a
    · rw [h6]; decide
    · rw [h7]; decide
  · rw [Fin.sum_univ_two]
    simp only [Fin.val_zero, Fin.val_one]
    rw [h7, h9, h10]
    decide
  · unfold orderSign
    simp only [Fin.sum_univ_two, Fin.val_zero, Fin.val_one]
    rw [h9, h10]
    decide

end PyQ
