import Verif.Props.Correctable
import Verif.Lemmas.Local
import Verif.Lemmas.Blocks

/-! # C98: a table that undoes Pauli errors undoes their superpositions -/

namespace PyQ

open Spec

/-- `table` undoes every noise operator of `N`: for every logical state and every outcome of the measurements of all rows of the normal
form on the encoded state after the operator (and normalisation), applying the row `table` holds for the results gives back the
encoded state up to a phase, and decoding then gives the logical state up to that phase. -/
def UndoesNoise (c : StabCode) (k : ℕ) (N : Set (Matrix (Fin c.n → ZMod 2) (Fin c.n → ZMod 2) ℂ)) (table : List (ZMod 2) → List ℤ) : Prop :=
  ∃ (enc : (Fin k → ZMod 2) → List Gate) (dec : List Gate), (∀ δ, encodingCircuit c c.n (bitsList δ) = .ok (enc δ)) ∧
    decodingCircuit c c.n true = .ok dec ∧
    ∀ A ∈ N, ∀ α : (Fin k → ZMod 2) → ℂ, Normalised α → ∀ φ₀ : Amp c.n, Normalised φ₀ →
      (∃ z : ℂ, φ₀ = z • A.mulVec (∑ δ, α δ • run (enc δ) (ket 0))) →
      (∃ rs φ, History (FreshStep c) φ₀ (c.iter.map StabArg.bin) rs φ) ∧
      ∀ rs φ, History (FreshStep c) φ₀ (c.iter.map StabArg.bin) rs φ →
        ∃ ω : ℂ, Complex.normSq ω = 1 ∧ ∃ corr, applyStabilizerCircuit c.n (.bin (table rs)) = .ok corr ∧
          run corr φ = ω • ∑ δ, α δ • run (enc δ) (ket 0) ∧
          run dec (tensor (run corr φ) (ket 0)) = ω • tensor (run (enc 0) (ket 0)) (∑ δ, α δ • ket δ)

/-- One reading with a fresh ancilla. -/
theorem freshStep_part {c : StabCode} {s : StabArg} (hs : s.Valid c.n) (hY : parityY (s.pauli c.n) = 0) {ψ ψ' : Amp c.n}
    (hψ : Normalised ψ) {r : ZMod 2} (h : FreshStep c ψ s r ψ') :
    Normalised ψ' ∧ ∃ a : ℂ, ψ' = a • part (s.pauli c.n) r ψ := by
  obtain ⟨gs, h1, h2⟩ := C57_measures_partial c s hs hY c.n c.n (Or.inl ⟨rfl, rfl⟩)
  obtain ⟨p1, p2, p3⟩ := h2 ψ hψ
  obtain ⟨gs', q, g1, g2, g3⟩ := h
  rw [h1] at g1
  cases g1
  rw [p1] at g2
  obtain ⟨χ, q1, q2, q3, q4⟩ := p3 r g2
  rw [q1] at g3
  have := tensor_qubit_inj g3
  subst this
  exact ⟨q3, _, q2⟩

theorem part_sum {n : ℕ} {ι : Type} [DecidableEq ι] (S : Finset ι) (χ : ι → Amp n) (p : Pauli n) (σ : ι → ZMod 2)
    (h : ∀ i ∈ S, pauliAct p (χ i) = (sgn (σ i) : ℂ) • χ i) (r : ZMod 2) :
    part p r (∑ i ∈ S, χ i) = ∑ i ∈ S.filter fun i => σ i = r, χ i := by
  unfold part
  rw [pauliAct_sum', Finset.sum_congr rfl h, Finset.sum_filter, Finset.smul_sum, ← Finset.sum_add_distrib, Finset.smul_sum]
  refine Finset.sum_congr rfl fun i _ => ?_
  rw [smul_smul, ← sgn_add]
  have hz : r + σ i = 0 ↔ σ i = r := by
    have : ∀ a b : ZMod 2, a + b = 0 ↔ b = a := by decide
    exact this r (σ i)
  by_cases hr : σ i = r
  · rw [if_pos hr, hz.mpr hr, sgn_zero, one_smul, ← two_smul ℂ, smul_smul]
    norm_num
  · have h1 : r + σ i = 1 := (zmod2_cases _).resolve_left fun h0 => hr (hz.mp h0)
    rw [if_neg hr, h1, sgn_one, neg_one_smul, add_neg_cancel, smul_zero]

/-- Reading operators of which the terms of a superposition are eigenstates leaves the terms that give the results read. -/
theorem history_sum {c : StabCode} {ι : Type} [DecidableEq ι] (ss : List StabArg)
    (hv : ∀ s ∈ ss, s.Valid c.n ∧ parityY (s.pauli c.n) = 0) (σ : StabArg → ι → ZMod 2) (S : Finset ι) (χ : ι → Amp c.n)
    (h : ∀ s ∈ ss, ∀ i ∈ S, pauliAct (s.pauli c.n) (χ i) = (sgn (σ s i) : ℂ) • χ i) {rs : List (ZMod 2)} {φ : Amp c.n} {z : ℂ}
    (hn : Normalised (z • ∑ i ∈ S, χ i)) (hh : History (FreshStep c) (z • ∑ i ∈ S, χ i) ss rs φ) :
    Normalised φ ∧ ∃ z' : ℂ, φ = z' • ∑ i ∈ S.filter fun i => ss.map (fun s => σ s i) = rs, χ i := by
  induction ss generalizing S rs z with
  | nil =>
    cases hh
    refine ⟨hn, z, ?_⟩
    simp
  | cons s ss ih =>
    cases hh with
    | cons hs htail =>
      rename_i y r rs'
      obtain ⟨hsv, hsY⟩ := hv s (by simp)
      obtain ⟨h1, a, h2⟩ := freshStep_part hsv hsY hn hs
      have h3 : part (s.pauli c.n) r (z • ∑ i ∈ S, χ i) = z • ∑ i ∈ S.filter fun i => σ s i = r, χ i := by
        rw [← part_sum S χ (s.pauli c.n) (σ s) (h s (by simp)) r]
        unfold part
        rw [pauliAct_smul, smul_comm (sgn r : ℂ) z, ← smul_add, smul_comm]
      rw [h3, smul_smul] at h2
      subst h2
      obtain ⟨i1, z', i2⟩ := ih (fun s' hs' => hv s' (by simp [hs'])) (S.filter fun i => σ s i = r)
        (fun s' hs' i hi => h s' (by simp [hs']) i (Finset.mem_filter.mp hi).1) h1 htail
      refine ⟨i1, z', ?_⟩
      rw [i2, Finset.filter_filter]
      simp only [List.map_cons, List.cons.injEq]

/-- **C98**.  For an accepted code with independent generators, each with an even number of `Y`s: a table of corrections that undoes
each error of a set of Pauli operators undoes every noise operator that is a combination of these operators. -/
theorem C98_digitised (s : StabInput) (k : ℕ) (c : StabCode) (h : stabInit s c.n k none = .ok c)
    (hb : BinaryArr c.stab) (hind : Independent c.n c.stab)
    (hY : ∀ a < c.stab.rows, parityY (rowPauli c.n (c.stab.row a)) = 0)
    (E : Set (List ℤ)) (table : List (ZMod 2) → List ℤ) (ht : ∀ rs, (table rs).length = 2 * c.n ∧ IsBinary (table rs))
    (hU : Undoes c k E table) :
    UndoesNoise c k (Submodule.span ℂ {M | ∃ e ∈ E, M = pauliMatrix ℂ (rowPauli c.n e)}) table := by
  classical
  obtain ⟨-, -, -, hsh, -, -, hcom⟩ := accepted_facts h hb hind
  obtain ⟨enc, dec, u1, u2, u3⟩ := hU
  obtain ⟨enc', e1, e2⟩ := C60_encoded_span s c.n k c h hb hind hY
  obtain ⟨enc'', e1', -, e3⟩ := encoded_family h hb hind
  have uniq : ∀ {f g : (Fin k → ZMod 2) → List Gate}, (∀ δ, encodingCircuit c c.n (bitsList δ) = .ok (f δ)) →
      (∀ δ, encodingCircuit c c.n (bitsList δ) = .ok (g δ)) → f = g := by
    intro f g hf hg
    funext δ
    have h1 := hf δ
    rw [hg] at h1
    exact (Except.ok.inj h1).symm
  obtain rfl := uniq u1 e1
  obtain rfl := uniq u1 e1'
  refine ⟨enc, dec, u1, u2, ?_⟩
  intro A hA α hα φ₀ hφ₀ hz
  obtain ⟨z, hz⟩ := hz
  set ψ : Amp c.n := ∑ δ, α δ • run (enc δ) (ket 0) with hψ
  have hfix : ∀ g ∈ c.iter, pauliAct (rowPauli c.n g) ψ = ψ := ((e2 ψ).1).mpr ⟨α, rfl⟩
  have hN : Normalised ψ := by
    show normSq ψ = 1
    rw [hψ, encoded_norm e3]; exact hα
  have hψ0 : ψ ≠ 0 := by
    intro h0
    rw [h0] at hN
    simp [Normalised] at hN
  have hvalid : ∀ st ∈ c.iter.map StabArg.bin, st.Valid c.n ∧ parityY (st.pauli c.n) = 0 := by
    intro st hst
    obtain ⟨g, hg, rfl⟩ := List.mem_map.mp hst
    have hf := hfix g hg
    have hpar : parityY (rowPauli c.n g) = 0 := by
      by_contra hne
      have hp1 : dotp (rowPauli c.n g).z (rowPauli c.n g).x = 1 := (zmod2_cases _).resolve_left hne
      have h1 : pauliAct (rowPauli c.n g) (pauliAct (rowPauli c.n g) ψ) = -ψ := by
        rw [pauliAct_comp, hp1, sgn_one, neg_one_smul]
        have : (rowPauli c.n g).add (rowPauli c.n g) = ⟨0, 0⟩ := by simp [Pauli.add, add_self_f]
        rw [this, pauliAct_one]
      rw [hf, hf] at h1
      exact hψ0 (self_eq_neg.mp h1)
    obtain ⟨a, ha, rfl⟩ := iter_mem.mp hg
    exact ⟨⟨by rw [row_length, hsh.cols], row_binary hsh.binary ha⟩, hpar⟩
  have hcommute : ∀ st ∈ c.iter.map StabArg.bin, ∀ st' ∈ c.iter.map StabArg.bin, symp (st.pauli c.n) (st'.pauli c.n) = 0 := by
    intro st hst st' hst'
    obtain ⟨g, hg, rfl⟩ := List.mem_map.mp hst
    obtain ⟨g', hg', rfl⟩ := List.mem_map.mp hst'
    by_contra hne
    have h1 : symp (rowPauli c.n g) (rowPauli c.n g') = 1 := (zmod2_cases _).resolve_left hne
    have h2 := pauliAct_comm (rowPauli c.n g) (rowPauli c.n g') ψ
    rw [h1, sgn_one, neg_one_smul, hfix g hg, hfix g' hg', hfix g hg] at h2
    exact hψ0 (self_eq_neg.mp h2)
  refine ⟨(C58_projects c _ hvalid hcommute φ₀ hφ₀).1, ?_⟩
  intro rs φ hh
  -- the terms
  have himg : {M | ∃ e ∈ E, M = pauliMatrix ℂ (rowPauli c.n e)} = (fun e => pauliMatrix ℂ (rowPauli c.n e)) '' E := by
    ext M
    exact ⟨fun ⟨e, he, hM⟩ => ⟨e, he, hM.symm⟩, fun ⟨e, he, hM⟩ => ⟨e, he, hM.symm⟩⟩
  rw [SetLike.mem_coe, himg, Finsupp.mem_span_image_iff_linearCombination] at hA
  obtain ⟨l, hl, rfl⟩ := hA
  have hlE : ∀ e ∈ l.support, e ∈ E := fun e he => hl he
  set χ : List ℤ → Amp c.n := fun e => l e • pauliAct (rowPauli c.n e) ψ with hχ
  have hsum : (Finsupp.linearCombination ℂ (fun e => pauliMatrix ℂ (rowPauli c.n e)) l).mulVec ψ = ∑ e ∈ l.support, χ e := by
    rw [Finsupp.linearCombination_apply, Finsupp.sum, Matrix.sum_mulVec]
    refine Finset.sum_congr rfl fun e _ => ?_
    rw [Matrix.smul_mulVec]
    rfl
  rw [hsum] at hz
  subst hz
  obtain ⟨n1, z', n2⟩ := history_sum (c.iter.map StabArg.bin) hvalid (fun st e => symp (st.pauli c.n) (rowPauli c.n e)) l.support χ
    (by
      intro st hst e _
      obtain ⟨g, hg, rfl⟩ := List.mem_map.mp hst
      show pauliAct (rowPauli c.n g) _ = (sgn (symp (rowPauli c.n g) (rowPauli c.n e)) : ℂ) • _
      rw [hχ]
      simp only
      rw [pauliAct_smul, pauliAct_comm, hfix g hg, smul_comm]) hφ₀ hh
  have hmap : ∀ e, (c.iter.map StabArg.bin).map (fun st => symp (st.pauli c.n) (rowPauli c.n e)) =
      c.iter.map fun g => symp (rowPauli c.n g) (rowPauli c.n e) := by
    intro e
    rw [List.map_map]; rfl
  set S := l.support.filter fun e => (c.iter.map StabArg.bin).map (fun st => symp (st.pauli c.n) (rowPauli c.n e)) = rs with hS
  have hterm : ∀ e ∈ S, ∃ ω : ℂ, Complex.normSq ω = 1 ∧ ∃ corr, applyStabilizerCircuit c.n (.bin (table rs)) = .ok corr ∧
      run corr (pauliAct (rowPauli c.n e) ψ) = ω • ψ ∧
      run dec (tensor (ω • ψ) (ket 0)) = ω • tensor (run (enc 0) (ket 0)) (∑ δ, α δ • ket δ) := by
    intro e he
    obtain ⟨he1, he2⟩ := Finset.mem_filter.mp he
    rw [hmap] at he2
    obtain ⟨ω, w1, w2⟩ := u3 e (hlE e he1)
    obtain ⟨encx, f1, f2⟩ := C62_syndrome s k c h hb hind hY (rowPauli c.n e) α hα
    obtain rfl := uniq u1 f1
    obtain ⟨corr, c1, c2, c3⟩ := w2 α hα rs _ ((f2 _ _).mpr ⟨he2.symm, rfl⟩)
    rw [c2] at c3
    exact ⟨ω, w1, corr, c1, c2, c3⟩
  obtain ⟨e₀, he₀⟩ : S.Nonempty := by
    by_contra hne
    rw [Finset.not_nonempty_iff_eq_empty] at hne
    rw [hne, Finset.sum_empty, smul_zero] at n2
    rw [n2] at n1
    simp [Normalised] at n1
  obtain ⟨ω₀, w1, corr, c1, -, c3⟩ := hterm e₀ he₀
  have hω₀ : ω₀ ≠ 0 := by
    rintro rfl
    simp at w1
  rw [tensor_smul_left, run_smul] at c3
  have hdec := smul_right_injective _ hω₀ c3
  have hrun : ∃ ω : ℂ, run corr φ = ω • ψ := by
    have hone : ∀ e ∈ S, ∃ ω : ℂ, run corr (χ e) = ω • ψ := by
      intro e he
      obtain ⟨ω, -, corr', d1, d2, -⟩ := hterm e he
      rw [c1] at d1
      cases d1
      refine ⟨l e * ω, ?_⟩
      rw [hχ]
      simp only
      rw [run_smul, d2, smul_smul]
    choose! w hw using hone
    refine ⟨z' * ∑ e ∈ S, w e, ?_⟩
    rw [n2, run_smul, run_sum, Finset.sum_congr rfl hw, ← Finset.sum_smul, smul_smul]
  obtain ⟨ω, hω⟩ := hrun
  refine ⟨ω, ?_, corr, c1, hω, ?_⟩
  · have h1 : normSq (run corr φ) = 1 := by
      obtain ⟨gs, t, g1, -, -, g4⟩ := C48_apply_stabilizer c.n (table rs) (ht rs).1 (ht rs).2
      rw [c1] at g1
      cases g1
      rw [g4, normSq_smul, map_pow, Complex.normSq_I, one_pow, one_mul]
      exact normalised_pauli _ n1
    rw [hω, normSq_smul, show normSq ψ = 1 from hN, mul_one] at h1
    exact h1
  · rw [hω, tensor_smul_left, run_smul]
    exact congrArg (ω • ·) hdec

theorem span_mono_noise {c : StabCode} {k : ℕ} {N N' : Set (Matrix (Fin c.n → ZMod 2) (Fin c.n → ZMod 2) ℂ)}
    {table : List (ZMod 2) → List ℤ} (hN : N' ⊆ N) (h : UndoesNoise c k N table) : UndoesNoise c k N' table := by
  obtain ⟨enc, dec, h1, h2, h3⟩ := h
  exact ⟨enc, dec, h1, h2, fun A hA => h3 A (hN hA)⟩

/-- The binary row of a Pauli operator. -/
def pauliRow {n : ℕ} (p : Pauli n) : List ℤ := List.ofFn (fun j => ((p.x j).val : ℤ)) ++ List.ofFn fun j => ((p.z j).val : ℤ)

theorem pauliRow_spec {n : ℕ} (p : Pauli n) : (pauliRow p).length = 2 * n ∧ IsBinary (pauliRow p) ∧ rowPauli n (pauliRow p) = p := by
  have hv : ∀ a : ZMod 2, ((a.val : ℤ) = 0 ∨ (a.val : ℤ) = 1) ∧ (((a.val : ℤ)) : ZMod 2) = a := by decide
  refine ⟨by simp [pauliRow]; omega, ?_, ?_⟩
  · intro v hv'
    rcases List.mem_append.mp hv' with h | h <;>
    · obtain ⟨j, rfl⟩ := List.mem_ofFn.mp h
      exact (hv _).1
  · unfold rowPauli pauliRow
    congr 1
    · funext j
      rw [List.getD_append _ _ _ _ (by simp), List.getD_eq_getElem _ _ (by simp), List.getElem_ofFn]
      exact (hv _).2
    · funext j
      rw [List.getD_append_right _ _ _ _ (by simp), List.getD_eq_getElem _ _ (by simp), List.getElem_ofFn]
      simp only [List.length_ofFn, Nat.add_sub_cancel_left]
      exact (hv _).2

/-- **C98**.  If no operator on at most `2 t` qubits commutes with all rows of the normal form except the operators of the group they
generate, one table of corrections undoes every noise operator, unitary or not, that acts on at most `t` of the qubits. -/
theorem C98_local (s : StabInput) (k : ℕ) (c : StabCode) (h : stabInit s c.n k none = .ok c)
    (hb : BinaryArr c.stab) (hind : Independent c.n c.stab)
    (hY : ∀ a < c.stab.rows, parityY (rowPauli c.n (c.stab.row a)) = 0) (t : ℕ)
    (hd : ∀ p : Pauli c.n, weight p ≤ 2 * t → (∀ g ∈ c.iter, symp (rowPauli c.n g) p = 0) → p.vec ∈ groupOf c.n c.iter) :
    ∃ table : List (ZMod 2) → List ℤ, (∀ rs, (table rs).length = 2 * c.n ∧ IsBinary (table rs)) ∧
      UndoesNoise c k {A | ∃ T : Finset (Fin c.n), T.card ≤ t ∧ ActsOn T A} table := by
  obtain ⟨table, ht, hU⟩ := C73_distance s k c h hb hind hY t hd
  refine ⟨table, ht, span_mono_noise ?_ (C98_digitised s k c h hb hind hY _ table ht hU)⟩
  rintro A ⟨T, hT, hA⟩
  refine Submodule.span_mono ?_ (actsOn_span hA)
  rintro M ⟨p, hp, rfl⟩
  obtain ⟨r1, r2, r3⟩ := pauliRow_spec p
  refine ⟨pauliRow p, ⟨r1, r2, ?_⟩, by rw [r3]⟩
  rw [r3]
  refine le_trans (Finset.card_le_card ?_) hT
  intro j hj
  by_contra hjT
  obtain ⟨h1, h2⟩ := hp j hjT
  simp [h1, h2] at hj

/-! ### Cases that meet the hypotheses -/

/-- **C98**, an instance: for the code of XZZXI, IXZZX, XIXZZ and ZXIXZ one table undoes every noise operator on one qubit. -/
theorem C98_five_qubits : ∃ c, stabInit (.rows fiveRows) c.n 1 none = .ok c ∧ c.n = 5 ∧
    ∃ table : List (ZMod 2) → List ℤ, (∀ rs, (table rs).length = 2 * c.n ∧ IsBinary (table rs)) ∧
      UndoesNoise c 1 {A | ∃ T : Finset (Fin c.n), T.card ≤ 1 ∧ ActsOn T A} table := by
  obtain ⟨c, h1, h2, h3, h4, h5⟩ := five_code
  have hn : c.n = 5 := (accepted_facts h1 h2 h3).1
  refine ⟨c, by rw [hn]; exact h1, hn, ?_⟩
  refine C98_local (.rows fiveRows) 1 c (by rw [hn]; exact h1) h2 (by rw [hn]; exact h3) (by rw [hn]; exact h4) 1 ?_
  rw [hn]
  exact five_distance h5

/-- The operators on one qubit are not only multiples of Pauli operators: amplitude damping of one qubit has the operator
`|0⟩⟨0| + s |1⟩⟨1|`. -/
example {n : ℕ} (j : Fin n) (s : ℂ) : ActsOn {j} (Matrix.diagonal fun b : Fin n → ZMod 2 => if b j = 0 then 1 else s) := by
  refine ⟨fun a b h i _ => ?_, fun a b d h => ?_⟩
  · by_contra hne
    exact h (Matrix.diagonal_apply_ne _ fun hab => hne (congrFun hab i))
  · have hd : d j = 0 := h j (by simp)
    by_cases hab : a = b
    · subst hab
      rw [Matrix.diagonal_apply_eq, Matrix.diagonal_apply_eq, Pi.add_apply, hd, add_zero]
    · rw [Matrix.diagonal_apply_ne _ hab, Matrix.diagonal_apply_ne _ fun h' => hab (add_right_cancel h')]

/-- ... and `√(1-s²) |0⟩⟨1|`. -/
example {n : ℕ} (j : Fin n) (s : ℂ) : ActsOn {j} (Matrix.of fun a b : Fin n → ZMod 2 => if b j = 1 ∧ a = b + Pi.single j 1 then s else 0) := by
  refine ⟨fun a b h i hi => ?_, fun a b d h => ?_⟩
  · simp only [Matrix.of_apply, ne_eq, ite_eq_right_iff, not_forall] at h
    obtain ⟨⟨-, h2⟩, -⟩ := h
    rw [h2, Pi.add_apply, Pi.single_eq_of_ne (by simpa using hi), add_zero]
  · have hd : d j = 0 := h j (by simp)
    simp only [Matrix.of_apply, Pi.add_apply, hd, add_zero]
    congr 1
    rw [add_right_comm b d, add_left_inj]

end PyQ
