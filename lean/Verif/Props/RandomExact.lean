import Verif.Props.RandomError

/-! **C151**: when random Pauli errors leave every encoded state as it was. -/

namespace PyQ

open Spec Matrix

variable {n k : ℕ}

/-- Entries of the density matrix after a Pauli operator. -/
theorem pureState_pauli (L : Pauli k) (α : Amp k) (x y : Fin k → ZMod 2) :
    pureState (pauliAct L α) x y = (sgn (dotp L.z (x + y)) : ℂ) * (α (x + L.x) * star (α (y + L.x))) := by
  show pauliAct L α x * star (pauliAct L α y) = _
  rw [pauliAct_apply, pauliAct_apply]
  have hs : star (sgn (dotp L.z (y + L.x)) : ℂ) = sgn (dotp L.z (y + L.x)) := by
    rcases zmod2_cases (dotp L.z (y + L.x)) with e | e <;> rw [e] <;> simp
  have hxy : dotp L.z (x + y) = dotp L.z (x + L.x) + dotp L.z (y + L.x) := by
    have : x + y = (x + L.x) + (y + L.x) := by
      funext i
      have h2 : L.x i + L.x i = 0 := CharTwo.add_self_eq_zero _
      simp only [Pi.add_apply]
      linear_combination -h2
    rw [this, dotp_add_right]
  rw [star_mul', hs, hxy, sgn_add]
  ring

/-- A mixture of Pauli operators that leaves every state alone does nothing else with any probability. -/
theorem mixture_identity {w : Pauli k → ℝ} (h0 : ∀ L, 0 ≤ w L) (h1 : ∑ L, w L = 1)
    (hid : ∀ α : Amp k, Normalised α → (∑ L, (w L : ℂ) • pureState (pauliAct L α)) = pureState α) (L : Pauli k)
    (hL : L ≠ ⟨0, 0⟩) : w L = 0 := by
  classical
  have hx : ∀ L : Pauli k, L.x ≠ 0 → w L = 0 := by
    intro L hL
    have hn : Normalised (ket 0 : Amp k) := by simp [Normalised, ket, apply_ite]
    have e := congrFun (congrFun (hid _ hn) L.x) L.x
    rw [Matrix.sum_apply] at e
    simp only [Matrix.smul_apply, pureState_pauli, smul_eq_mul] at e
    have hterm : ∀ M : Pauli k, (w M : ℂ) * ((sgn (dotp M.z (L.x + L.x)) : ℂ) * ((ket 0 : Amp k) (L.x + M.x) *
        star ((ket 0 : Amp k) (L.x + M.x)))) = ((if M.x = L.x then w M else 0 : ℝ) : ℂ) := by
      intro M
      have hz : L.x + L.x = 0 := funext fun i => CharTwo.add_self_eq_zero _
      have hq : L.x + M.x = 0 ↔ M.x = L.x := by
        constructor
        · intro h
          funext i
          have h2 : L.x i + M.x i = 0 := congrFun h i
          have h3 : L.x i + L.x i = 0 := CharTwo.add_self_eq_zero _
          linear_combination h2 - h3
        · intro h
          rw [h, hz]
      rw [hz]
      by_cases c : M.x = L.x
      · simp [ket, c, hz, dotp, sgn]
      · simp [ket, hq, c]
    simp only [hterm] at e
    have hr : pureState (ket 0 : Amp k) L.x L.x = 0 := by simp [pureState, ket, hL]
    rw [hr, ← Complex.ofReal_sum, Complex.ofReal_eq_zero,
      Finset.sum_eq_zero_iff_of_nonneg (fun M _ => by split_ifs <;> simp [h0])] at e
    simpa using e L (Finset.mem_univ _)
  by_cases hLx : L.x = 0
  swap
  · exact hx L hLx
  have hz : ∃ i, L.z i ≠ 0 := by
    by_contra hc
    push Not at hc
    exact hL (congrArg₂ Pauli.mk hLx (funext hc))
  obtain ⟨i, hi⟩ := hz
  let u : Fin k → ZMod 2 := Pi.single i 1
  have hu : u ≠ 0 := by
    intro h
    have := congrFun h i
    simp [u] at this
  let r : ℂ := ((Real.sqrt 2 : ℝ) : ℂ)⁻¹
  have hrr : r * r = 1 / 2 := by
    show ((Real.sqrt 2 : ℝ) : ℂ)⁻¹ * ((Real.sqrt 2 : ℝ) : ℂ)⁻¹ = _
    rw [← _root_.mul_inv, ← Complex.ofReal_mul, Real.mul_self_sqrt (by norm_num)]
    norm_num
  have hrs : star r = r := by
    show (starRingEnd ℂ) (((Real.sqrt 2 : ℝ) : ℂ)⁻¹) = _
    rw [map_inv₀, Complex.conj_ofReal]
  let α : Amp k := fun b => if b = 0 ∨ b = u then r else 0
  have hrn : Complex.normSq r = 1 / 2 := by
    have : ((Complex.normSq r : ℝ) : ℂ) = r * r := by
      rw [← Complex.mul_conj]
      exact congrArg (r * ·) hrs
    rw [hrr] at this
    exact_mod_cast this.trans (by norm_num : (1 / 2 : ℂ) = ((1 / 2 : ℝ) : ℂ))
  have hn : Normalised α := by
    unfold Normalised
    have : ∀ b, Complex.normSq (α b) = (if b = 0 then 1 / 2 else 0) + (if b = u then 1 / 2 else 0) := by
      intro b
      by_cases hb : b = 0
      · subst hb
        simp [α, hrn, Ne.symm hu]
      · by_cases hbu : b = u
        · subst hbu
          simp [α, hrn, hb]
        · simp [α, hb, hbu]
    simp only [this, Finset.sum_add_distrib]
    simp
    norm_num
  have e := congrFun (congrFun (hid _ hn) 0) u
  rw [Matrix.sum_apply] at e
  simp only [Matrix.smul_apply, pureState_pauli, smul_eq_mul] at e
  have hdot : ∀ M : Pauli k, dotp M.z (0 + u) = M.z i := by
    intro M
    rw [zero_add]
    simp [dotp, u, Pi.single_apply]
  have hterm : ∀ M : Pauli k, (w M : ℂ) * ((sgn (dotp M.z (0 + u)) : ℂ) * (α (0 + M.x) * star (α (u + M.x)))) =
      ((w M * (sgn (M.z i) : ℝ) * (1 / 2) : ℝ) : ℂ) := by
    intro M
    by_cases c : M.x = 0
    · have a0 : α (0 + M.x) = r := by simp [α, c]
      have a1 : α (u + M.x) = r := by simp [α, c]
      rw [a0, a1, hrs, hrr, hdot]
      rcases zmod2_cases (M.z i) with e | e <;> rw [e] <;> simp
    · rw [hx M c]
      simp
  simp only [hterm] at e
  have hr : pureState α 0 u = ((1 / 2 : ℝ) : ℂ) := by
    show α 0 * star (α u) = _
    have a0 : α 0 = r := by simp [α]
    have a1 : α u = r := by simp [α]
    rw [a0, a1, hrs, hrr]
    norm_num
  rw [hr, ← Complex.ofReal_sum, Complex.ofReal_inj] at e
  have hd : ∑ M : Pauli k, w M * (1 - (sgn (M.z i) : ℝ)) = 0 := by
    have : ∀ M : Pauli k, w M * (1 - (sgn (M.z i) : ℝ)) = w M - 2 * (w M * (sgn (M.z i) : ℝ) * (1 / 2)) := fun M => by ring
    simp only [this]
    rw [Finset.sum_sub_distrib, ← Finset.mul_sum, e, h1]
    norm_num
  rw [Finset.sum_eq_zero_iff_of_nonneg] at hd
  · have := hd L (Finset.mem_univ _)
    have h2 : L.z i = 1 := (zmod2_cases _).resolve_left hi
    rw [h2] at this
    have h3 : (1 - (sgn (1 : ZMod 2) : ℝ)) ≠ 0 := by
      simp [sgn]
    exact (mul_eq_zero.mp this).resolve_right h3
  · intro M _
    refine mul_nonneg (h0 M) ?_
    rcases zmod2_cases (M.z i) with e | e <;> rw [e] <;> simp [sgn]

open Classical in
/-- The same for operators drawn through any other random variable. -/
theorem mixture_iff {ι : Type} [Fintype ι] {q : ι → ℝ} (h0 : ∀ i, 0 ≤ q i) (h1 : ∑ i, q i = 1) (S : ι → Pauli k) :
    (∀ α : Amp k, Normalised α → (∑ L : Pauli k, ((∑ i, if S i = L then q i else 0 : ℝ) : ℂ) • pureState (pauliAct L α)) =
      pureState α) ↔ ∀ i, q i ≠ 0 → S i = ⟨0, 0⟩ := by
  have hw0 : ∀ L : Pauli k, 0 ≤ ∑ i, if S i = L then q i else 0 := fun L =>
    Finset.sum_nonneg fun i _ => by split_ifs <;> simp [h0]
  have hw1 : ∑ L : Pauli k, (∑ i, if S i = L then q i else 0) = 1 := by
    rw [Finset.sum_comm]
    simpa using h1
  constructor
  · intro hid i hi
    by_contra hS
    have := mixture_identity hw0 hw1 hid (S i) hS
    rw [Finset.sum_eq_zero_iff_of_nonneg (fun j _ => by split_ifs <;> simp [h0])] at this
    exact hi (by simpa using this i (Finset.mem_univ _))
  · intro hS α _
    have hz : ∀ L : Pauli k, (∑ i, if S i = L then q i else 0) = if L = ⟨0, 0⟩ then 1 else 0 := by
      intro L
      split_ifs with hL
      · rw [← h1]
        refine Finset.sum_congr rfl fun i _ => ?_
        by_cases hq : q i = 0
        · simp [hq]
        · rw [if_pos ((hS i hq).trans hL.symm)]
      · refine Finset.sum_eq_zero fun i _ => ?_
        by_cases hq : q i = 0
        · simp [hq]
        · rw [if_neg fun h => hL (h.symm.trans (hS i hq))]
    simp only [hz]
    rw [Finset.sum_eq_single ⟨0, 0⟩ (fun L _ hL => by simp [hL]) (fun h => absurd (Finset.mem_univ _) h)]
    simp [pauliAct_one]

/-- Nothing is seen of an operator that commutes with all logical operators. -/
theorem seenBy_zero_iff (s : StabInput) (c : StabCode) (h : stabInit s n k none = .ok c) (hb : BinaryArr c.stab) (E : Pauli n) :
    seenBy (rowsOf c.logicalX) (rowsOf c.logicalZ) k E = ⟨0, 0⟩ ↔
      ∀ i < k, symp (rowPauli n (c.logicalX.row i)) E = 0 ∧ symp (rowPauli n (c.logicalZ.row i)) E = 0 := by
  rw [seenBy_eq s c h hb]
  constructor
  · intro e i hi
    exact ⟨congrFun (congrArg Pauli.z e) ⟨i, hi⟩, congrFun (congrArg Pauli.x e) ⟨i, hi⟩⟩
  · intro e
    exact congrArg₂ Pauli.mk (funext fun i => (e i i.2).2) (funext fun i => (e i i.2).1)

/-- **C151, when nothing is lost**.  Pauli errors drawn with the probabilities `q` and not corrected leave every encoded state
as it was exactly when every error that can happen commutes with all logical operators. -/
theorem C151_harmless (s : StabInput) (c : StabCode) (h : stabInit s n k none = .ok c) (hb : BinaryArr c.stab)
    (len : ℕ) (addAncilla : Bool) (hla : (len = n ∧ addAncilla = true) ∨ (len = n + k ∧ addAncilla = false)) :
    ∃ (enc : (Fin k → ZMod 2) → List Gate) (dec : List Gate),
      (∀ δ, encodingCircuit c n (bitsList δ) = .ok (enc δ)) ∧ decodingCircuit c len addAncilla = .ok dec ∧
      ∀ q : Pauli n → ℝ, (∀ E, 0 ≤ q E) → ∑ E, q E = 1 →
        ((∀ α : Amp k, Normalised α →
          (∑ E, (q E : ℂ) • lastQubits (run dec (tensor (pauliAct E (∑ δ, α δ • (run (enc δ) (ket 0) : Amp n))) (ket 0)))) =
            pureState α) ↔
        ∀ E, q E ≠ 0 → ∀ i < k, symp (rowPauli n (c.logicalX.row i)) E = 0 ∧ symp (rowPauli n (c.logicalZ.row i)) E = 0) := by
  classical
  obtain ⟨enc, dec, henc, hdec, hrun⟩ := C151_channel s c h hb len addAncilla hla
  refine ⟨enc, dec, henc, hdec, fun q h0 h1 => ?_⟩
  have key := mixture_iff h0 h1 (fun E => seenBy (rowsOf c.logicalX) (rowsOf c.logicalZ) k E)
  simp only [seenBy_zero_iff s c h hb] at key
  rw [← key]
  refine forall_congr' fun α => forall_congr' fun hα => ?_
  rw [hrun q α]

/-- The code with redundant generators meets the hypotheses with all errors equally likely; then not every state survives,
since 256 of the 1024 errors act as logical X. -/
example : ∃ c, stabInit (.rows redundantRows) 5 1 none = .ok c ∧ BinaryArr c.stab ∧
    (∀ E : Pauli 5, (0 : ℝ) ≤ (fun _ => (4 ^ 5)⁻¹ : Pauli 5 → ℝ) E) ∧ ∑ E : Pauli 5, (fun _ => (4 ^ 5)⁻¹ : Pauli 5 → ℝ) E = 1 ∧
    ¬∀ E : Pauli 5, ((4 : ℝ) ^ 5)⁻¹ ≠ 0 → ∀ i < 1, symp (rowPauli 5 (c.logicalX.row i)) E = 0 ∧
      symp (rowPauli 5 (c.logicalZ.row i)) E = 0 := by
  obtain ⟨c, h1, h2, -⟩ := redundant_code
  have hc : Fintype.card (Pauli 5) = 4 ^ 5 := by
    rw [← Fintype.card_congr (⟨ofVec, Pauli.vec, fun _ => rfl, fun _ => rfl⟩ : BVec 5 ≃ Pauli 5)]
    simp [BVec, Fintype.card_prod, ZMod.card]
  refine ⟨c, h1, h2, fun _ => by positivity, ?_, fun H => ?_⟩
  · simp only [Finset.sum_const, Finset.card_univ, hc, nsmul_eq_mul]
    norm_num
  · have h256 := C151_count _ c h1 h2 (⟨fun _ => 1, fun _ => 0⟩ : Pauli 1)
    have : {E : Pauli 5 | seenBy (rowsOf c.logicalX) (rowsOf c.logicalZ) 1 E = ⟨fun _ => 1, fun _ => 0⟩} = ∅ := by
      refine Set.eq_empty_of_forall_notMem fun E hE => ?_
      have h0 := (seenBy_zero_iff _ c h1 h2 E).mpr (H E (by positivity))
      rw [Set.mem_ofPred_eq, h0] at hE
      have := congrFun (congrArg Pauli.x hE) 0
      simp at this
    rw [this] at h256
    simp at h256

/-- **C151, when nothing is lost in spite of errors in every round**.  With rounds of error correction every encoded state comes
back exactly when for every list of errors that can happen the product of all errors and corrections commutes with all
logical operators. -/
theorem C151_repaired {s : StabInput} {c : StabCode} (h : stabInit s c.n k none = .ok c) (hb : BinaryArr c.stab)
    (hind : Independent c.n c.stab) (hY : ∀ a < c.stab.rows, parityY (rowPauli c.n (c.stab.row a)) = 0)
    (table : List (ZMod 2) → List ℤ) (ht : TableFor c.n table)
    (len : ℕ) (addAncilla : Bool) (hla : (len = c.n ∧ addAncilla = true) ∨ (len = c.n + k ∧ addAncilla = false)) :
    ∃ (enc : (Fin k → ZMod 2) → List Gate) (dec : List Gate),
      (∀ δ, encodingCircuit c c.n (bitsList δ) = .ok (enc δ)) ∧ decodingCircuit c len addAncilla = .ok dec ∧
      ∀ {ι : Type} [Fintype ι] (es : ι → List (List ℤ)) (q : ι → ℝ), (∀ i, 0 ≤ q i) → ∑ i, q i = 1 →
        ((∀ α : Amp k, Normalised α → ∀ φ : ι → Amp c.n,
          (∀ i, Rounds c table (∑ δ, α δ • (run (enc δ) (ket 0) : Amp c.n)) (es i) (φ i)) →
            (∑ i, (q i : ℂ) • lastQubits (run dec (tensor (φ i) (ket 0)))) = pureState α) ↔
        ∀ i, q i ≠ 0 → ∀ j < k, symp (rowPauli c.n (c.logicalX.row j)) (ofVec (leftover c.n c.iter table 0 (es i))) = 0 ∧
          symp (rowPauli c.n (c.logicalZ.row j)) (ofVec (leftover c.n c.iter table 0 (es i))) = 0) := by
  classical
  obtain ⟨enc, dec, henc, hdec, hrun⟩ := C151_corrected h hb hind hY table ht len addAncilla hla
  refine ⟨enc, dec, henc, hdec, fun {ι} _ es q h0 h1 => ?_⟩
  have key := mixture_iff h0 h1 (fun i => seenBy (rowsOf c.logicalX) (rowsOf c.logicalZ) k
    (ofVec (leftover c.n c.iter table 0 (es i))))
  simp only [seenBy_zero_iff s c h hb] at key
  rw [← key]
  refine forall_congr' fun α => forall_congr' fun hα => ?_
  obtain ⟨hex, hall⟩ := hrun es q α hα
  constructor
  · intro H
    choose φ hφ using hex
    rw [← H φ hφ, hall φ hφ]
  · intro H φ hφ
    rw [hall φ hφ, H]

/-- The five-qubit code with its table, and no error or an X on one of the qubits with equal probabilities, meet the hypotheses. -/
example : ∃ c, stabInit (.rows fiveRows) c.n 1 none = .ok c ∧ BinaryArr c.stab ∧ Independent c.n c.stab ∧
    (∀ a < c.stab.rows, parityY (rowPauli c.n (c.stab.row a)) = 0) ∧ TableFor c.n fiveTable ∧
    (∀ i : Fin 6, (0 : ℝ) ≤ (fun _ => 1 / 6 : Fin 6 → ℝ) i) ∧ ∑ i : Fin 6, (fun _ => 1 / 6 : Fin 6 → ℝ) i = 1 := by
  obtain ⟨c, h1, h2, h3, h4, -⟩ := five_code
  have hn : c.n = 5 := (accepted_facts h1 h2 h3).1
  rw [← hn] at h1 h3 h4
  exact ⟨c, h1, h2, h3, h4, by rw [hn]; exact fiveTable_for, fun _ => by norm_num, by norm_num⟩

end PyQ
