import Verif.Lemmas.Encode
import Verif.Lemmas.Codeword
import Verif.Lemmas.Logical

/-! # The encoding circuit on a register that is not in the zero state -/

namespace PyQ

open Spec

variable {N n k r : ℕ}

/-- `X^a` on qubit `i`. -/
def bitX (N i : ℕ) (a : ZMod 2) : Pauli N := ⟨setBit 0 i a, 0⟩

/-- `Z^a` on qubit `i`. -/
def bitZ (N i : ℕ) (a : ZMod 2) : Pauli N := ⟨0, setBit 0 i a⟩

theorem dotp_setBit_zero {i : ℕ} (hi : i < N) (a : ZMod 2) (v : Fin N → ZMod 2) : dotp (setBit 0 i a) v = a * bitAt v i := by
  unfold dotp
  rw [Finset.sum_eq_single ⟨i, hi⟩]
  · rw [bitAt_of_lt _ hi]; simp [setBit]
  · intro j _ hj
    have : j.val ≠ i := fun h => hj (Fin.ext h)
    simp [setBit, this]
  · simp

theorem bitZ_act {i : ℕ} (hi : i < N) (a : ZMod 2) (ψ : Amp N) (b : Fin N → ZMod 2) :
    pauliAct (bitZ N i a) ψ b = sgn (a * bitAt b i) * ψ b := by
  rw [pauliAct_apply]
  simp only [bitZ, add_zero]
  rw [dotp_setBit_zero hi]

theorem hadamard_bitX {i : ℕ} (hi : i < N) (a : ZMod 2) (φ : Amp N) :
    applyGate ⟨none, .H, i⟩ (pauliAct (bitX N i a) φ) = pauliAct (bitZ N i a) (applyGate ⟨none, .H, i⟩ φ) := by
  funext b
  rw [bitZ_act hi, applyGate_H, applyGate_H, pauliAct_apply, pauliAct_apply]
  simp only [bitX, dotp_zero_left, sgn_zero, one_mul]
  have h : ∀ v, setBit b i v + setBit 0 i a = setBit b i (v + a) := by
    intro v; funext j
    simp only [Pi.add_apply, setBit]
    split_ifs <;> simp
  rw [h, h]
  rcases zmod2_cases a with rfl | rfl
  · simp [sgn_zero]
  · rw [show (1 : ZMod 2) + 1 = 0 from rfl, zero_add, one_mul]
    rcases zmod2_cases (bitAt b i) with hb | hb <;> rw [hb] <;> simp [sgn_zero, sgn_one] <;> ring

theorem ctrl_bitZ {i : ℕ} (hi : i < N) (a : ZMod 2) (p : Pauli N) (hx : bitAt p.x i = 0) (φ : Amp N) :
    ctrlAct (some i) p (pauliAct (bitZ N i a) φ) = pauliAct (bitZ N i a) (ctrlAct (some i) p φ) := by
  funext b
  rw [bitZ_act hi, ctrlAct_some, ctrlAct_some]
  split_ifs with h
  · rw [pauliAct_apply, bitZ_act hi, pauliAct_apply, bitAt_add, hx, add_zero]; ring
  · rw [bitZ_act hi]

/-- Moving a Pauli operator through the gates of one generator. -/
theorem hadamard_shift {i : ℕ} (hi : i < N) (g p P : Pauli N) (hgx : g.x ⟨i, hi⟩ = 1)
    (hp : p = ⟨setBit g.x i 0, setBit g.z i 0⟩) (hP : bitAt P.z i = 0)
    (ψ : Amp N) (hψ : ∀ b, bitAt b i = 1 → ψ b = 0) :
    ctrlAct (some i) p (applyGate ⟨none, .H, i⟩ (pauliAct P ψ)) =
      pauliAct ⟨setBit P.x i 0, setBit P.z i (bitAt P.x i + symp g ⟨setBit P.x i 0, P.z⟩)⟩
        (ctrlAct (some i) p (applyGate ⟨none, .H, i⟩ ψ)) := by
  set Q : Pauli N := ⟨setBit P.x i 0, P.z⟩ with hQ
  set a := bitAt P.x i with ha
  set s := symp g Q with hs
  have hQx : bitAt Q.x i = 0 := bitAt_setBit _ _ hi _
  have e1 : pauliAct P ψ = pauliAct (bitX N i a) (pauliAct Q ψ) := by
    rw [pauliAct_comp]
    simp only [bitX, dotp_zero_left, sgn_zero, one_smul]
    congr 1
    rcases P with ⟨px, pz⟩
    simp only [Pauli.add, hQ, zero_add]
    congr 1
    funext j
    simp only [Pi.add_apply, setBit]
    split_ifs with h
    · have hj : j = ⟨i, hi⟩ := Fin.ext h
      rw [add_zero, ha, bitAt_of_lt _ hi, hj]
    · simp
  have hφ : ∀ b, bitAt b i = 1 → pauliAct Q ψ b = 0 := by
    intro b hb
    rw [pauliAct_apply, hψ _ (by rw [bitAt_add, hQx, hb, add_zero]), mul_zero]
  have hpx : bitAt p.x i = 0 := by rw [hp]; exact bitAt_setBit _ _ hi _
  rw [e1, hadamard_bitX hi, ctrl_bitZ hi a p hpx, hadamard_step hi g p hgx hp _ hφ, hadamard_step hi g p hgx hp _ hψ]
  have z1 : pauliAct (bitZ N i s) ψ = ψ := by
    funext b
    rw [bitZ_act hi]
    rcases zmod2_cases (bitAt b i) with hb | hb
    · rw [hb]; simp [sgn_zero]
    · rw [hψ b hb, mul_zero]
  have z2 : pauliAct (bitZ N i s) (pauliAct g ψ) = (sgn s : ℂ) • pauliAct g ψ := by
    rw [pauliAct_comm, z1]
    congr 2
    unfold symp
    simp only [bitZ]
    rw [dotp_zero_left, zero_add, dotp_setBit_zero hi, bitAt_of_lt _ hi, hgx, mul_one]
  have e2 : ((Real.sqrt 2 : ℝ) : ℂ)⁻¹ • (pauliAct Q ψ + pauliAct g (pauliAct Q ψ)) =
      pauliAct Q (pauliAct (bitZ N i s) (((Real.sqrt 2 : ℝ) : ℂ)⁻¹ • (ψ + pauliAct g ψ))) := by
    rw [pauliAct_smul, pauliAct_add, z1, z2, pauliAct_smul, pauliAct_add, pauliAct_smul, pauliAct_comm g Q]
  rw [e2, pauliAct_comp Q, pauliAct_smul, pauliAct_comp]
  have d1 : dotp Q.z (bitZ N i s).x = 0 := by simp [bitZ, dotp_zero_right]
  have d2 : dotp (bitZ N i a).z (Q.add (bitZ N i s)).x = 0 := by
    simp only [bitZ, Pauli.add]
    rw [dotp_setBit_zero hi, add_zero, hQx, mul_zero]
  rw [d1, d2, sgn_zero, one_smul, one_smul]
  congr 1
  simp only [Pauli.add, bitZ, hQ, zero_add, add_zero]
  congr 1
  funext j
  simp only [Pi.add_apply, setBit]
  split_ifs with h
  · have hj : j = ⟨i, hi⟩ := Fin.ext h
    rw [bitAt_of_lt _ hi] at hP
    rw [hj, hP, zero_add]
  · simp

/-- The Z entries of row `i` beyond `i` and before `hi`, against the bits `b`. -/
def beyond (n : ℕ) (A : Arr ℤ) (hi i : ℕ) (b : Fin n → ZMod 2) : ZMod 2 :=
  ∑ j : Fin n, if i < j.val ∧ j.val < hi then ((A.get i (n + j) : ℤ) : ZMod 2) * b j else 0

/-- The error after `m` generators. -/
def unresetErr (n t : ℕ) (A : Arr ℤ) (m : ℕ) (b : Fin n → ZMod 2) : Pauli n :=
  ⟨fun j => if j.val < m then 0 else if j.val < t then b j else 0,
    fun j => if j.val < m then b j + beyond n A t j b else 0⟩

theorem generatorGates_shift {c : StabCode} (hsh : NormalShape n k r c.normalForm) {i : ℕ} (hi : i < r) {gs : List Gate}
    (h : generatorGates c n i = .ok gs) (P : Pauli n) (hP : bitAt P.z i = 0) (ψ : Amp n) (hψ : ∀ b, bitAt b i = 1 → ψ b = 0) :
    run gs (pauliAct P ψ) =
      pauliAct ⟨setBit P.x i 0, setBit P.z i (bitAt P.x i + symp (rowPauli n (c.normalForm.row i)) ⟨setBit P.x i 0, P.z⟩)⟩
        (run gs ψ) := by
  have h1 := hsh.rows
  have h2 := hsh.rank_le
  have hin : i < n := by omega
  obtain ⟨s, hs, hlen, hS⟩ := rowStr (n := n) (b := c.normalForm.row i) (by simp [Arr.row, hsh.cols])
    (row_binary hsh.binary (by omega))
  have e : generatorGates c n i = .ok (⟨none, .H, i⟩ :: strG (some i) 0 (s.set i 'I')) := by
    unfold generatorGates
    rw [hs, ok_bind', mapM_ok_of (g := fun cj => if cj.2 ≠ i then letterG (some i) cj.2 cj.1 else [])]
    · rw [ok_bind', ← List.flatMap_def, generatorLetter_flat _ _ _ _ (Nat.zero_le _), Nat.sub_zero]
      rfl
    · intro cj hcj
      have := mem_zipIdx_lt hcj
      unfold generatorLetter
      split_ifs
      · exact letterGates_ok (by omega) _ _
      · rfl
  rw [h] at e
  cases e
  have hgx : (rowPauli n (c.normalForm.row i)).x ⟨i, hin⟩ = 1 := by
    rw [rowPauli_x hsh.cols]
    simp only
    rw [hsh.upperI i hi i hi, if_pos rfl]; rfl
  have hI : ∀ j ∈ (some i : Option ℕ), (s.set i 'I').getD j 'I' = 'I' := by
    intro j hj
    simp at hj
    subst hj
    rw [getD_set_I, if_pos rfl]
  rw [run_cons, run_cons, run_strG_zero _ _ (by simp; omega) (by
      intro j hj
      simp at hj
      subst hj
      rw [getD_set_I, if_pos rfl]; rfl), run_strG_zero _ _ (by simp; omega) (by
      intro j hj
      simp at hj
      subst hj
      rw [getD_set_I, if_pos rfl]; rfl)]
  exact hadamard_shift hin _ _ P hgx (by rw [strPauli_set, hS]) hP ψ hψ

theorem symp_unreset {c : StabCode} (hsh : NormalShape n k r c.normalForm) {m t : ℕ} (hm : m < r) (b : Fin n → ZMod 2) :
    symp (rowPauli n (c.normalForm.row m)) ⟨setBit (unresetErr n t c.normalForm m b).x m 0, (unresetErr n t c.normalForm m b).z⟩ =
      beyond n c.normalForm t m b := by
  unfold symp
  have h0 : dotp (rowPauli n (c.normalForm.row m)).x (unresetErr n t c.normalForm m b).z = 0 := by
    unfold dotp
    apply Finset.sum_eq_zero
    intro j _
    simp only [unresetErr]
    split_ifs with h
    · rw [rowPauli_x hsh.cols, hsh.upperI m hm j (by omega), if_neg (by omega)]
      simp
    · rw [mul_zero]
  rw [h0, zero_add]
  unfold dotp beyond
  apply Finset.sum_congr rfl
  intro j _
  rw [rowPauli_z hsh.cols]
  simp only [setBit, unresetErr]
  split_ifs <;> first | omega | simp

/-- The generators on a basis state whose first qubits are not zero. -/
theorem generators_shift {c : StabCode} (hsh : NormalShape n k r c.normalForm) {t : ℕ} (ht : r ≤ t) {L : List (List Gate)}
    (hL : (List.range r).mapM (generatorGates c n) = .ok L) (a b : Fin n → ZMod 2) (ha : ∀ j < r, bitAt a j = 0) :
    run L.flatten (ket fun j => a j + if j.val < t then b j else 0) =
      pauliAct (unresetErr n t c.normalForm r b) (run L.flatten (ket a)) := by
  have h1 := hsh.rows
  have h2 := hsh.rank_le
  have hchoose : ∀ i, i < r → ∃ gs, generatorGates c n i = .ok gs ∧ (∀ g ∈ gs, g.WF n) ∧
      ∀ ψ : Amp n, (∀ b, bitAt b i = 1 → ψ b = 0) →
        run gs ψ = ((Real.sqrt 2 : ℝ) : ℂ)⁻¹ • (ψ + pauliAct (rowPauli n (c.normalForm.row i)) ψ) :=
    fun i hi => generatorGates_ok hsh hi
  choose! f hf1 hf2 hf3 using hchoose
  have hLf : L = (List.range r).map f := by
    have := mapM_ok_of (f := generatorGates c n) (g := f) (l := List.range r) fun i hi => hf1 i (List.mem_range.mp hi)
    rw [hL] at this
    exact Except.ok.inj this
  subst hLf
  have key : ∀ m, m ≤ r →
      run ((List.range m).map f).flatten (ket fun j => a j + if j.val < t then b j else 0) =
        pauliAct (unresetErr n t c.normalForm m b) (run ((List.range m).map f).flatten (ket a)) ∧
      ∀ j, m ≤ j → j < r → ∀ a', bitAt a' j = 1 → run ((List.range m).map f).flatten (ket a) a' = 0 := by
    intro m
    induction m with
    | zero =>
      intro _
      refine ⟨?_, ?_⟩
      · simp only [List.range_zero, List.map_nil, List.flatten_nil, run_nil]
        rw [pauliAct_ket]
        have : (unresetErr n t c.normalForm 0 b).z = 0 := by funext j; simp [unresetErr]
        rw [this, dotp_zero_left, sgn_zero, one_smul]
        congr 1
      · intro j _ hj a' ha'
        simp only [List.range_zero, List.map_nil, List.flatten_nil, run_nil]
        unfold ket
        rw [if_neg]
        rintro rfl
        rw [ha j hj] at ha'
        exact zero_ne_one ha'
    | succ m ih =>
      intro hm
      obtain ⟨i1, i2⟩ := ih (by omega)
      have hstep : ∀ ψ : Amp n, run ((List.range (m + 1)).map f).flatten ψ = run (f m) (run ((List.range m).map f).flatten ψ) := by
        intro ψ
        rw [List.range_succ, List.map_append, List.flatten_append, run_append]
        simp
      have hz : ∀ b', bitAt b' m = 1 → run ((List.range m).map f).flatten (ket a) b' = 0 := i2 m le_rfl (by omega)
      refine ⟨?_, ?_⟩
      · rw [hstep, hstep, i1, generatorGates_shift hsh (by omega) (hf1 m (by omega)) _ ?_ _ hz, symp_unreset hsh (by omega)]
        · congr 1
          have hmn : m < n := by omega
          unfold unresetErr
          congr 1
          · funext j
            simp only [setBit]
            split_ifs <;> first | rfl | omega
          · funext j
            simp only [setBit]
            rw [bitAt_of_lt _ hmn]
            by_cases hj : j.val = m
            · obtain rfl : j = ⟨m, hmn⟩ := Fin.ext hj
              have hmt : m < t := by omega
              simp [hmt]
            · rw [if_neg hj]
              split_ifs <;> first | rfl | omega
        · rw [bitAt_of_lt _ (by omega)]
          simp [unresetErr]
      · intro j hj1 hj2 a' ha'
        have hn : j < n := by omega
        rw [hstep, hf3 m (by omega) _ hz, Pi.smul_apply, Pi.add_apply, pauliAct_apply, i2 j (by omega) hj2 a' ha',
          i2 j (by omega) hj2 (a' + (rowPauli n (c.normalForm.row m)).x)]
        · simp
        · rw [bitAt_add, ha', bitAt_of_lt _ hn, rowPauli_x hsh.cols]
          simp only
          rw [hsh.upperI m (by omega) j hj2, if_neg (by omega)]
          simp
  exact (key r le_rfl).1

/-- The encoding circuit on any basis state of the register is the circuit on the last `k` qubits of it alone, followed by a
Pauli operator. -/
theorem encoding_shift {c : StabCode} (hn : c.n = n) (hk : c.k = k) (hst : c.stab.rows = c.normalForm.rows)
    (hsh : NormalShape n k c.rank c.normalForm) (hX : c.logicalX = logicalXOf n k c.rank c.normalForm)
    (δ : List ℤ) (hlen : δ.length = k) (hδ : IsBinary δ) {gs : List Gate} (hgs : encodingCircuit c n δ = .ok gs)
    (b : Fin n → ZMod 2) :
    run gs (ket b) = pauliAct (unresetErr n (n - k) c.normalForm c.rank b)
      (run gs (ket fun j => if j.val < n - k then 0 else b j)) := by
  have h1 := hsh.rows
  have h2 := hsh.rank_le
  obtain ⟨L, hL1, hL2, hL3⟩ := generators_ok hsh
  set m := n - k with hm
  set qs := List.range' c.rank (m - c.rank) with hqs
  have hlx : (if c.rank < c.stab.rows then
      if c.logicalX.rows < c.k then .error .index else .ok ((List.range c.k).reverse.flatMap (logicalXGates c))
      else .ok [] : Except PyErr (List Gate)) =
      .ok ((List.range k).reverse.flatMap fun i => cxG (fun q => c.logicalX.get i q = 1) (m + i) qs) := by
    have hrows : c.logicalX.rows = k := by rw [hX]; exact (lx_shape hsh).1
    have e : logicalXGates c = fun i => cxG (fun q => c.logicalX.get i q = 1) (m + i) qs := by
      funext i; unfold logicalXGates cxG; rw [hn, hk]
    by_cases hlt : c.rank < c.stab.rows
    · rw [if_pos hlt, if_neg (by omega), hk, e]
    · rw [if_neg hlt]
      have : qs = [] := by rw [hqs, show m - c.rank = 0 by omega]; rfl
      rw [this]
      simp [cxG]
  have hrun : encodingCircuit c n δ =
      .ok (δ.zipIdx.flatMap (prepG m) ++
        (((List.range k).reverse.flatMap fun i => cxG (fun q => c.logicalX.get i q = 1) (m + i) qs) ++ L.flatten)) := by
    unfold encodingCircuit pyAssert
    rw [if_pos (by rw [hk, hlen]), if_pos hn.symm]
    simp only [ok_bind']
    rw [hlx, hL1, hn, hk, prep_ok δ hδ]
    simp only [ok_bind', pure_ok', ← List.flatMap_def, List.append_assoc]
    rfl
  rw [hgs] at hrun
  cases hrun
  have hqm : ∀ q ∈ qs, q < m := by intro q hq; rw [hqs, List.mem_range'_1] at hq; omega
  simp only [run_append]
  rw [run_prepG m 0 δ hδ (by omega), run_prepG m 0 δ hδ (by omega)]
  rw [run_cxAll (fun i q => c.logicalX.get i q = 1) m qs (List.nodup_range' ..) hqm (by omega),
    run_cxAll (fun i q => c.logicalX.get i q = 1) m qs (List.nodup_range' ..) hqm (by omega)]
  rw [← generators_shift hsh (t := m) (by omega) hL1]
  · congr 2
    funext j
    have hbit : ∀ i ∈ (List.range k).reverse,
        bitAt (fun j : Fin n => b j + if m + 0 ≤ j.val then ((δ.getD (j.val - (m + 0)) 0 : ℤ) : ZMod 2) else 0) (m + i) =
        bitAt (fun j : Fin n => (if j.val < m then 0 else b j) +
          if m + 0 ≤ j.val then ((δ.getD (j.val - (m + 0)) 0 : ℤ) : ZMod 2) else 0) (m + i) := by
      intro i hi
      simp only [List.mem_reverse, List.mem_range] at hi
      rw [bitAt_of_lt _ (by omega), bitAt_of_lt _ (by omega)]
      simp
    have hsum : ((List.range k).reverse.map fun i => if j.val ∈ qs ∧ c.logicalX.get i j = 1 then
          bitAt (fun j : Fin n => b j + if m + 0 ≤ j.val then ((δ.getD (j.val - (m + 0)) 0 : ℤ) : ZMod 2) else 0) (m + i) else 0) =
        ((List.range k).reverse.map fun i => if j.val ∈ qs ∧ c.logicalX.get i j = 1 then
          bitAt (fun j : Fin n => (if j.val < m then 0 else b j) +
            if m + 0 ≤ j.val then ((δ.getD (j.val - (m + 0)) 0 : ℤ) : ZMod 2) else 0) (m + i) else 0) := by
      apply List.map_congr_left
      intro i hi
      rw [hbit i hi]
    rw [hsum]
    by_cases hj : j.val < m
    · rw [if_pos hj, if_pos hj]; ring
    · rw [if_neg hj, if_neg hj]; ring
  · intro j hj
    rw [bitAt_of_lt _ (by omega), List.map_reverse, List.sum_reverse, sum_map_range, if_pos (by simp only; omega),
      if_neg (by simp only; omega), Finset.sum_eq_zero]
    · simp
    · intro i _
      rw [if_neg]
      rintro ⟨h, -⟩
      rw [hqs, List.mem_range'_1] at h; simp only at h; omega

/-- What the rows of the normal form see of the error. -/
theorem symp_unreset_row {A : Arr ℤ} (hsh : NormalShape n k r A) (b : Fin n → ZMod 2) {i : ℕ} (hi : i < n - k) :
    symp (rowPauli n (A.row i)) (unresetErr n (n - k) A r b) = bitAt b i + beyond n A r i b := by
  have h1 := hsh.rows
  have h2 := hsh.rank_le
  have hin : i < n := by omega
  unfold symp
  by_cases hir : i < r
  · have e1 : dotp (rowPauli n (A.row i)).x (unresetErr n (n - k) A r b).z = bitAt b i + beyond n A (n - k) i b := by
      unfold dotp
      rw [Finset.sum_eq_single ⟨i, hin⟩]
      · rw [rowPauli_x hsh.cols]
        simp only [unresetErr]
        rw [hsh.upperI i hir i hir, if_pos rfl, if_pos hir, bitAt_of_lt _ hin]
        simp
      · intro j _ hj
        have hji : i ≠ j.val := fun h => hj (Fin.ext h.symm)
        simp only [unresetErr]
        split_ifs with h
        · rw [rowPauli_x hsh.cols, hsh.upperI i hir j h, if_neg hji]; simp
        · rw [mul_zero]
      · simp
    rw [e1, add_assoc]
    congr 1
    unfold dotp beyond
    rw [← Finset.sum_add_distrib]
    apply Finset.sum_congr rfl
    intro j _
    rw [rowPauli_z hsh.cols]
    simp only [unresetErr]
    by_cases hjr : j.val < r
    · rw [if_pos hjr, mul_zero, add_zero]
      by_cases hij : i < j.val
      · rw [if_pos ⟨hij, by omega⟩, if_pos ⟨hij, hjr⟩]
      · rw [if_neg (fun h => hij h.1), if_neg (fun h => hij h.1)]
    · rw [if_neg hjr, if_neg (show ¬ (i < j.val ∧ j.val < r) from fun h => hjr h.2)]
      by_cases hjt : j.val < n - k
      · rw [if_pos hjt, if_pos ⟨by omega, hjt⟩, add_self_z]
      · rw [if_neg hjt, if_neg (fun h => hjt h.2)]; simp
  · have e1 : dotp (rowPauli n (A.row i)).x (unresetErr n (n - k) A r b).z = 0 := by
      unfold dotp
      apply Finset.sum_eq_zero
      intro j _
      rw [rowPauli_x hsh.cols, hsh.lowerX i (by omega) (by omega) j j.2]; simp
    have e2 : beyond n A r i b = 0 := by
      unfold beyond
      apply Finset.sum_eq_zero
      intro j _
      rw [if_neg (by omega)]
    rw [e1, e2, zero_add, add_zero]
    unfold dotp
    rw [Finset.sum_eq_single ⟨i, hin⟩]
    · rw [rowPauli_z hsh.cols]
      simp only [unresetErr]
      rw [hsh.lowerI i (by omega) (by omega) i (by omega) (by omega), if_pos rfl, if_neg hir, if_pos hi, bitAt_of_lt _ hin]
      simp
    · intro j _ hj
      have hji : i ≠ j.val := fun h => hj (Fin.ext h.symm)
      rw [rowPauli_z hsh.cols]
      simp only [unresetErr]
      split_ifs with h h'
      · rw [mul_zero]
      · rw [hsh.lowerI i (by omega) (by omega) j (by omega) (by omega), if_neg hji]; simp
      · rw [mul_zero]
    · simp

end PyQ
