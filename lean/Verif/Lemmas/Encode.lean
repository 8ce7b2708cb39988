import Verif.Lemmas.Circuit
import Verif.Lemmas.Logical

/-! The encoding circuit, stage by stage. -/

namespace PyQ

open Spec

variable {N n k r : ℕ}

theorem applyGate_X_ket (q : ℕ) (hq : q < N) (b : Fin N → ZMod 2) :
    applyGate ⟨none, .X, q⟩ (ket b) = ket (fun j => b j + if j.val = q then 1 else 0) := by
  rw [applyGate_pauli none .X q hq (Or.inl rfl), ctrlAct_none]
  funext a
  rw [pauliAct_apply]
  have hz : (onePauli N q (opBits .X).1 (opBits .X).2).z = 0 := by funext j; simp [onePauli, opBits]
  rw [hz, dotp_zero_left, sgn_zero, one_mul]
  unfold ket
  congr 1
  rw [eq_iff_iff]
  have : (fun j : Fin N => b j + if j.val = q then 1 else 0) = b + (onePauli N q (opBits .X).1 (opBits .X).2).x := by
    funext j; simp [onePauli, opBits]
  rw [this]
  constructor
  · rintro rfl; rw [add_add_cancel_f]
  · rintro rfl; rw [add_add_cancel_f]

theorem applyGate_CX_ket (c q : ℕ) (hq : q < N) (hcq : c ≠ q) (b : Fin N → ZMod 2) :
    applyGate ⟨some c, .X, q⟩ (ket b) = ket (fun j => b j + if j.val = q then bitAt b c else 0) := by
  have h1 := applyGate_X_ket q hq b
  rw [applyGate_pauli none .X q hq (Or.inl rfl), ctrlAct_none] at h1
  rw [applyGate_pauli (some c) .X q hq (Or.inl rfl)]
  funext a
  rw [ctrlAct_some, h1]
  have hbit : ∀ v : ZMod 2, bitAt (fun j : Fin N => b j + if j.val = q then v else 0) c = bitAt b c := by
    intro v
    unfold bitAt
    split_ifs
    · simp [hcq]
    · rfl
  split_ifs with ha
  · unfold ket
    by_cases hb : bitAt b c = 1
    · rw [hb]
    · have hb0 : bitAt b c = 0 := (zmod2_cases _).resolve_right hb
      rw [if_neg, if_neg]
      · rintro rfl
        rw [hbit] at ha; exact hb ha
      · rintro rfl
        rw [hbit] at ha; exact hb ha
  · unfold ket
    by_cases hb : bitAt b c = 1
    · rw [if_neg, if_neg]
      · rintro rfl
        rw [hbit] at ha; exact ha hb
      · rintro rfl
        exact ha hb
    · have hb0 : bitAt b c = 0 := (zmod2_cases _).resolve_right hb
      rw [hb0]
      have : (fun j : Fin N => b j + if j.val = q then (0 : ZMod 2) else 0) = b := by funext j; simp
      rw [this]

/-! ### Preparation -/

/-- The gate for one entry of the state. -/
def prepG (m : ℕ) (bi : ℤ × ℕ) : List Gate := if bi.1 = 1 then [⟨none, .X, m + bi.2⟩] else []

theorem run_prepG (m o : ℕ) (δ : List ℤ) (hδ : IsBinary δ) (hlen : m + o + δ.length ≤ N) (b : Fin N → ZMod 2) :
    run ((δ.zipIdx o).flatMap (prepG m)) (ket b) =
      ket (fun j => b j + if m + o ≤ j.val then ((δ.getD (j.val - (m + o)) 0 : ℤ) : ZMod 2) else 0) := by
  induction δ generalizing o b with
  | nil =>
    simp only [List.zipIdx_nil, List.flatMap_nil, run_nil]
    congr 1
    funext j; simp
  | cons a δ ih =>
    simp only [List.length_cons] at hlen
    rw [List.zipIdx_cons, List.flatMap_cons, run_append]
    have hstep : run (prepG m (a, o)) (ket b) = ket (fun j => b j + if j.val = m + o then ((a : ℤ) : ZMod 2) else 0) := by
      unfold prepG
      rcases hδ a (by simp) with rfl | rfl
      · simp [run_nil]
      · rw [if_pos rfl, run_cons, run_nil, applyGate_X_ket _ (by omega)]
        simp
    rw [hstep, ih (o + 1) (fun v hv => hδ v (by simp [hv])) (by omega)]
    congr 1
    funext j
    rcases lt_trichotomy j.val (m + o) with h | h | h
    · rw [if_neg (by omega), if_neg (by omega), if_neg (by omega)]; ring
    · rw [if_pos h, if_neg (by omega), if_pos (by omega), show j.val - (m + o) = 0 by omega]
      simp
    · rw [if_neg (by omega), if_pos (by omega), if_pos (by omega),
        show j.val - (m + o) = (j.val - (m + (o + 1))) + 1 by omega, List.getD_cons_succ]
      ring

theorem prep_ok (δ : List ℤ) (hδ : IsBinary δ) :
    δ.zipIdx.mapM (prepareBit n k) = .ok (δ.zipIdx.map (prepG (n - k))) := by
  apply mapM_ok_of
  rintro ⟨a, i⟩ ha
  have ham : a ∈ δ := List.fst_mem_of_mem_zipIdx ha
  unfold prepareBit pyAssert prepG
  rw [if_pos (hδ a ham)]
  rfl

/-! ### The controlled logical X operators -/

/-- The controlled X gates of one logical X operator. -/
def cxG (P : ℕ → Prop) [DecidablePred P] (c : ℕ) (qs : List ℕ) : List Gate :=
  qs.flatMap fun q => if P q then [⟨some c, .X, q⟩] else []

theorem run_cxG (P : ℕ → Prop) [DecidablePred P] (c : ℕ) (qs : List ℕ) (hnd : qs.Nodup) (hq : ∀ q ∈ qs, q < N ∧ c ≠ q)
    (b : Fin N → ZMod 2) :
    run (cxG P c qs) (ket b) = ket (fun j => b j + if j.val ∈ qs ∧ P j then bitAt b c else 0) := by
  induction qs generalizing b with
  | nil => simp [cxG, run_nil]
  | cons q qs ih =>
    unfold cxG at ih ⊢
    rw [List.flatMap_cons, run_append]
    obtain ⟨hq1, hq2⟩ := hq q (by simp)
    have hstep : run (if P q then [(⟨some c, .X, q⟩ : Gate)] else []) (ket b) =
        ket (fun j => b j + if j.val = q ∧ P j then bitAt b c else 0) := by
      split_ifs with hP
      · rw [run_cons, run_nil, applyGate_CX_ket c q hq1 hq2]
        congr 1; funext j
        by_cases hj : j.val = q
        · rw [if_pos hj, if_pos ⟨hj, hj ▸ hP⟩]
        · rw [if_neg hj, if_neg (fun h => hj h.1)]
      · rw [run_nil]
        congr 1; funext j
        rw [if_neg (by rintro ⟨h1, h2⟩; exact hP (h1 ▸ h2)), add_zero]
    rw [hstep, ih (List.nodup_cons.mp hnd).2 (fun q' h' => hq q' (by simp [h']))]
    have hbit : bitAt (fun j : Fin N => b j + if j.val = q ∧ P j then bitAt b c else 0) c = bitAt b c := by
      by_cases hN : c < N
      · rw [bitAt_of_lt _ hN, if_neg (fun h => hq2 h.1), add_zero, bitAt_of_lt _ hN]
      · unfold bitAt; rw [dif_neg hN, dif_neg hN]
    rw [hbit]
    congr 1; funext j
    have hnotin := (List.nodup_cons.mp hnd).1
    by_cases hj : j.val = q
    · rw [if_neg (show ¬ (j.val ∈ qs ∧ P j) by rw [hj]; exact fun h => hnotin h.1), add_zero]
      simp [hj]
    · rw [if_neg (show ¬ (j.val = q ∧ P j) from fun h => hj h.1), add_zero]
      simp [hj]

theorem sum_map_range {M : Type} [AddCommMonoid M] (f : ℕ → M) (k : ℕ) :
    ((List.range k).map f).sum = ∑ i ∈ Finset.range k, f i := by
  induction k with
  | zero => simp
  | succ k ih => rw [List.range_succ, List.map_append, List.sum_append, ih, Finset.sum_range_succ]; simp

theorem run_cxAll (P : ℕ → ℕ → Prop) [∀ i, DecidablePred (P i)] (m : ℕ) (qs : List ℕ) (hnd : qs.Nodup)
    (hq : ∀ q ∈ qs, q < m) (hm : m ≤ N) (L : List ℕ) (b : Fin N → ZMod 2) :
    run (L.flatMap fun i => cxG (P i) (m + i) qs) (ket b) =
      ket (fun j => b j + (L.map fun i => if j.val ∈ qs ∧ P i j then bitAt b (m + i) else 0).sum) := by
  induction L generalizing b with
  | nil => simp [run_nil]
  | cons i L ih =>
    rw [List.flatMap_cons, run_append, run_cxG (P i) (m + i) qs hnd
      (fun q h => ⟨by have := hq q h; omega, by have := hq q h; omega⟩), ih]
    congr 1; funext j
    have hbit : ∀ i', bitAt (fun j : Fin N => b j + if j.val ∈ qs ∧ P i j then bitAt b (m + i) else 0) (m + i') = bitAt b (m + i') := by
      intro i'
      by_cases hN : m + i' < N
      · rw [bitAt_of_lt _ hN, if_neg (fun h => by have := hq _ h.1; simp at this), add_zero, bitAt_of_lt _ hN]
      · unfold bitAt; rw [dif_neg hN, dif_neg hN]
    simp only [hbit, List.map_cons, List.sum_cons, add_assoc]

/-! ### The generators -/

theorem applyGate_H (q : ℕ) (ψ : Amp N) (b : Fin N → ZMod 2) :
    applyGate ⟨none, .H, q⟩ ψ b =
      ((Real.sqrt 2 : ℝ) : ℂ)⁻¹ * (ψ (setBit b q 0) + sgn (bitAt b q) * ψ (setBit b q 1)) := by
  unfold applyGate
  rw [if_pos (by unfold Gate.active; simp), sum_zmod2]
  simp only [opMat_H]
  rw [mul_zero, mul_one, sgn_zero]
  ring

theorem setBit_self (b : Fin N → ZMod 2) (q : ℕ) : setBit b q (bitAt b q) = b := by
  funext j
  unfold setBit
  split_ifs with h
  · rw [← h, bitAt_fin]
  · rfl

theorem bitAt_setBit (b : Fin N → ZMod 2) (q : ℕ) (hq : q < N) (v : ZMod 2) : bitAt (setBit b q v) q = v := by
  rw [bitAt_of_lt _ hq]; simp [setBit]

/-- Hadamard on qubit `i` and the rest of `g` controlled by it turn a state without ones at `i` into `(1 + g) ψ / √2`. -/
theorem hadamard_step {i : ℕ} (hi : i < N) (g p : Pauli N) (hgx : g.x ⟨i, hi⟩ = 1)
    (hp : p = ⟨setBit g.x i 0, setBit g.z i 0⟩)
    (ψ : Amp N) (hψ : ∀ b, bitAt b i = 1 → ψ b = 0) :
    ctrlAct (some i) p (applyGate ⟨none, .H, i⟩ ψ) = ((Real.sqrt 2 : ℝ) : ℂ)⁻¹ • (ψ + pauliAct g ψ) := by
  funext b
  rw [ctrlAct_some, Pi.smul_apply, Pi.add_apply, smul_eq_mul, pauliAct_apply g]
  have hH : ∀ b, applyGate ⟨none, .H, i⟩ ψ b = ((Real.sqrt 2 : ℝ) : ℂ)⁻¹ * ψ (setBit b i 0) := by
    intro b
    rw [applyGate_H, hψ (setBit b i 1) (bitAt_setBit b i hi 1), mul_zero, add_zero]
  have hgi : bitAt g.x i = 1 := by rw [bitAt_of_lt _ hi, hgx]
  rcases zmod2_cases (bitAt b i) with hb | hb
  · rw [if_neg (by rw [hb]; decide), hH]
    have h1 : setBit b i 0 = b := by rw [← hb, setBit_self]
    rw [h1, hψ (b + g.x) (by rw [bitAt_add, hb, hgi, zero_add])]
    ring
  · rw [if_pos hb, pauliAct_apply, hH, hψ b hb]
    have hx : setBit (b + p.x) i 0 = b + g.x := by
      funext j
      subst hp
      simp only [setBit, Pi.add_apply]
      split_ifs with h
      · have hj : j = ⟨i, hi⟩ := Fin.ext h
        rw [hj, hgx, ← bitAt_of_lt b hi, hb]; rfl
      · rfl
    have hz : dotp p.z (b + p.x) = dotp g.z (b + g.x) := by
      unfold dotp
      apply Finset.sum_congr rfl
      intro j _
      subst hp
      simp only [setBit, Pi.add_apply]
      by_cases h : j.val = i
      · have hj : j = ⟨i, hi⟩ := Fin.ext h
        rw [if_pos h, zero_mul, hj, hgx, ← bitAt_of_lt b hi, hb]
        rw [show (1 : ZMod 2) + 1 = 0 from rfl, mul_zero]
      · rw [if_neg h, if_neg h]
    rw [hx, hz]
    ring

theorem getD_set_I (s : List Char) (i j : ℕ) : (s.set i 'I').getD j 'I' = if j = i then 'I' else s.getD j 'I' := by
  simp only [List.getD_eq_getElem?_getD, List.getElem?_set]
  by_cases h : i = j
  · subst h
    simp only [if_true]
    split_ifs <;> rfl
  · rw [if_neg h, if_neg (fun h' => h h'.symm)]

theorem strPauli_set (s : List Char) (i : ℕ) :
    strPauli N (s.set i 'I') = ⟨setBit (strPauli N s).x i 0, setBit (strPauli N s).z i 0⟩ := by
  unfold strPauli setBit
  congr 1
  · funext j
    rw [getD_set_I]
    split_ifs
    · rfl
    · rfl
  · funext j
    rw [getD_set_I]
    split_ifs
    · rfl
    · rfl

/-- Skipping the control qubit is the same as having the identity there. -/
theorem generatorLetter_flat (c : Option ℕ) (i : ℕ) (s : List Char) (o : ℕ) (hio : o ≤ i) :
    ((s.zipIdx o).flatMap fun cj => if cj.2 ≠ i then letterG c cj.2 cj.1 else []) = strG c o (s.set (i - o) 'I') := by
  induction s generalizing o with
  | nil => simp [strG]
  | cons a s ih =>
    rw [List.zipIdx_cons, List.flatMap_cons]
    by_cases h : o = i
    · subst h
      rw [if_neg (by simp), List.nil_append, Nat.sub_self, List.set_cons_zero, strG_cons]
      have : letterG c o 'I' = [] := rfl
      rw [this, List.nil_append]
      unfold strG
      apply List.flatMap_congr
      rintro ⟨a', j⟩ hj
      have := (List.mem_zipIdx hj).1
      rw [if_pos (by simp only; omega)]
    · rw [if_pos h, show i - o = (i - (o + 1)) + 1 by omega, List.set_cons_succ, strG_cons, ih (o + 1) (by omega)]


theorem rowStr {b : List ℤ} (hl : b.length = 2 * n) (hb : IsBinary b) :
    ∃ s, binaryRepToPauliStr b = .ok s ∧ s.length = n ∧ strPauli n s = rowPauli n b := by
  obtain ⟨s, h1, h2, h3, h4⟩ := C01_binary_roundtrip n b hl hb
  refine ⟨s, h1, h2, ?_⟩
  have hrow : b = s.map (fun c => (bits c).1) ++ s.map (fun c => (bits c).2) := by
    have := pauliStrRow_ok h3
    unfold pauliStrToBinaryRepresentation at h4
    simp only at h4
    rw [mapM_cons_except, this] at h4
    simp [Except.bind, List.mapM_nil] at h4
    exact h4.symm
  unfold strPauli rowPauli
  rw [hrow]
  congr 1
  · funext j
    have hj : j.val < s.length := by omega
    rw [List.getD_append _ _ _ _ (by simpa using hj), List.getD_eq_getElem (s.map _) _ (by simpa using hj),
      List.getD_eq_getElem s _ hj, List.getElem_map]
  · funext j
    have hj : j.val < s.length := by omega
    have e : n + j.val - (s.map (fun c => (bits c).1)).length = j.val := by simp; omega
    rw [List.getD_append_right _ _ _ _ (by simp; omega), e, List.getD_eq_getElem (s.map _) _ (by simpa using hj),
      List.getD_eq_getElem s _ hj, List.getElem_map]

theorem row_binary {A : Arr ℤ} (hb : BinaryArr A) {i : ℕ} (hi : i < A.rows) : IsBinary (A.row i) := by
  intro v hv
  simp only [Arr.row, List.mem_map, List.mem_range] at hv
  obtain ⟨j, hj, rfl⟩ := hv
  exact hb i hi j hj

theorem rowPauli_x {A : Arr ℤ} (hc : A.cols = 2 * n) (i : ℕ) (j : Fin n) :
    (rowPauli n (A.row i)).x j = ((A.get i j : ℤ) : ZMod 2) := congrFun (congrArg Prod.fst (rowPauli_row hc i)) j

theorem rowPauli_z {A : Arr ℤ} (hc : A.cols = 2 * n) (i : ℕ) (j : Fin n) :
    (rowPauli n (A.row i)).z j = ((A.get i (n + j) : ℤ) : ZMod 2) := congrFun (congrArg Prod.snd (rowPauli_row hc i)) j

/-- Gates of a string act inside the register. -/
theorem letterG_wf {c : Option ℕ} {q : ℕ} {ch : Char} (hq : q < N) (hc : ∀ i ∈ c, i < N ∧ (i ≠ q ∨ ch = 'I')) :
    ∀ g ∈ letterG c q ch, g.WF N := by
  intro g hg
  unfold letterG at hg
  split_ifs at hg with h1 h2 h3 <;> simp at hg <;> subst hg <;> refine ⟨hq, fun i hi => ⟨(hc i hi).1, ?_⟩⟩
  all_goals
    rcases (hc i hi).2 with h | h
    · exact h
    · subst h; simp_all

theorem strG_wf {c : Option ℕ} {s : List Char} (hs : s.length ≤ N) (hc : ∀ i ∈ c, i < N ∧ s.getD i 'I' = 'I') :
    ∀ g ∈ strG c 0 s, g.WF N := by
  intro g hg
  unfold strG at hg
  simp only [List.mem_flatMap] at hg
  obtain ⟨⟨ch, q⟩, hm, hg⟩ := hg
  have hm' := List.mem_zipIdx hm
  refine letterG_wf (by simp at hm'; omega) (fun i hi => ⟨(hc i hi).1, ?_⟩) g hg
  by_cases h : i = q
  · right
    have := (hc i hi).2
    simp at hm'
    rw [h, List.getD_eq_getElem _ _ hm'.1] at this
    rw [hm'.2, this]
  · left; exact h

/-- One generator of the encoder. -/
theorem generatorGates_ok {c : StabCode} (hsh : NormalShape n k r c.normalForm) {i : ℕ} (hi : i < r) :
    ∃ gs, generatorGates c n i = .ok gs ∧ (∀ g ∈ gs, g.WF n) ∧
      ∀ ψ : Amp n, (∀ b, bitAt b i = 1 → ψ b = 0) →
        run gs ψ = ((Real.sqrt 2 : ℝ) : ℂ)⁻¹ • (ψ + pauliAct (rowPauli n (c.normalForm.row i)) ψ) := by
  have h1 := hsh.rows
  have h2 := hsh.rank_le
  have hin : i < n := by omega
  obtain ⟨s, hs, hlen, hP⟩ := rowStr (n := n) (b := c.normalForm.row i) (by simp [Arr.row, hsh.cols])
    (row_binary hsh.binary (by omega))
  refine ⟨⟨none, .H, i⟩ :: strG (some i) 0 (s.set i 'I'), ?_, ?_, ?_⟩
  · unfold generatorGates
    rw [hs, ok_bind', mapM_ok_of (g := fun cj => if cj.2 ≠ i then letterG (some i) cj.2 cj.1 else [])]
    · rw [ok_bind', ← List.flatMap_def, generatorLetter_flat _ _ _ _ (Nat.zero_le _), Nat.sub_zero]
      rfl
    · intro cj hcj
      have := mem_zipIdx_lt hcj
      unfold generatorLetter
      split_ifs
      · exact letterGates_ok (by omega) _ _
      · rfl
  · intro g hg
    rcases List.mem_cons.mp hg with rfl | hg
    · exact ⟨hin, by simp⟩
    · refine strG_wf (by simp; omega) ?_ g hg
      intro j hj
      simp at hj
      subst hj
      exact ⟨hin, by rw [getD_set_I, if_pos rfl]⟩
  · intro ψ hψ
    rw [run_cons, run_strG_zero _ _ (by simp; omega)]
    · refine hadamard_step hin _ _ ?_ (by rw [strPauli_set, hP]) ψ hψ
      rw [rowPauli_x hsh.cols]
      simp only
      rw [hsh.upperI i hi i hi, if_pos rfl]; rfl
    · intro j hj
      simp at hj
      subst hj
      rw [getD_set_I, if_pos rfl]; rfl

/-- All generators of the encoder, in order. -/
theorem generators_ok {c : StabCode} (hsh : NormalShape n k r c.normalForm) :
    ∃ L, (List.range r).mapM (generatorGates c n) = .ok L ∧ (∀ g ∈ L.flatten, g.WF n) ∧
      ∀ b : Fin n → ZMod 2, (∀ j < r, bitAt b j = 0) →
        run L.flatten (ket b) = projected ((List.range r).map fun i => rowPauli n (c.normalForm.row i)) b := by
  have hchoose : ∀ i, i < r → ∃ gs, generatorGates c n i = .ok gs ∧ (∀ g ∈ gs, g.WF n) ∧
      ∀ ψ : Amp n, (∀ b, bitAt b i = 1 → ψ b = 0) →
        run gs ψ = ((Real.sqrt 2 : ℝ) : ℂ)⁻¹ • (ψ + pauliAct (rowPauli n (c.normalForm.row i)) ψ) :=
    fun i hi => generatorGates_ok hsh hi
  choose! f hf1 hf2 hf3 using hchoose
  refine ⟨(List.range r).map f, mapM_ok_of fun i hi => hf1 i (List.mem_range.mp hi), ?_, ?_⟩
  · intro g hg
    simp only [List.mem_flatten, List.mem_map, List.mem_range] at hg
    obtain ⟨l, ⟨i, hi, rfl⟩, hg⟩ := hg
    exact hf2 i hi g hg
  · intro b hb
    have key : ∀ m, m ≤ r →
        run ((List.range m).map f).flatten (ket b) =
          projected ((List.range m).map fun i => rowPauli n (c.normalForm.row i)) b ∧
        ∀ j, m ≤ j → j < r → ∀ a, bitAt a j = 1 →
          projected ((List.range m).map fun i => rowPauli n (c.normalForm.row i)) b a = 0 := by
      intro m
      induction m with
      | zero =>
        intro _
        refine ⟨rfl, ?_⟩
        intro j _ hj a ha
        show ket b a = 0
        unfold ket
        rw [if_neg]
        rintro rfl
        rw [hb j hj] at ha
        exact zero_ne_one ha
      | succ m ih =>
        intro hm
        obtain ⟨h1, h2⟩ := ih (by omega)
        have hstep : projected ((List.range (m + 1)).map fun i => rowPauli n (c.normalForm.row i)) b =
            ((Real.sqrt 2 : ℝ) : ℂ)⁻¹ • (projected ((List.range m).map fun i => rowPauli n (c.normalForm.row i)) b +
              pauliAct (rowPauli n (c.normalForm.row m))
                (projected ((List.range m).map fun i => rowPauli n (c.normalForm.row i)) b)) := by
          unfold projected
          rw [List.range_succ, List.map_append, List.foldl_append]
          rfl
        refine ⟨?_, ?_⟩
        · rw [List.range_succ, List.map_append, List.flatten_append, run_append, h1, ← List.range_succ, hstep]
          simp only [List.map_cons, List.map_nil, List.flatten_cons, List.flatten_nil, List.append_nil]
          exact hf3 m (by omega) _ (h2 m (le_refl _) (by omega))
        · intro j hj1 hj2 a ha
          have hn : j < n := by have := hsh.rows; have := hsh.rank_le; omega
          rw [hstep, Pi.smul_apply, Pi.add_apply, pauliAct_apply, h2 j (by omega) hj2 a ha,
            h2 j (by omega) hj2 (a + (rowPauli n (c.normalForm.row m)).x)]
          · simp
          · rw [bitAt_add, ha, bitAt_of_lt _ hn, rowPauli_x hsh.cols]
            simp only
            rw [hsh.upperI m (by omega) j hj2, if_neg (by omega)]
            simp
    exact (key r (le_refl _)).1

/-- The encoder of a code in normal form with the default logical operators. -/
theorem encoding_ok {c : StabCode} (hn : c.n = n) (hk : c.k = k) (hst : c.stab.rows = c.normalForm.rows)
    (hsh : NormalShape n k c.rank c.normalForm) (hX : c.logicalX = logicalXOf n k c.rank c.normalForm)
    (δ : List ℤ) (hlen : δ.length = k) (hδ : IsBinary δ) :
    ∃ gs, encodingCircuit c n δ = .ok gs ∧ (∀ g ∈ gs, g.WF n) ∧
      run gs (ket 0) = codeword n k c.rank c.normalForm (bitFn δ) ∧
      ∃ rest, gs = δ.zipIdx.flatMap (prepG (n - k)) ++ rest ∧ (∀ δ' : List ℤ, δ'.length = k → IsBinary δ' →
        encodingCircuit c n δ' = .ok (δ'.zipIdx.flatMap (prepG (n - k)) ++ rest)) := by
  have h1 := hsh.rows
  have h2 := hsh.rank_le
  obtain ⟨L, hL1, hL2, hL3⟩ := generators_ok hsh
  set m := n - k with hm
  set qs := List.range' c.rank (m - c.rank) with hqs
  have hlx : (if c.rank < c.stab.rows then
      if c.logicalX.rows < c.k then .error .index else .ok ((List.range c.k).reverse.flatMap (logicalXGates c))
      else .ok [] : Except PyErr (List Gate)) =
      .ok ((List.range k).reverse.flatMap fun i => cxG (fun q => c.logicalX.get i q = 1) (m + i) qs) := by
    have hrows : c.logicalX.rows = k := by rw [hX]; exact (lx_shape hsh).1
    have e : logicalXGates c = fun i => cxG (fun q => c.logicalX.get i q = 1) (m + i) qs := by
      funext i; unfold logicalXGates cxG; rw [hn, hk]
    by_cases hlt : c.rank < c.stab.rows
    · rw [if_pos hlt, if_neg (by omega), hk, e]
    · rw [if_neg hlt]
      have : qs = [] := by rw [hqs, show m - c.rank = 0 by omega]; rfl
      rw [this]
      simp [cxG]
  have hrun : ∀ δ' : List ℤ, δ'.length = k → IsBinary δ' → encodingCircuit c n δ' =
      .ok (δ'.zipIdx.flatMap (prepG m) ++
        (((List.range k).reverse.flatMap fun i => cxG (fun q => c.logicalX.get i q = 1) (m + i) qs) ++ L.flatten)) := by
    intro δ' hl hb
    unfold encodingCircuit pyAssert
    rw [if_pos (by rw [hk, hl]), if_pos hn.symm]
    simp only [ok_bind']
    rw [hlx, hL1, hn, hk, prep_ok δ' hb]
    simp only [ok_bind', pure_ok', ← List.flatMap_def, List.append_assoc]
    rfl
  refine ⟨_, hrun δ hlen hδ, ?_, ?_, _, rfl, hrun⟩
  · intro g hg
    simp only [List.mem_append] at hg
    rcases hg with hg | hg | hg
    · simp only [List.mem_flatMap] at hg
      obtain ⟨⟨v, i⟩, hi, hg⟩ := hg
      have := mem_zipIdx_lt hi
      unfold prepG at hg
      split_ifs at hg <;> simp at hg
      subst hg
      simp only at this
      exact ⟨by simp only; omega, by simp⟩
    · simp only [List.mem_flatMap, cxG, List.mem_reverse, List.mem_range] at hg
      obtain ⟨i, hi, q, hq, hg⟩ := hg
      rw [hqs, List.mem_range'_1] at hq
      split_ifs at hg <;> simp at hg
      subst hg
      refine ⟨by simp only; omega, ?_⟩
      intro c' hc'
      simp at hc'
      subst hc'
      exact ⟨by omega, by simp only; omega⟩
    · exact hL2 g hg
  · rw [run_append, run_append, run_prepG m 0 δ hδ (by omega)]
    rw [run_cxAll (fun i q => c.logicalX.get i q = 1) m qs (List.nodup_range' ..) (by
      intro q hq; rw [hqs, List.mem_range'_1] at hq; omega) (by omega), hL3]
    · unfold codeword
      congr 1
      funext j
      unfold codeLabel bitFn
      rw [List.map_reverse, List.sum_reverse, sum_map_range]
      have hjn := j.2
      by_cases hjr : j.val < c.rank
      · rw [if_pos hjr, if_neg (by omega)]
        rw [Finset.sum_eq_zero]
        · simp
        · intro i _
          rw [if_neg]
          rintro ⟨h, -⟩
          rw [hqs, List.mem_range'_1] at h; omega
      · rw [if_neg hjr]
        by_cases hjm : j.val < m
        · rw [if_pos hjm, if_neg (by omega)]
          simp only [Pi.zero_apply, zero_add]
          apply Finset.sum_congr rfl
          intro i hi
          rw [Finset.mem_range] at hi
          have hx : c.logicalX.get i j = c.normalForm.get j (n + m + i) := by
            rw [hX, lx_x hsh hjn, if_neg hjr, if_pos (by omega)]
            congr 1; omega
          have hbit : bitAt (fun j : Fin n => if m + 0 ≤ j.val then ((δ.getD (j.val - (m + 0)) 0 : ℤ) : ZMod 2) else 0) (m + i)
              = ((δ.getD i 0 : ℤ) : ZMod 2) := by
            rw [bitAt_of_lt _ (by omega), if_pos (by simp only; omega)]
            simp
          have hb01 := hsh.binary j.val (by omega) (n + m + i) (by rw [hsh.cols]; omega)
          have hin : j.val ∈ qs := by rw [hqs, List.mem_range'_1]; omega
          by_cases h1 : c.logicalX.get i j = 1
          · rw [if_pos ⟨hin, h1⟩, ← hx, h1]
            simp only [Nat.add_zero] at hbit ⊢
            rw [hbit]; simp
          · rw [if_neg (fun h => h1 h.2)]
            rw [hx] at h1
            rw [hb01.resolve_right h1]; simp
        · rw [if_neg hjm, if_pos (by omega), Finset.sum_eq_zero]
          · rw [add_zero, Pi.zero_apply, zero_add, Nat.add_zero]
          · intro i _
            rw [if_neg]
            rintro ⟨h, -⟩
            rw [hqs, List.mem_range'_1] at h; omega
    · intro j hj
      rw [bitAt_of_lt _ (by omega), List.map_reverse, List.sum_reverse, sum_map_range, if_neg (by simp only; omega),
        Finset.sum_eq_zero]
      · simp
      · intro i _
        rw [if_neg]
        rintro ⟨h, -⟩
        rw [hqs, List.mem_range'_1] at h; simp only at h; omega

end PyQ
