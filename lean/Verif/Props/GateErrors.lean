import Verif.Props.WrongReadings
import Verif.Spec.GateErrors

/-! # C147: an error inside a syndrome measurement -/

namespace PyQ

open Spec

variable {n : ℕ}

/-! ### Splitting the circuit -/

theorem letterG_short (c : Option ℕ) (q : ℕ) (ch : Char) : letterG c q ch = [] ∨ ∃ g, letterG c q ch = [g] ∧ g.wire = q := by
  unfold letterG
  split_ifs
  · exact Or.inr ⟨_, rfl, rfl⟩
  · exact Or.inr ⟨_, rfl, rfl⟩
  · exact Or.inr ⟨_, rfl, rfl⟩
  · exact Or.inl rfl

theorem strG_split (c : Option ℕ) (s : List Char) (o i : ℕ) (hi : i ≤ (strG c o s).length) :
    ∃ m ≤ s.length, (strG c o s).take i = strG c o (s.take m) ∧ (strG c o s).drop i = strG c (o + m) (s.drop m) := by
  induction s generalizing o i with
  | nil =>
    have h0 : strG c o [] = [] := rfl
    rw [h0] at hi ⊢
    exact ⟨0, le_refl _, by simp [h0], by simp [strG]⟩
  | cons a s ih =>
    rw [strG_cons] at hi ⊢
    rcases letterG_short c o a with h0 | ⟨g, h0, -⟩
    · rw [h0, List.nil_append] at hi ⊢
      obtain ⟨m, hm, h1, h2⟩ := ih (o + 1) i hi
      refine ⟨m + 1, by simpa using hm, ?_, ?_⟩
      · rw [List.take_succ_cons, strG_cons, h0, List.nil_append, h1]
      · rw [List.drop_succ_cons, h2, show o + 1 + m = o + (m + 1) by omega]
    · cases i with
      | zero => exact ⟨0, by omega, rfl, by rw [List.drop_zero, List.drop_zero, add_zero, strG_cons]⟩
      | succ i =>
        rw [h0, List.singleton_append] at hi ⊢
        obtain ⟨m, hm, h1, h2⟩ := ih (o + 1) i (by simpa using hi)
        refine ⟨m + 1, by simpa using hm, ?_, ?_⟩
        · rw [List.take_succ_cons, List.take_succ_cons, strG_cons, h0, List.singleton_append, h1]
        · rw [List.drop_succ_cons, List.drop_succ_cons, h2, show o + 1 + m = o + (m + 1) by omega]

theorem strG_wires (c : Option ℕ) (s : List Char) (o j : ℕ) :
    (∃ g ∈ strG c o s, g.wire = j) ↔ o ≤ j ∧ j < o + s.length ∧ letterG c j (s.getD (j - o) 'I') ≠ [] := by
  induction s generalizing o with
  | nil => simp [strG]; omega
  | cons a s ih =>
    rw [strG_cons]
    simp only [List.mem_append, or_and_right, exists_or]
    rw [ih (o + 1)]
    constructor
    · rintro (⟨g, hg, rfl⟩ | ⟨h1, h2, h3⟩)
      · rcases letterG_short c o a with h0 | ⟨g', h0, hw⟩
        · rw [h0] at hg; cases hg
        · rw [h0, List.mem_singleton] at hg
          rw [hg, hw]
          refine ⟨le_refl _, by simp, ?_⟩
          rw [Nat.sub_self]
          simp only [List.getD_cons_zero]
          rw [h0]; simp
      · refine ⟨by omega, by simp; omega, ?_⟩
        rw [show j - o = j - (o + 1) + 1 by omega, List.getD_cons_succ]
        exact h3
    · rintro ⟨h1, h2, h3⟩
      rcases eq_or_lt_of_le h1 with rfl | hlt
      · left
        rw [Nat.sub_self, List.getD_cons_zero] at h3
        rcases letterG_short c o a with h0 | ⟨g', h0, hw⟩
        · exact absurd h0 h3
        · exact ⟨g', by rw [h0]; simp, hw⟩
      · right
        refine ⟨hlt, by simp at h2; omega, ?_⟩
        rwa [show j - o = j - (o + 1) + 1 by omega, List.getD_cons_succ] at h3

theorem bits_of_none {c : Option ℕ} {q : ℕ} {ch : Char} (h : letterG c q ch = []) : bits ch = (0, 0) := by
  unfold letterG at h
  unfold bits
  split_ifs at h ⊢ <;> simp_all

/-- The letters from position `m` on. -/
def restPauli (n m : ℕ) (s : List Char) : Pauli n := strPauli n (List.replicate m 'I' ++ s.drop m)

theorem rest_getD (s : List Char) (m j : ℕ) (hm : m ≤ s.length) :
    (List.replicate m 'I' ++ s.drop m).getD j 'I' = if j < m then 'I' else s.getD j 'I' := by
  split_ifs with h
  · rw [List.getD_append _ _ _ _ (by simpa using h), List.getD_eq_getElem _ _ (by simpa using h)]
    simp
  · rw [List.getD_append_right _ _ _ _ (by simpa using h)]
    simp only [List.length_replicate, List.getD_eq_getElem?_getD, List.getElem?_drop]
    rw [show m + (j - m) = j by omega]

theorem take_getD (s : List Char) (m j : ℕ) : (s.take m).getD j 'I' = if j < m then s.getD j 'I' else 'I' := by
  simp only [List.getD_eq_getElem?_getD, List.getElem?_take]
  split_ifs <;> simp

theorem doneBy_first (a : ℕ) (s : List Char) (m : ℕ) (g : Gate) (hg : g.wire = n) :
    doneBy (g :: strG (some a) 0 (s.take m)) (strPauli n s) = strPauli n (s.take m) := by
  have key : ∀ (j : Fin n) (f : ℤ × ℤ → ℤ), f (0, 0) = 0 →
      (if ∃ g' ∈ g :: strG (some a) 0 (s.take m), g'.wire = j.val then ((f (bits (s.getD j 'I')) : ℤ) : ZMod 2) else 0) =
        ((f (bits ((s.take m).getD j 'I')) : ℤ) : ZMod 2) := by
    intro j f hf
    have hiff : (∃ g' ∈ g :: strG (some a) 0 (s.take m), g'.wire = j.val) ↔
        ∃ g' ∈ strG (some a) 0 (s.take m), g'.wire = j.val := by
      simp only [List.mem_cons, exists_eq_or_imp]
      constructor
      · rintro (h | h)
        · have := j.2; omega
        · exact h
      · exact Or.inr
    rw [if_congr (hiff.trans (strG_wires _ _ _ _)) rfl rfl, Nat.sub_zero, zero_add]
    have e0 : bits 'I' = (0, 0) := rfl
    by_cases hj : j.val < (s.take m).length
    · have hjm : j.val < m := by rw [List.length_take] at hj; omega
      have et : (s.take m).getD j 'I' = s.getD j 'I' := by rw [take_getD, if_pos hjm]
      rw [et]
      by_cases h0 : letterG (some a) j (s.getD j 'I') = []
      · rw [if_neg (by rintro ⟨-, -, h⟩; exact h h0), bits_of_none h0, hf]; rfl
      · rw [if_pos ⟨by omega, hj, h0⟩]
    · rw [if_neg (by rintro ⟨-, h, -⟩; exact hj h), List.getD_eq_default _ _ (by omega), e0, hf]; rfl
  unfold doneBy strPauli
  congr 1
  · funext j; exact key j Prod.fst rfl
  · funext j; exact key j Prod.snd rfl

theorem doneBy_rest (a : ℕ) (s : List Char) (m : ℕ) (hm : m ≤ s.length) (g : Gate) (hg : g.wire = n) :
    doneBy (strG (some a) m (s.drop m) ++ [g]) (strPauli n s) = restPauli n m s := by
  have key : ∀ (j : Fin n) (f : ℤ × ℤ → ℤ), f (0, 0) = 0 →
      (if ∃ g' ∈ strG (some a) m (s.drop m) ++ [g], g'.wire = j.val then ((f (bits (s.getD j 'I')) : ℤ) : ZMod 2) else 0) =
        ((f (bits ((List.replicate m 'I' ++ s.drop m).getD j 'I')) : ℤ) : ZMod 2) := by
    intro j f hf
    have hiff : (∃ g' ∈ strG (some a) m (s.drop m) ++ [g], g'.wire = j.val) ↔
        ∃ g' ∈ strG (some a) m (s.drop m), g'.wire = j.val := by
      simp only [List.mem_append, List.mem_singleton, or_and_right, exists_or, exists_eq_left]
      constructor
      · rintro (h | h)
        · exact h
        · have := j.2; omega
      · exact Or.inl
    rw [if_congr (hiff.trans (strG_wires _ _ _ _)) rfl rfl, rest_getD s m j hm]
    have e0 : bits 'I' = (0, 0) := rfl
    have ed : m ≤ j.val → (s.drop m).getD (j - m) 'I' = s.getD j 'I' := by
      intro hj
      simp only [List.getD_eq_getElem?_getD, List.getElem?_drop]
      rw [show m + (j.val - m) = j.val by omega]
    by_cases hj : j.val < m
    · rw [if_neg (by rintro ⟨h, -⟩; omega), if_pos hj, e0, hf]; rfl
    · rw [if_neg hj, ed (by omega)]
      by_cases h0 : letterG (some a) j (s.getD j 'I') = []
      · rw [if_neg (by rintro ⟨-, -, h⟩; exact h h0), bits_of_none h0, hf]; rfl
      · by_cases hl : j.val < s.length
        · rw [if_pos ⟨by omega, by rw [List.length_drop]; omega, h0⟩]
        · rw [List.getD_eq_default _ _ (by omega), e0, hf]; simp
  unfold doneBy restPauli strPauli
  congr 1
  · funext j; exact key j Prod.fst rfl
  · funext j; exact key j Prod.snd rfl

theorem strFrom_rest (N m : ℕ) (s : List Char) (hm : m ≤ s.length) :
    strFrom N m (s.drop m) = strPauli N (List.replicate m 'I' ++ s.drop m) := by
  have key : ∀ (j : ℕ) (f : ℤ × ℤ → ℤ), f (0, 0) = 0 →
      (if m ≤ j then ((f (bits ((s.drop m).getD (j - m) 'I')) : ℤ) : ZMod 2) else 0) =
        ((f (bits ((List.replicate m 'I' ++ s.drop m).getD j 'I')) : ℤ) : ZMod 2) := by
    intro j f hf
    rw [rest_getD s m j hm]
    by_cases hj : j < m
    · rw [if_neg (by omega), if_pos hj, show bits 'I' = (0, 0) from rfl, hf]; rfl
    · rw [if_pos (by omega), if_neg hj]
      simp only [List.getD_eq_getElem?_getD, List.getElem?_drop]
      rw [show m + (j - m) = j by omega]
  unfold strFrom strPauli
  congr 1
  · funext j; exact key j Prod.fst rfl
  · funext j; exact key j Prod.snd rfl

/-! ### The state after the circuit -/

theorem pauliAct_split (q : Pauli (n + 1)) (φ : Amp n) (u : ZMod 2) :
    pauliAct q (tensor φ (qubit u)) = (sgn (ancZ q * u) : ℂ) • tensor (pauliAct (regPart q) φ) (qubit (u + ancX q)) := by
  funext b
  rw [pauliAct_apply, Pi.smul_apply, tensor_apply, tensor_apply, pauliAct_apply, dotp_split, leftB_add, rightB_add, smul_eq_mul]
  have hl : Fin.natAdd n (0 : Fin 1) = Fin.last n := rfl
  have hr : ∀ v : ZMod 2, qubit v (rightB b) = if rightB b 0 = v then 1 else 0 := by
    intro v
    unfold qubit ket
    congr 1
    refine propext ⟨fun h => by rw [h], fun h => funext fun j => ?_⟩
    rw [Subsingleton.elim j 0, h]
  have hr' : qubit u (rightB b + rightB q.x) = if rightB b 0 + ancX q = u then 1 else 0 := by
    unfold qubit ket
    congr 1
    refine propext ⟨fun h => congrFun h 0, fun h => funext fun j => ?_⟩
    rw [Subsingleton.elim j 0, ← h]; rfl
  have hd : dotp (rightB q.z) (rightB b + rightB q.x) = ancZ q * (rightB b 0 + ancX q) := by
    unfold dotp
    rw [Fin.sum_univ_one]; rfl
  rw [hr', hr, hd]
  have hc : (rightB b 0 + ancX q = u) ↔ rightB b 0 = u + ancX q := by
    constructor
    · intro h; rw [← h, add_assoc, add_self_z, add_zero]
    · intro h; rw [h, add_assoc, add_self_z, add_zero]
  by_cases h : rightB b 0 = u + ancX q
  · rw [if_pos (hc.mpr h), if_pos h, hc.mpr h, sgn_add]
    show _ * _ * (_ * 1) = _ * (sgn (dotp (leftB q.z) (leftB b + leftB q.x)) * φ (leftB b + leftB q.x) * 1)
    ring
  · rw [if_neg (fun h' => h (hc.mp h')), if_neg h]; ring

theorem run_part (s : List Char) (hs : s.length ≤ n) (χ : Amp n) (u : ZMod 2) :
    ctrlAct (some n) (strPauli (n + 1) s) (tensor χ (qubit u)) = tensor (if u = 1 then pauliAct (strPauli n s) χ else χ) (qubit u) :=
  ctrlAct_tensor s hs χ (fun _ : Fin 1 => u) (i := 0) (by omega)

/-- The operators of the two parts of a string. -/
theorem halves {s : List Char} {m : ℕ} (hm : m ≤ s.length) {φ : Amp n} {t : ZMod 2}
    (hφ : pauliAct (strPauli n s) φ = (sgn t : ℂ) • φ) :
    (∀ j : Fin n, ((strPauli n (s.take m)).x j = 0 ∧ (strPauli n (s.take m)).z j = 0) ∨
      ((restPauli n m s).x j = 0 ∧ (restPauli n m s).z j = 0)) ∧
    (restPauli n m s).add (strPauli n (s.take m)) = strPauli n s ∧
    pauliAct (restPauli n m s) (pauliAct (strPauli n (s.take m)) φ) = (sgn t : ℂ) • φ ∧
    pauliAct (restPauli n m s) φ = (sgn (parityY (strPauli n (s.take m)) + t) : ℂ) • pauliAct (strPauli n (s.take m)) φ := by
  set P1 := strPauli n (s.take m) with hP1
  set P2 := restPauli n m s with hP2
  have hdis : ∀ j : Fin n, (P1.x j = 0 ∧ P1.z j = 0) ∨ (P2.x j = 0 ∧ P2.z j = 0) := by
    intro j
    by_cases hj : j.val < m
    · right
      simp only [hP2, restPauli, strPauli, rest_getD s m _ hm, if_pos hj]
      exact ⟨rfl, rfl⟩
    · left
      simp only [hP1, strPauli, take_getD, if_neg hj]
      exact ⟨rfl, rfl⟩
  have hsum : P2.add P1 = strPauli n s := by
    unfold Pauli.add
    have : ∀ j : Fin n, P2.x j + P1.x j = (strPauli n s).x j ∧ P2.z j + P1.z j = (strPauli n s).z j := by
      intro j
      simp only [hP1, hP2, restPauli, strPauli, rest_getD s m _ hm, take_getD]
      by_cases hj : j.val < m
      · simp only [if_pos hj]; exact ⟨zero_add _, zero_add _⟩
      · simp only [if_neg hj]; exact ⟨add_zero _, add_zero _⟩
    have e1 : P2.x + P1.x = (strPauli n s).x := funext fun j => (this j).1
    have e2 : P2.z + P1.z = (strPauli n s).z := funext fun j => (this j).2
    rw [e1, e2]
  have hd1 : dotp P2.z P1.x = 0 := by
    unfold dotp
    refine Finset.sum_eq_zero fun j _ => ?_
    rcases hdis j with h | h
    · rw [h.1, mul_zero]
    · rw [h.2, zero_mul]
  have hd2 : symp P2 P1 = 0 := by
    have hd3 : dotp P2.x P1.z = 0 := by
      unfold dotp
      refine Finset.sum_eq_zero fun j _ => ?_
      rcases hdis j with h | h
      · rw [h.2, mul_zero]
      · rw [h.1, zero_mul]
    show dotp P2.x P1.z + dotp P2.z P1.x = 0
    rw [hd1, hd3, add_zero]
  have h21 : pauliAct P2 (pauliAct P1 φ) = (sgn t : ℂ) • φ := by
    rw [pauliAct_comp, hd1, sgn_zero, one_smul, hsum, hφ]
  have h11 : pauliAct P1 (pauliAct P1 φ) = (sgn (parityY P1) : ℂ) • φ := by
    rw [pauliAct_comp]
    have : P1.add P1 = ⟨0, 0⟩ := by
      unfold Pauli.add
      congr 1 <;> (funext j; exact add_self_z _)
    rw [this, pauliAct_one]; rfl
  have h2 : pauliAct P2 φ = (sgn (parityY P1 + t) : ℂ) • pauliAct P1 φ := by
    have e : φ = (sgn (parityY P1) : ℂ) • pauliAct P1 (pauliAct P1 φ) := by
      rw [h11, smul_smul, ← sgn_add, add_self_z, sgn_zero, one_smul]
    conv_lhs => rw [e]
    rw [pauliAct_smul, pauliAct_comm P2 P1, hd2, sgn_zero, one_smul, h21, pauliAct_smul, smul_smul, ← sgn_add]
  exact ⟨hdis, hsum, h21, h2⟩

theorem run_broken {s : List Char} (hs : s.length ≤ n) {m : ℕ} (hm : m ≤ s.length) {φ : Amp n} {t : ZMod 2}
    (hφ : pauliAct (strPauli n s) φ = (sgn t : ℂ) • φ) (q : Pauli (n + 1)) :
    run (strG (some n) m (s.drop m) ++ [⟨none, .H, n⟩])
        (pauliAct q (run (⟨none, .H, n⟩ :: strG (some n) 0 (s.take m)) (tensor φ (qubit 0)))) =
      (sgn (ancX q * ancZ q) : ℂ) •
        tensor (pauliAct (regPart q) (if ancX q = 1 then pauliAct (strPauli n (s.take m)) φ else φ))
          (qubit (t + ancZ q + symp (restPauli n m s) (regPart q) + ancX q * parityY (strPauli n (s.take m)))) := by
  set P1 := strPauli n (s.take m) with hP1
  set P2 := restPauli n m s with hP2
  set E := regPart q with hE
  have lt : (s.take m).length ≤ n := by rw [List.length_take]; omega
  have lr : (List.replicate m 'I' ++ s.drop m).length ≤ n := by
    rw [List.length_append, List.length_replicate, List.length_drop]; omega
  -- the two parts of the circuit
  have hA : ∀ (χ : Amp n) (u : ZMod 2), run (strG (some n) 0 (s.take m)) (tensor χ (qubit u)) =
      tensor (if u = 1 then pauliAct P1 χ else χ) (qubit u) := by
    intro χ u
    rw [run_strG_zero _ _ (by omega)]
    · exact run_part _ lt χ u
    · intro i hi
      simp only [Option.mem_def, Option.some.injEq] at hi
      subst hi
      rw [List.getD_eq_default _ _ (by omega)]; rfl
  have hB : ∀ (χ : Amp n) (u : ZMod 2), run (strG (some n) m (s.drop m)) (tensor χ (qubit u)) =
      tensor (if u = 1 then pauliAct P2 χ else χ) (qubit u) := by
    intro χ u
    rw [run_strG _ _ _ (by rw [List.length_drop]; omega), strFrom_rest _ _ _ hm]
    · exact run_part _ lr χ u
    · intro i hi
      simp only [Option.mem_def, Option.some.injEq] at hi
      subst hi
      right
      rw [List.getD_eq_default _ _ (by rw [List.length_drop]; omega)]; rfl
  obtain ⟨-, -, h21, h2⟩ := halves hm hφ
  rw [← hP1, ← hP2] at h21 h2
  -- the run
  rw [run_cons, applyGate_H_last, sgn_zero, one_smul, run_smul, run_add, hA, hA, if_neg (by decide), if_pos rfl, pauliAct_smul,
    pauliAct_add, pauliAct_split, pauliAct_split, mul_zero, sgn_zero, one_smul, mul_one, run_append, run_smul, run_add,
    run_smul (strG (some n) m (s.drop m)), hB, hB]
  rcases zmod2_cases (ancX q) with hx | hx
  · rw [hx]
    simp only [zero_mul, sgn_zero, one_smul, add_zero]
    rw [if_neg (by decide), if_pos trivial, if_neg (by decide)]
    have e : pauliAct P2 (pauliAct E (pauliAct P1 φ)) = (sgn (symp P2 E + t) : ℂ) • pauliAct E φ := by
      rw [pauliAct_comm P2 E, h21, pauliAct_smul, smul_smul, ← sgn_add]
    rw [e, tensor_smul_left, smul_smul, ← sgn_add, ← applyGate_H_last, run_cons, run_nil, applyGate_HH _ (by omega)]
    congr 2
    ring
  · rw [hx, one_mul, one_mul, zero_add, show (1 : ZMod 2) + 1 = 0 from rfl, if_pos rfl, if_neg (by decide), if_pos rfl]
    have e : pauliAct P2 (pauliAct E φ) = (sgn (symp P2 E + (parityY P1 + t)) : ℂ) • pauliAct E (pauliAct P1 φ) := by
      rw [pauliAct_comm P2 E, h2, pauliAct_smul, smul_smul, ← sgn_add]
    have e2 : (sgn (symp P2 E + (parityY P1 + t)) : ℂ) =
        sgn (ancZ q) * sgn (t + ancZ q + symp P2 E + parityY P1) := by
      rw [← sgn_add]
      congr 1
      rw [show ancZ q + (t + ancZ q + symp P2 E + parityY P1) = (ancZ q + ancZ q) + (symp P2 E + (parityY P1 + t)) by ring,
        add_self_z, zero_add]
    rw [e, tensor_smul_left, e2, ← smul_smul, ← smul_add, smul_comm, add_comm (_ • tensor _ (qubit 1)), ← applyGate_H_last, run_cons, run_nil,
      applyGate_smul, applyGate_HH _ (by omega)]

/-- The circuit of a measurement, in letters. -/
theorem circuit_letters (c : StabCode) {st : StabArg} (hs : st.Valid c.n) :
    ∃ s : List Char, s.length ≤ c.n ∧ strPauli c.n s = st.pauli c.n ∧
      syndromeCircuit c c.n c.n st = .ok (⟨none, .H, c.n⟩ :: strG (some c.n) 0 s ++ [⟨none, .H, c.n⟩], c.n) := by
  cases st with
  | str s => exact ⟨s, hs.1, rfl, syndromeCircuit_str (Or.inl ⟨rfl, rfl⟩) hs.1 hs.2⟩
  | bin b =>
    obtain ⟨s, h1, h2, -, h4⟩ := syndromeCircuit_bin (c := c) (Or.inl ⟨rfl, rfl⟩) hs.1 hs.2
    exact ⟨s, by omega, h2, h4⟩

/-- The circuit cut at a place between its first and its last gate. -/
theorem circuit_cut (s : List Char) (a i : ℕ) (h0 : 0 < i)
    (hi : i < (⟨none, .H, a⟩ :: strG (some a) 0 s ++ [⟨none, .H, a⟩] : List Gate).length) :
    ∃ m ≤ s.length,
      (⟨none, .H, a⟩ :: strG (some a) 0 s ++ [⟨none, .H, a⟩] : List Gate).take i = ⟨none, .H, a⟩ :: strG (some a) 0 (s.take m) ∧
      (⟨none, .H, a⟩ :: strG (some a) 0 s ++ [⟨none, .H, a⟩] : List Gate).drop i = strG (some a) m (s.drop m) ++ [⟨none, .H, a⟩] := by
  obtain ⟨i, rfl⟩ : ∃ i', i = i' + 1 := ⟨i - 1, by omega⟩
  have hi' : i ≤ (strG (some a) 0 s).length := by simp at hi; omega
  obtain ⟨m, hm, h1, h2⟩ := strG_split (some a) s 0 i hi'
  refine ⟨m, hm, ?_, ?_⟩
  · rw [List.cons_append, List.take_succ_cons, List.take_append_of_le_length hi', h1]
  · rw [List.cons_append, List.drop_succ_cons, List.drop_append_of_le_length hi', h2, zero_add]

theorem measured_iff {φ : Amp n} (hφ : Normalised φ) {z : ℂ} (hz : Complex.normSq z = 1) (a r : ZMod 2) (φ' : Amp n) :
    (measProb n r (z • tensor φ (qubit a)) ≠ 0 ∧ collapse n r (z • tensor φ (qubit a)) = tensor φ' (qubit r)) ↔
      r = a ∧ φ' = z • φ := by
  rw [← tensor_smul_left]
  have hn := normalised_smul' hz hφ
  constructor
  · rintro ⟨h1, h2⟩
    rw [measProb_last _ hn] at h1
    have hr : r = a := by
      by_contra hne
      exact h1 (if_neg hne)
    subst hr
    rw [collapse_last _ hn] at h2
    exact ⟨rfl, (tensor_qubit_inj h2).symm⟩
  · rintro ⟨rfl, rfl⟩
    rw [measProb_last _ hn, if_pos rfl, collapse_last _ hn]
    exact ⟨one_ne_zero, rfl⟩

variable {c : StabCode} {st : StabArg} {gs : List Gate} {w : ℕ} {φ : Amp c.n} {t : ZMod 2}

/-- **C147**, between the gates.  Let the measured operator have the value `t` in the state of the register, and let any
Pauli operator `q` hit the register and the ancilla after the first `i` gates of the circuit, but not before the first and not
after the last.  Exactly one result is possible: `t`, flipped if `q` changes the phase of the ancilla, flipped if the part of
`q` on the register anticommutes with the letters still to come, and flipped if `q` flips the ancilla and an odd number of
letters Y have been dealt with.  The register is left, up to a sign, with the part of `q` on it, and if `q` flips the ancilla
also with the letters dealt with so far. -/
theorem C147_between (hs : st.Valid c.n) (hφ : Normalised φ) (ht : pauliAct (st.pauli c.n) φ = (sgn t : ℂ) • φ)
    (hc : syndromeCircuit c c.n c.n st = .ok (gs, w)) (i : ℕ) (h0 : 0 < i) (hi : i < gs.length) (q : Pauli (c.n + 1))
    (r : ZMod 2) (φ' : Amp c.n) :
    BrokenStep c i q φ st r φ' ↔
      r = t + ancZ q + symp (doneBy (gs.drop i) (st.pauli c.n)) (regPart q) +
        ancX q * parityY (doneBy (gs.take i) (st.pauli c.n)) ∧
      φ' = (sgn (ancX q * ancZ q) : ℂ) •
        pauliAct (regPart q) (if ancX q = 1 then pauliAct (doneBy (gs.take i) (st.pauli c.n)) φ else φ) := by
  obtain ⟨s, hl, hp, hsc⟩ := circuit_letters c hs
  obtain ⟨rfl, rfl⟩ : gs = _ ∧ w = _ := Prod.mk.inj (Except.ok.inj (hc.symm.trans hsc))
  obtain ⟨m, hm, e1, e2⟩ := circuit_cut s c.n i h0 hi
  rw [← hp] at ht
  have hrun := run_broken hl hm ht q
  rw [← hp, e1, e2, doneBy_first _ s m _ rfl, doneBy_rest _ s m hm _ rfl]
  have hn : Normalised (pauliAct (regPart q) (if ancX q = 1 then pauliAct (strPauli c.n (s.take m)) φ else φ)) := by
    refine normalised_pauli _ ?_
    split_ifs
    · exact normalised_pauli _ hφ
    · exact hφ
  rw [← measured_iff hn (normSq_sgn _), ← hrun]
  unfold BrokenStep
  constructor
  · rintro ⟨gs', w', k1, k2⟩
    obtain ⟨rfl, rfl⟩ : gs' = _ ∧ w' = _ := Prod.mk.inj (Except.ok.inj (k1.symm.trans hsc))
    rwa [e1, e2] at k2
  · intro k
    exact ⟨_, _, hsc, by rwa [e1, e2]⟩

/-- **C147**, before the first gate: a flip of the ancilla flips the result, a change of its phase does nothing, and the rest is
an error before the measurement. -/
theorem C147_before (hs : st.Valid c.n) (hφ : Normalised φ) (ht : pauliAct (st.pauli c.n) φ = (sgn t : ℂ) • φ)
    (q : Pauli (c.n + 1)) (r : ZMod 2) (φ' : Amp c.n) :
    BrokenStep c 0 q φ st r φ' ↔
      r = t + symp (st.pauli c.n) (regPart q) + ancX q ∧ φ' = pauliAct (regPart q) φ := by
  obtain ⟨gs, k1, -, k3⟩ := syndromeCircuit_spec (c := c) (active := c.n) (len := c.n) (Or.inl ⟨rfl, rfl⟩) hs
  have he : pauliAct (st.pauli c.n) (pauliAct (regPart q) φ) =
      (sgn (symp (st.pauli c.n) (regPart q) + t) : ℂ) • pauliAct (regPart q) φ := by
    rw [pauliAct_comm, ht, pauliAct_smul, smul_smul, ← sgn_add]
  have hrun : run gs (pauliAct q (tensor φ (qubit 0))) =
      (1 : ℂ) • tensor (pauliAct (regPart q) φ) (qubit (t + symp (st.pauli c.n) (regPart q) + ancX q)) := by
    rw [pauliAct_split, mul_zero, sgn_zero, one_smul, one_smul, zero_add, k3 _ _ he]
    congr 2
    ring
  have key := measured_iff (normalised_pauli (regPart q) hφ) (z := 1) (by simp)
    (t + symp (st.pauli c.n) (regPart q) + ancX q) r φ'
  rw [← hrun, one_smul] at key
  rw [← key]
  unfold BrokenStep
  constructor
  · rintro ⟨gs', w', k1', k2⟩
    obtain ⟨rfl, rfl⟩ : gs' = _ ∧ w' = _ := Prod.mk.inj (Except.ok.inj (k1'.symm.trans k1))
    exact k2
  · intro k
    exact ⟨_, _, k1, k⟩

/-- **C147**, after the last gate: a flip of the ancilla flips the result, and the part on the register is an error after the
measurement. -/
theorem C147_after (hs : st.Valid c.n) (hφ : Normalised φ) (ht : pauliAct (st.pauli c.n) φ = (sgn t : ℂ) • φ)
    (hc : syndromeCircuit c c.n c.n st = .ok (gs, w)) (i : ℕ) (hi : gs.length ≤ i) (q : Pauli (c.n + 1))
    (r : ZMod 2) (φ' : Amp c.n) :
    BrokenStep c i q φ st r φ' ↔ r = t + ancX q ∧ φ' = (sgn (ancZ q * t) : ℂ) • pauliAct (regPart q) φ := by
  obtain ⟨gs1, k1, -, k3⟩ := syndromeCircuit_spec (c := c) (active := c.n) (len := c.n) (Or.inl ⟨rfl, rfl⟩) hs
  obtain ⟨rfl, rfl⟩ : gs = gs1 ∧ w = _ := Prod.mk.inj (Except.ok.inj (hc.symm.trans k1))
  have hrun : run (gs.drop i) (pauliAct q (run (gs.take i) (tensor φ (qubit 0)))) =
      (sgn (ancZ q * t) : ℂ) • tensor (pauliAct (regPart q) φ) (qubit (t + ancX q)) := by
    rw [List.drop_eq_nil_of_le hi, List.take_of_length_le hi, run_nil, k3 _ _ ht, zero_add, pauliAct_split]
  rw [← measured_iff (normalised_pauli (regPart q) hφ) (normSq_sgn _), ← hrun]
  unfold BrokenStep
  constructor
  · rintro ⟨gs', w', k1', k2⟩
    obtain ⟨rfl, rfl⟩ : gs' = _ ∧ w' = _ := Prod.mk.inj (Except.ok.inj (k1'.symm.trans k1))
    exact k2
  · intro k
    exact ⟨_, _, k1, k⟩

/-- **C147**, a phase error of the ancilla between the gates is a wrong report: the result is flipped and nothing else
happens. -/
theorem C147_phase (hs : st.Valid c.n) (hφ : Normalised φ) (ht : pauliAct (st.pauli c.n) φ = (sgn t : ℂ) • φ)
    (hc : syndromeCircuit c c.n c.n st = .ok (gs, w)) (i : ℕ) (h0 : 0 < i) (hi : i < gs.length) (q : Pauli (c.n + 1))
    (hq : regPart q = ⟨0, 0⟩) (hx : ancX q = 0) (hz : ancZ q = 1) (r : ZMod 2) (φ' : Amp c.n) :
    BrokenStep c i q φ st r φ' ↔ r = t + 1 ∧ φ' = φ := by
  rw [C147_between hs hφ ht hc i h0 hi, hq, hx, hz, if_neg (by decide), zero_mul, zero_mul, sgn_zero, one_smul, pauliAct_one, add_zero]
  have : symp (doneBy (gs.drop i) (st.pauli c.n)) (⟨0, 0⟩ : Pauli c.n) = 0 := by simp [symp, dotp]
  rw [this, add_zero]

/-- **C147**, a flip of the ancilla between the gates puts letters of the measured operator on the register.  It is, up to a
sign, an error on at most half as many qubits as the measured operator has. -/
theorem C147_hook (hs : st.Valid c.n) (hφ : Normalised φ) (ht : pauliAct (st.pauli c.n) φ = (sgn t : ℂ) • φ)
    (hc : syndromeCircuit c c.n c.n st = .ok (gs, w)) (i : ℕ) (h0 : 0 < i) (hi : i < gs.length) (q : Pauli (c.n + 1))
    (hq : regPart q = ⟨0, 0⟩) (hx : ancX q = 1) :
    ∃ (e : Pauli c.n) (u v : ZMod 2), 2 * weight e ≤ weight (st.pauli c.n) ∧ ∀ (r : ZMod 2) (φ' : Amp c.n),
      BrokenStep c i q φ st r φ' ↔ r = u ∧ φ' = (sgn v : ℂ) • pauliAct e φ := by
  obtain ⟨s, hl, hp, hsc⟩ := circuit_letters c hs
  have hstep := C147_between hs hφ ht hc i h0 hi q
  obtain ⟨rfl, rfl⟩ : gs = _ ∧ w = _ := Prod.mk.inj (Except.ok.inj (hc.symm.trans hsc))
  obtain ⟨m, hm, e1, e2⟩ := circuit_cut s c.n i h0 hi
  rw [← hp] at ht
  obtain ⟨hd, hsum, -, h2⟩ := halves hm ht
  rw [← hp, e1, e2, doneBy_first _ s m _ rfl, doneBy_rest _ s m hm _ rfl] at hstep
  simp only [hq, hx, if_true, pauliAct_one] at hstep
  have hw : weight (strPauli c.n (s.take m)) + weight (restPauli c.n m s) = weight (strPauli c.n s) := by
    rw [← hsum]
    unfold weight
    rw [← Finset.card_union_of_disjoint]
    · congr 1
      ext j
      have hax : ((restPauli c.n m s).add (strPauli c.n (s.take m))).x j = (restPauli c.n m s).x j + (strPauli c.n (s.take m)).x j := rfl
      have haz : ((restPauli c.n m s).add (strPauli c.n (s.take m))).z j = (restPauli c.n m s).z j + (strPauli c.n (s.take m)).z j := rfl
      simp only [Finset.mem_union, Finset.mem_filter, Finset.mem_univ, true_and, hax, haz]
      rcases hd j with h | h <;> simp [h.1, h.2]
    · rw [Finset.disjoint_left]
      intro j
      simp only [Finset.mem_filter, Finset.mem_univ, true_and]
      rcases hd j with h | h <;> simp [h.1, h.2]
  rw [← hp]
  by_cases hle : weight (strPauli c.n (s.take m)) ≤ weight (restPauli c.n m s)
  · exact ⟨_, _, _, by omega, hstep⟩
  · have h1 : pauliAct (strPauli c.n (s.take m)) φ =
        (sgn (parityY (strPauli c.n (s.take m)) + t) : ℂ) • pauliAct (restPauli c.n m s) φ := by
      rw [h2, smul_smul, ← sgn_add, add_self_z, sgn_zero, one_smul]
    rw [h1] at hstep
    simp only [smul_smul, ← sgn_add] at hstep
    exact ⟨_, _, _, by omega, hstep⟩

/-- **C147**, an instance and a limit.  In the five-qubit code, measure the row IXZZX of the normal form on an encoded state and
let the ancilla be flipped half way through: the result is the right one, the letters X and Z are left on two qubits, and the
next round of error correction without any error does not bring the state back. -/
theorem C147_five_qubits : ∃ c, stabInit (.rows fiveRows) c.n 1 none = .ok c ∧ c.n = 5 ∧ TableFor c.n fiveTable ∧
    [0, 1, 0, 0, 1, 0, 0, 1, 1, 0] ∈ c.iter ∧ ∃ q : Pauli (c.n + 1), regPart q = ⟨0, 0⟩ ∧ ancX q = 1 ∧ ancZ q = 0 ∧
    (∀ ψ, Encoded c c.n 1 ψ → Normalised ψ → ∀ r φ, BrokenStep c 3 q ψ (.bin [0, 1, 0, 0, 1, 0, 0, 1, 1, 0]) r φ ↔
      r = 0 ∧ φ = pauliAct (rowPauli c.n [0, 1, 0, 0, 0, 0, 0, 1, 0, 0]) ψ) ∧
    ¬ ∃ z : ℂ, ∀ ψ, Encoded c c.n 1 ψ → Normalised ψ → ∀ r φ φ', BrokenStep c 3 q ψ (.bin [0, 1, 0, 0, 1, 0, 0, 1, 1, 0]) r φ →
      Rounds c fiveTable φ [[0, 0, 0, 0, 0, 0, 0, 0, 0, 0]] φ' → φ' = z • ψ := by
  obtain ⟨c, h1, h2, h3, h4, h5⟩ := five_code
  have hn : c.n = 5 := (accepted_facts h1 h2 h3).1
  rw [← hn] at h1 h3 h4
  have ht : TableFor c.n fiveTable := by rw [hn]; exact fiveTable_for
  have hit : c.iter = fiveIter := h5
  have hmem : [0, 1, 0, 0, 1, 0, 0, 1, 1, 0] ∈ c.iter := by rw [hit]; decide
  have hval : (StabArg.bin [0, 1, 0, 0, 1, 0, 0, 1, 1, 0]).Valid c.n := by
    rw [hn]; exact ⟨rfl, by unfold IsBinary; decide⟩
  have hcirc : syndromeCircuit c c.n c.n (.bin [0, 1, 0, 0, 1, 0, 0, 1, 1, 0]) =
      .ok ([⟨none, .H, 5⟩, ⟨some 5, .X, 1⟩, ⟨some 5, .Z, 2⟩, ⟨some 5, .Z, 3⟩, ⟨some 5, .X, 4⟩, ⟨none, .H, 5⟩], 5) := by
    unfold syndromeCircuit
    rw [hn]
    rfl
  let q : Pauli (c.n + 1) := ⟨fun j => if j = Fin.last c.n then 1 else 0, 0⟩
  have hq1 : regPart q = ⟨0, 0⟩ := by
    unfold regPart
    congr 1
    funext j
    have : Fin.castAdd 1 j ≠ Fin.last c.n := by
      intro h
      have := congrArg Fin.val h
      simp at this
      have := j.2
      omega
    exact if_neg this
  have hq2 : ancX q = 1 := if_pos rfl
  have hq3 : ancZ q = 0 := rfl
  have hstep : ∀ ψ, Encoded c c.n 1 ψ → Normalised ψ → ∀ r φ, BrokenStep c 3 q ψ (.bin [0, 1, 0, 0, 1, 0, 0, 1, 1, 0]) r φ ↔
      r = 0 ∧ φ = pauliAct (rowPauli c.n [0, 1, 0, 0, 0, 0, 0, 1, 0, 0]) ψ := by
    intro ψ hψ hψn r φ
    have hfix : pauliAct (StabArg.pauli c.n (.bin [0, 1, 0, 0, 1, 0, 0, 1, 1, 0])) ψ = (sgn 0 : ℂ) • ψ := by
      rw [sgn_zero, one_smul]
      exact encoded_fix h1 h2 h3 h4 hψ _ hmem
    rw [C147_between hval hψn hfix hcirc 3 (by decide) (by decide), hq1, hq2, hq3, if_pos rfl, mul_zero, sgn_zero, one_smul, pauliAct_one]
    have hd : doneBy (List.take 3 [⟨none, .H, 5⟩, ⟨some 5, .X, 1⟩, ⟨some 5, .Z, 2⟩, ⟨some 5, .Z, 3⟩, ⟨some 5, .X, 4⟩, ⟨none, .H, 5⟩])
        (StabArg.pauli c.n (.bin [0, 1, 0, 0, 1, 0, 0, 1, 1, 0])) = rowPauli c.n [0, 1, 0, 0, 0, 0, 0, 1, 0, 0] := by
      rw [hn]
      unfold doneBy StabArg.pauli rowPauli
      congr 1
      · decide +kernel
      · decide +kernel
    have hp : parityY (rowPauli c.n [0, 1, 0, 0, 0, 0, 0, 1, 0, 0]) = 0 := by rw [hn]; decide
    have hs0 : ∀ p : Pauli c.n, symp p (⟨0, 0⟩ : Pauli c.n) = 0 := fun p => by simp [symp, dotp]
    rw [hd, hp, hs0, mul_zero, add_zero, add_zero, add_zero]
  refine ⟨c, h1, hn, ht, hmem, q, hq1, hq2, hq3, hstep, ?_⟩
  have hno : ¬ ∃ z : ℂ, ∀ ψ, Encoded c c.n 1 ψ → Normalised ψ → ∀ φ,
      Rounds c fiveTable ψ [[0, 1, 0, 0, 0, 0, 0, 1, 0, 0]] φ → φ = z • ψ := by
    rw [C131_restored_iff h1 h2 h3 h4 fiveTable ht]
    intro hm
    have hz : ∀ v ∈ groupOf c.n c.iter, sympV (rowPauli c.n [0, 0, 0, 0, 0, 1, 1, 1, 1, 1]).vec v = 0 ∧
        sympV (rowPauli c.n [1, 1, 1, 1, 1, 0, 0, 0, 0, 0]).vec v = 0 := by
      intro v hv
      unfold groupOf at hv
      induction hv using Submodule.span_induction with
      | zero => simp [sympV, dotp]
      | add x y _ _ hx hy => rw [sympV_add_right, sympV_add_right, hx.1, hy.1, hx.2, hy.2, add_zero]; exact ⟨rfl, rfl⟩
      | smul z x _ hx =>
        rcases zmod2_cases z with rfl | rfl
        · rw [zero_smul]; simp [sympV, dotp]
        · rwa [one_smul]
      | mem x hx =>
        obtain ⟨r, hr, rfl⟩ := hx
        rw [h5] at hr
        simp only [List.mem_cons, List.not_mem_nil, or_false] at hr
        rw [hn]
        rcases hr with rfl | rfl | rfl | rfl <;> decide
    have := hz _ hm
    rw [hit, hn] at this
    revert this
    decide +kernel
  rintro ⟨z, hz⟩
  refine hno ⟨z, fun ψ hψ hψn φ' hr => ?_⟩
  refine hz ψ hψ hψn 0 _ φ' ((hstep ψ hψ hψn 0 _).mpr ⟨rfl, rfl⟩) ?_
  cases hr with
  | cons k1 k2 k3 =>
    refine Rounds.cons ?_ k2 k3
    have : rowPauli c.n [0, 0, 0, 0, 0, 0, 0, 0, 0, 0] = ⟨0, 0⟩ := by
      rw [hn]
      unfold rowPauli
      congr 1
      · decide +kernel
      · decide +kernel
    rw [this, pauliAct_one]
    exact k1

end PyQ
