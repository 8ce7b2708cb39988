import Verif.Spec.CircuitSize
import Verif.Props.Decode
import Verif.Props.CircuitGuards
import Verif.Props.Syndrome
import Verif.Lemmas.LogicalCirc
import Verif.Lemmas.Examples
import Verif.Props.Correctable

/-! **C137**: which qubits the circuits of `StabilizerCode` touch and how many gates they send. -/

namespace PyQ

open Spec

variable {n k : ℕ}

theorem support_length (p : Pauli n) : (support p).length = weight p := by
  unfold support weight
  rw [List.length_map, ← List.toFinset_card_of_nodup ((List.nodup_finRange n).filter _)]
  congr 1
  ext j
  simp

theorem mem_support {p : Pauli n} {q : ℕ} : q ∈ support p ↔ ∃ h : q < n, p.x ⟨q, h⟩ ≠ 0 ∨ p.z ⟨q, h⟩ ≠ 0 := by
  unfold support
  simp only [List.mem_map, List.mem_filter, List.mem_finRange, true_and, decide_eq_true_eq]
  constructor
  · rintro ⟨j, h, rfl⟩; exact ⟨j.2, h⟩
  · rintro ⟨h, h'⟩; exact ⟨⟨q, h⟩, h', rfl⟩

theorem weight_le (p : Pauli n) : weight p ≤ n := by
  unfold weight
  exact (Finset.card_le_univ _).trans (by simp)

private theorem letterG_wires (c : Option ℕ) (q : ℕ) (ch : Char) :
    (letterG c q ch).map Gate.wire = if bits ch ≠ (0, 0) then [q] else [] := by
  unfold letterG bits
  split_ifs with h1 h2 h3 <;> first | rfl | (exfalso; simp_all)

private theorem strG_wires (c : Option ℕ) (o : ℕ) (s : List Char) :
    (strG c o s).map Gate.wire = (List.range' o s.length).filter fun j => decide (bits (s.getD (j - o) 'I') ≠ (0, 0)) := by
  induction s generalizing o with
  | nil => rfl
  | cons a s ih =>
    rw [strG_cons, List.map_append, letterG_wires, ih, List.length_cons, List.range'_succ, List.filter_cons]
    have e : (List.range' (o + 1) s.length).filter (fun j => decide (bits ((a :: s).getD (j - o) 'I') ≠ (0, 0))) =
        (List.range' (o + 1) s.length).filter (fun j => decide (bits (s.getD (j - (o + 1)) 'I') ≠ (0, 0))) := by
      apply List.filter_congr
      intro j hj
      rw [List.mem_range'_1] at hj
      rw [show j - o = (j - (o + 1)) + 1 by omega, List.getD_cons_succ]
    rw [e]
    simp only [Nat.sub_self, List.getD_cons_zero, decide_eq_true_eq]
    split_ifs <;> simp

private theorem bits_ne (ch : Char) :
    bits ch ≠ (0, 0) ↔ (((bits ch).1 : ℤ) : ZMod 2) ≠ 0 ∨ (((bits ch).2 : ℤ) : ZMod 2) ≠ 0 := by
  unfold bits
  split_ifs <;> simp

theorem strG_support (c : Option ℕ) (s : List Char) (hs : s.length = n) :
    (strG c 0 s).map Gate.wire = support (strPauli n s) := by
  rw [strG_wires, hs, ← List.range_eq_range', ← List.map_coe_finRange_eq_range, List.filter_map]
  unfold support
  congr 1
  apply List.filter_congr
  intro j _
  simp only [Function.comp, Nat.sub_zero, strPauli]
  exact decide_eq_decide.mpr (bits_ne _)

private theorem letterG_ctrl {c : Option ℕ} {q : ℕ} {ch : Char} : ∀ g ∈ letterG c q ch, g.ctrl = c := by
  intro g hg
  unfold letterG at hg
  split_ifs at hg <;> simp at hg <;> rw [hg]

theorem strG_ctrl {c : Option ℕ} {o : ℕ} {s : List Char} : ∀ g ∈ strG c o s, g.ctrl = c := by
  intro g hg
  unfold strG at hg
  obtain ⟨cj, -, hg⟩ := List.mem_flatMap.mp hg
  exact letterG_ctrl g hg

private theorem controlled_none {gs : List Gate} (h : ∀ g ∈ gs, g.ctrl = none) : controlled gs = 0 := by
  unfold controlled
  rw [List.countP_eq_zero]
  intro g hg
  rw [h g hg]; simp

private theorem controlled_some {gs : List Gate} (h : ∀ g ∈ gs, g.ctrl.isSome) : controlled gs = gs.length := by
  unfold controlled
  rw [List.countP_eq_length]
  exact h

private theorem controlled_append (gs hs : List Gate) : controlled (gs ++ hs) = controlled gs + controlled hs :=
  List.countP_append ..

private theorem controlled_flatMap {α : Type} (l : List α) (f : α → List Gate) :
    controlled (l.flatMap f) = (l.map fun a => controlled (f a)).sum := by
  induction l with
  | nil => rfl
  | cons a l ih => rw [List.flatMap_cons, controlled_append, ih, List.map_cons, List.sum_cons]

theorem weight_clear {p : Pauli n} {i : ℕ} (hi : i < n) (hx : p.x ⟨i, hi⟩ ≠ 0) :
    weight (⟨setBit p.x i 0, setBit p.z i 0⟩ : Pauli n) + 1 = weight p := by
  unfold weight
  have hm : (⟨i, hi⟩ : Fin n) ∈ Finset.univ.filter fun j => p.x j ≠ 0 ∨ p.z j ≠ 0 := by simp [hx]
  rw [← Finset.card_erase_add_one hm]
  congr 2
  ext j
  simp only [Finset.mem_filter, Finset.mem_univ, true_and, Finset.mem_erase, setBit]
  by_cases h : j.val = i
  · have : j = ⟨i, hi⟩ := Fin.ext h
    simp [h, this]
  · have : j ≠ ⟨i, hi⟩ := fun e => h (congrArg Fin.val e)
    simp [h, this]

private theorem applyG_wires (q : ℕ) (ch : Char) : (applyG q ch).map Gate.wire = (letterG none q ch).map Gate.wire := by
  unfold applyG letterG
  split_ifs <;> first | rfl | simp_all

/-- **C137, `apply_stabilizer_circuit`**.  On a register of `n` qubits and a binary row of length `2 n` the circuit sends
one uncontrolled gate to each qubit of the support of the row, in increasing order, and nothing else. -/
theorem C137_apply (n : ℕ) (b : List ℤ) (hl : b.length = 2 * n) (hb : IsBinary b) :
    ∃ gs, applyStabilizerCircuit n (.bin b) = .ok gs ∧ gs.map Gate.wire = support (rowPauli n b) ∧
      (∀ g ∈ gs, g.ctrl = none) ∧ gs.length = weight (rowPauli n b) := by
  obtain ⟨s, h1, h2, h3⟩ := rowStr hl hb
  have hw : (s.zipIdx.flatMap fun cj => applyG cj.2 cj.1).map Gate.wire = support (rowPauli n b) := by
    rw [← h3, ← strG_support none s h2]
    unfold strG
    simp only [List.map_flatMap, applyG_wires]
  refine ⟨s.zipIdx.flatMap fun cj => applyG cj.2 cj.1, ?_, hw, ?_, ?_⟩
  · unfold applyStabilizerCircuit
    simp only
    rw [h1, ok_bind', mapM_ok_of (g := fun cj => applyG cj.2 cj.1)]
    · rw [ok_bind', ← List.flatMap_def]; rfl
    · rintro ⟨ch, j⟩ hj
      have hj' := mem_zipIdx_lt hj
      simp only at hj'
      have hw : onWire n j = .ok j := by unfold onWire; rw [if_pos (by omega)]
      have hw' : onQureg n j = .ok j := by unfold onQureg; rw [if_pos (by omega)]
      unfold applyLetter applyG
      simp only [hw, hw']
      split_ifs <;> rfl
  · intro g hg
    obtain ⟨cj, -, hg⟩ := List.mem_flatMap.mp hg
    unfold applyG at hg
    split_ifs at hg <;> simp at hg <;> rw [hg]
  · rw [← support_length, ← hw, List.length_map]

/-- **C137, `logical_circuit`**.  For an accepted code the circuit of a logical operator sends one uncontrolled gate to
each qubit of the support of that operator, in increasing order, and nothing else. -/
theorem C137_logical (s : StabInput) (n k : ℕ) (c : StabCode) (h : stabInit s n k none = .ok c)
    (hb : BinaryArr c.stab) (hind : Independent n c.stab) (p : Char) (hp : p = 'X' ∨ p = 'Y' ∨ p = 'Z')
    (i : ℕ) (hi : i < k) (hi' : i < 10) :
    ∃ gs, logicalCircuit c n [p, Char.ofNat (48 + i)] = .ok gs ∧
      gs.map Gate.wire = support (if p = 'X' then rowPauli n (c.logicalX.row i)
        else if p = 'Z' then rowPauli n (c.logicalZ.row i)
        else (rowPauli n (c.logicalX.row i)).add (rowPauli n (c.logicalZ.row i))) ∧
      ∀ g ∈ gs, g.ctrl = none := by
  obtain ⟨hn, hk, -, hsh, hX, hZ, -⟩ := accepted_facts h hb hind
  obtain ⟨b, h1, h2, h3, h4⟩ := logicalRow_ok hsh hX hZ hp hi
  obtain ⟨t, t1, t2, t3⟩ := rowStr h2 h3
  refine ⟨strG none 0 t, ?_, by rw [strG_support none t t2, t3, h4], strG_ctrl⟩
  unfold logicalCircuit
  simp only
  unfold pyAssert
  rw [if_pos hp, intOfChar_digit hi', ok_bind', ok_bind', hk, if_pos hi, ok_bind', h1, ok_bind', t1, ok_bind',
    pauliGates_ok (by omega)]

/-- **C137, `single_syndrome_measurement`**.  The circuit of a binary row sends a Hadamard gate to the ancilla, one gate
controlled by the ancilla to each qubit of the support of the row, and a second Hadamard gate to the ancilla. -/
theorem C137_syndrome (c : StabCode) (active len : ℕ)
    (h : (active = c.n ∧ len = c.n) ∨ (active = c.n + 1 ∧ len = c.n + 1)) (b : List ℤ) (hl : b.length = 2 * c.n)
    (hb : IsBinary b) :
    ∃ gs, syndromeCircuit c active len (.bin b) = .ok (⟨none, .H, c.n⟩ :: gs ++ [⟨none, .H, c.n⟩], c.n) ∧
      gs.map Gate.wire = support (rowPauli c.n b) ∧ (∀ g ∈ gs, g.ctrl = some c.n) ∧
      (⟨none, .H, c.n⟩ :: gs ++ [⟨none, .H, c.n⟩] : List Gate).length = weight (rowPauli c.n b) + 2 ∧
      controlled (⟨none, .H, c.n⟩ :: gs ++ [⟨none, .H, c.n⟩]) = weight (rowPauli c.n b) := by
  obtain ⟨s, h1, h2, -, h4⟩ := syndromeCircuit_bin h hl hb
  have hw : (strG (some c.n) 0 s).map Gate.wire = support (rowPauli c.n b) := by rw [strG_support _ s h1, h2]
  have hlen : (strG (some c.n) 0 s).length = weight (rowPauli c.n b) := by
    rw [← support_length, ← hw, List.length_map]
  refine ⟨strG (some c.n) 0 s, h4, hw, strG_ctrl, by simp [hlen], ?_⟩
  rw [controlled_append]
  show controlled ([⟨none, .H, c.n⟩] ++ strG (some c.n) 0 s) + _ = _
  rw [controlled_append, controlled_none (gs := [⟨none, .H, c.n⟩]) (by simp),
    controlled_some (fun g hg => by rw [strG_ctrl g hg]; rfl), hlen]
  omega

/-- **C137, `encoding_circuit`**.  For an accepted code the encoder of `δ` sends: one gate for each 1 in `δ`; one
controlled gate for each 1 of the logical X operators in the columns between the rank and `n - k`; and, for each of the
first `rank` rows of the normal form, as many gates as the weight of the row, of which all but one are controlled. -/
theorem C137_encoding (s : StabInput) (n k : ℕ) (c : StabCode) (h : stabInit s n k none = .ok c)
    (hb : BinaryArr c.stab) (hind : Independent n c.stab) (δ : List ℤ) (hlen : δ.length = k) (hδ : IsBinary δ) :
    ∃ gs, encodingCircuit c n δ = .ok gs ∧
      gs.length = δ.count 1 +
        ∑ i ∈ Finset.range k, ((Finset.Ico c.rank (n - k)).filter fun q => c.logicalX.get i q = 1).card +
        ∑ i ∈ Finset.range c.rank, weight (rowPauli n (c.normalForm.row i)) ∧
      controlled gs =
        ∑ i ∈ Finset.range k, ((Finset.Ico c.rank (n - k)).filter fun q => c.logicalX.get i q = 1).card +
        ∑ i ∈ Finset.range c.rank, (weight (rowPauli n (c.normalForm.row i)) - 1) ∧
      gs.length ≤ n ^ 2 := by
  obtain ⟨hn, hk, hst, hsh, hX, hZ, -⟩ := accepted_facts h hb hind
  have h1 := hsh.rows
  have h2 := hsh.rank_le
  have hg : ∀ i, ∃ gs, i < c.rank → generatorGates c n i = .ok (⟨none, .H, i⟩ :: gs) ∧ (∀ g ∈ gs, g.ctrl = some i) ∧
      gs.length + 1 = weight (rowPauli n (c.normalForm.row i)) := by
    intro i
    by_cases hi : i < c.rank
    swap
    · exact ⟨[], fun h => absurd h hi⟩
    obtain ⟨t, hs, hlen, hP⟩ := rowStr (n := n) (b := c.normalForm.row i) (by simp [Arr.row, hsh.cols])
      (row_binary hsh.binary (by omega))
    refine ⟨strG (some i) 0 (t.set i 'I'), fun _ => ⟨?_, strG_ctrl, ?_⟩⟩
    · unfold generatorGates
      rw [hs, ok_bind', mapM_ok_of (g := fun cj => if cj.2 ≠ i then letterG (some i) cj.2 cj.1 else [])]
      · rw [ok_bind', ← List.flatMap_def, generatorLetter_flat _ _ _ _ (Nat.zero_le _), Nat.sub_zero]
        rfl
      · intro cj hcj
        have := mem_zipIdx_lt hcj
        unfold generatorLetter
        split_ifs
        · exact letterGates_ok (by omega) _ _
        · rfl
    · rw [← List.length_map (f := Gate.wire), strG_support (n := n) _ _ (by simp [hlen]), support_length, strPauli_set, hP]
      apply weight_clear (by omega)
      rw [rowPauli_x hsh.cols]
      simp only
      rw [hsh.upperI i hi i hi, if_pos rfl]
      decide
  choose G hG using hg
  set qs := List.range' c.rank (n - k - c.rank) with hqs
  have hlx : (if c.rank < c.stab.rows then
      if c.logicalX.rows < c.k then .error .index else .ok ((List.range c.k).reverse.flatMap (logicalXGates c))
      else .ok [] : Except PyErr (List Gate)) =
      .ok ((List.range k).reverse.flatMap fun i => cxG (fun q => c.logicalX.get i q = 1) (n - k + i) qs) := by
    have hrows : c.logicalX.rows = k := by rw [hX]; exact (lx_shape hsh).1
    have e : logicalXGates c = fun i => cxG (fun q => c.logicalX.get i q = 1) (n - k + i) qs := by
      funext i; unfold logicalXGates cxG; rw [hn, hk]
    by_cases hlt : c.rank < c.stab.rows
    · rw [if_pos hlt, if_neg (by omega), hk, e]
    · rw [if_neg hlt]
      have : qs = [] := by rw [hqs, show n - k - c.rank = 0 by omega]; rfl
      rw [this]
      simp [cxG]
  have hrun : encodingCircuit c n δ =
      .ok (δ.zipIdx.flatMap (prepG (n - k)) ++
        ((List.range k).reverse.flatMap fun i => cxG (fun q => c.logicalX.get i q = 1) (n - k + i) qs) ++
        (List.range c.rank).flatMap fun i => ⟨none, .H, i⟩ :: G i) := by
    unfold encodingCircuit pyAssert
    rw [if_pos (by rw [hk, hlen]), if_pos hn.symm]
    simp only [ok_bind']
    rw [hlx, mapM_ok_of (g := fun i => ⟨none, .H, i⟩ :: G i) (fun i hi => (hG i (List.mem_range.mp hi)).1), hn, hk,
      prep_ok δ hδ]
    simp only [ok_bind', pure_ok', ← List.flatMap_def]
  have hp : (δ.zipIdx.flatMap (prepG (n - k))).length = δ.count 1 := by
    have key : ∀ (l : List ℤ) (o : ℕ), ((l.zipIdx o).flatMap (prepG (n - k))).length = l.count 1 := by
      intro l
      induction l with
      | nil => intro o; rfl
      | cons a l ih =>
        intro o
        rw [List.zipIdx_cons, List.flatMap_cons, List.length_append, ih, List.count_cons]
        unfold prepG
        by_cases ha : a = 1
        · simp [ha]; omega
        · simp [ha]
    exact key δ 0
  have hpc : controlled (δ.zipIdx.flatMap (prepG (n - k))) = 0 := by
    apply controlled_none
    intro g hg
    obtain ⟨bi, -, hg⟩ := List.mem_flatMap.mp hg
    unfold prepG at hg
    split_ifs at hg <;> simp at hg
    rw [hg]
  have hcx : ∀ i, (cxG (fun q => c.logicalX.get i q = 1) (n - k + i) qs).length =
      ((Finset.Ico c.rank (n - k)).filter fun q => c.logicalX.get i q = 1).card := by
    intro i
    have key : ∀ l : List ℕ, (cxG (fun q => c.logicalX.get i q = 1) (n - k + i) l).length =
        (l.filter fun q => decide (c.logicalX.get i q = 1)).length := by
      intro l
      induction l with
      | nil => rfl
      | cons a l ih =>
        have : cxG (fun q => c.logicalX.get i q = 1) (n - k + i) (a :: l) =
          (if c.logicalX.get i a = 1 then [⟨some (n - k + i), .X, a⟩] else []) ++
            cxG (fun q => c.logicalX.get i q = 1) (n - k + i) l := by unfold cxG; rw [List.flatMap_cons]
        rw [this, List.length_append, ih, List.filter_cons]
        by_cases ha : c.logicalX.get i a = 1
        · simp [ha]; omega
        · simp [ha]
    rw [key, ← List.toFinset_card_of_nodup ((List.nodup_range' ..).filter _)]
    congr 1
    ext q
    simp only [List.mem_toFinset, List.mem_filter, decide_eq_true_eq, Finset.mem_filter, Finset.mem_Ico, hqs,
      List.mem_range'_1]
    constructor
    · rintro ⟨h, h'⟩; exact ⟨by omega, h'⟩
    · rintro ⟨h, h'⟩; exact ⟨by omega, h'⟩
  have hcs : ∀ i, ∀ g ∈ cxG (fun q => c.logicalX.get i q = 1) (n - k + i) qs, g.ctrl.isSome := by
    intro i g hg
    obtain ⟨q, -, hg⟩ := List.mem_flatMap.mp hg
    split_ifs at hg <;> simp at hg
    rw [hg]; rfl
  have hG1 : ∀ i ∈ Finset.range c.rank, (⟨none, .H, i⟩ :: G i : List Gate).length = weight (rowPauli n (c.normalForm.row i)) := by
    intro i hi
    rw [List.length_cons, (hG i (Finset.mem_range.mp hi)).2.2]
  have hG2 : ∀ i ∈ Finset.range c.rank, controlled (⟨none, .H, i⟩ :: G i) = weight (rowPauli n (c.normalForm.row i)) - 1 := by
    intro i hi
    obtain ⟨-, g2, g3⟩ := hG i (Finset.mem_range.mp hi)
    show controlled ([⟨none, .H, i⟩] ++ G i) = _
    rw [controlled_append, controlled_none (gs := [⟨none, .H, i⟩]) (by simp),
      controlled_some (fun g hg => by rw [g2 g hg]; rfl)]
    omega
  have hlenEq : (δ.zipIdx.flatMap (prepG (n - k)) ++
        ((List.range k).reverse.flatMap fun i => cxG (fun q => c.logicalX.get i q = 1) (n - k + i) qs) ++
        (List.range c.rank).flatMap fun i => ⟨none, .H, i⟩ :: G i).length = δ.count 1 +
        ∑ i ∈ Finset.range k, ((Finset.Ico c.rank (n - k)).filter fun q => c.logicalX.get i q = 1).card +
        ∑ i ∈ Finset.range c.rank, weight (rowPauli n (c.normalForm.row i)) := by
    rw [List.length_append, List.length_append, hp, List.length_flatMap, List.length_flatMap, List.map_reverse,
      List.sum_reverse, sum_map_range, sum_map_range, Finset.sum_congr rfl hG1]
    simp only [hcx]
  refine ⟨_, hrun, hlenEq, ?_, ?_⟩
  · rw [controlled_append, controlled_append, hpc, controlled_flatMap, controlled_flatMap, List.map_reverse,
      List.sum_reverse, sum_map_range, sum_map_range, Finset.sum_congr rfl hG2, zero_add]
    simp only [fun i => controlled_some (hcs i), hcx]
  · rw [hlenEq]
    have b1 : δ.count 1 ≤ k := hlen ▸ List.count_le_length
    have b2 : ∑ i ∈ Finset.range k, ((Finset.Ico c.rank (n - k)).filter fun q => c.logicalX.get i q = 1).card ≤
        k * (n - k - c.rank) := by
      refine (Finset.sum_le_card_nsmul _ _ (n - k - c.rank) fun i _ => ?_).trans (by simp)
      exact (Finset.card_filter_le _ _).trans (by simp)
    have b3 : ∑ i ∈ Finset.range c.rank, weight (rowPauli n (c.normalForm.row i)) ≤ c.rank * n := by
      refine (Finset.sum_le_card_nsmul _ _ n fun i _ => weight_le _).trans (by simp)
    obtain ⟨d, hd⟩ : ∃ d, n - k = c.rank + d := ⟨n - k - c.rank, by omega⟩
    have hd' : n - k - c.rank = d := by omega
    rw [hd'] at b2
    have hnn : n = c.rank + d + k := by omega
    calc _ ≤ k + k * d + c.rank * n := by omega
      _ ≤ n ^ 2 := by
        rcases Nat.eq_zero_or_pos k with hk0 | hk0
        · subst hk0
          have : c.rank * n ≤ n * n := Nat.mul_le_mul_right _ (by omega)
          rw [pow_two]; omega
        · generalize c.rank = r at *
          subst hnn
          nlinarith [Nat.zero_le (d * d), Nat.zero_le (r * d), Nat.zero_le (d * k), Nat.zero_le (r * k), Nat.mul_le_mul_right k hk0]

/-- **C137, `decoding_circuit`**.  For an accepted code all gates of the decoder are controlled, and their number is the
total weight of the `2 k` logical operators. -/
theorem C137_decoding (s : StabInput) (n k : ℕ) (c : StabCode) (h : stabInit s n k none = .ok c)
    (hb : BinaryArr c.stab) (hind : Independent n c.stab) (len : ℕ) (addAncilla : Bool)
    (hla : (len = n ∧ addAncilla = true) ∨ (len = n + k ∧ addAncilla = false)) :
    ∃ gs, decodingCircuit c len addAncilla = .ok gs ∧ (∀ g ∈ gs, g.ctrl.isSome) ∧
      gs.length = ∑ i ∈ Finset.range k,
        (weight (rowPauli n (c.logicalZ.row i)) + weight (rowPauli n (c.logicalX.row i))) := by
  obtain ⟨hn, hk, -, hsh, hX, hZ, -⟩ := accepted_facts h hb hind
  have hx := lx_shape hsh
  have hz := lz_shape hsh
  rw [← hX] at hx
  rw [← hZ] at hz
  have bx : ∀ i < k, IsBinary (c.logicalX.row i) := fun i hi => row_binary (by rw [hX]; exact lx_binary hsh) (by omega)
  have bz : ∀ i < k, IsBinary (c.logicalZ.row i) := fun i hi => row_binary (by rw [hZ]; exact lz_binary hsh) (by omega)
  have lx : ∀ i, (c.logicalX.row i).length = 2 * n := fun i => by rw [row_length]; omega
  have lz : ∀ i, (c.logicalZ.row i).length = 2 * n := fun i => by rw [row_length]; omega
  have hstr : ∀ i, ∃ s : List Char, i < k → binaryRepToPauliStr (c.logicalX.row i) = .ok s ∧ s.length = n ∧
      strPauli n s = rowPauli n (c.logicalX.row i) := by
    intro i
    by_cases hi : i < k
    · obtain ⟨s, h1, h2, h3⟩ := rowStr (lx i) (bx i hi)
      exact ⟨s, fun _ => ⟨h1, h2, h3⟩⟩
    · exact ⟨[], fun h => absurd h hi⟩
  choose str hstr using hstr
  have hbt : (if addAncilla then len else c.n) = n ∧ (if addAncilla then len + c.k else len) = n + k := by
    rcases hla with ⟨rfl, rfl⟩ | ⟨rfl, rfl⟩ <;> simp [hn, hk]
  have hlen : n ≤ len := by omega
  refine ⟨(List.range k).flatMap (fun i => ((c.logicalZ.row i).drop n).zipIdx.flatMap (copyG (n + i))) ++
    (List.range k).flatMap (fun i => strG (some (n + i)) 0 (str i)), ?_, ?_, ?_⟩
  · unfold decodingCircuit
    simp only
    rw [hbt.1, hbt.2, hk]
    rw [mapM_ok_of (g := fun i => ((c.logicalZ.row i).drop n).zipIdx.flatMap (copyG (n + i)))]
    · rw [ok_bind', mapM_ok_of (g := fun i => strG (some (n + i)) 0 (str i))]
      · rw [ok_bind', ← List.flatMap_def, ← List.flatMap_def]; rfl
      · intro i hi
        have hi := List.mem_range.mp hi
        obtain ⟨h1, h2, -⟩ := hstr i hi
        unfold uncomputeGates rowAt onWire
        rw [if_pos (by omega), ok_bind', if_pos (by omega), ok_bind', h1, ok_bind', pauliGates_ok (by omega)]
    · intro i hi
      have hi := List.mem_range.mp hi
      unfold copyGates rowAt
      rw [if_pos (by omega), ok_bind', hn]
      rw [mapM_ok_of (g := copyG (n + i))]
      · rw [ok_bind', ← List.flatMap_def]; rfl
      · rintro ⟨v, j⟩ hj
        have hj' := mem_zipIdx_lt hj
        have hj2 : j < n := by
          simp [lz] at hj'; omega
        unfold copyG
        by_cases hv : v = 1
        · simp only [hv, if_true]
          unfold onWire
          rw [if_pos (by omega), if_pos (by omega)]
          rfl
        · simp only [hv, if_false]
  · intro g hg
    rcases List.mem_append.mp hg with hg | hg
    · obtain ⟨i, -, hg⟩ := List.mem_flatMap.mp hg
      obtain ⟨vj, -, hg⟩ := List.mem_flatMap.mp hg
      unfold copyG at hg
      split_ifs at hg <;> simp at hg
      rw [hg]; rfl
    · obtain ⟨i, -, hg⟩ := List.mem_flatMap.mp hg
      rw [strG_ctrl g hg]; rfl
  · have hcopy : ∀ i ∈ Finset.range k, (((c.logicalZ.row i).drop n).zipIdx.flatMap (copyG (n + i))).length =
        weight (rowPauli n (c.logicalZ.row i)) := by
      intro i hi
      have hi := Finset.mem_range.mp hi
      have key : ∀ (l : List ℤ) (o : ℕ), ((l.zipIdx o).flatMap (copyG (n + i))).length = l.count 1 := by
        intro l
        induction l with
        | nil => intro o; rfl
        | cons a l ih =>
          intro o
          rw [List.zipIdx_cons, List.flatMap_cons, List.length_append, ih, List.count_cons]
          unfold copyG
          by_cases ha : a = 1
          · simp [ha]; omega
          · simp [ha]
      have hcount : (c.logicalZ.row i).drop n = List.ofFn fun j : Fin n => c.logicalZ.get i (n + j) := by
        apply List.ext_getElem
        · simp [lz]; omega
        · intro j h1 h2
          simp [Arr.row]
      rw [key, hcount]
      unfold weight
      rw [List.ofFn_eq_map, List.count_eq_countP, List.countP_map, List.countP_eq_length_filter,
        ← List.toFinset_card_of_nodup ((List.nodup_finRange n).filter _)]
      congr 1
      ext j
      have hx0 : (rowPauli n (c.logicalZ.row i)).x j = 0 := by
        rw [rowPauli_x hz.2, hZ, lz_x j.2]; rfl
      have hbin : c.logicalZ.get i (n + j) = 0 ∨ c.logicalZ.get i (n + j) = 1 := by
        rw [hZ]
        exact lz_binary hsh i (by rw [(lz_shape hsh).1]; exact hi) _ (by rw [(lz_shape hsh).2]; omega)
      simp only [List.mem_toFinset, List.mem_filter, List.mem_finRange, true_and, Finset.mem_filter, Finset.mem_univ,
        Function.comp, beq_iff_eq, hx0, rowPauli_z hz.2]
      rcases hbin with e | e <;> simp [e]
    rw [List.length_append, List.length_flatMap, List.length_flatMap, sum_map_range, sum_map_range,
      Finset.sum_congr rfl hcopy, ← Finset.sum_add_distrib]
    apply Finset.sum_congr rfl
    intro i hi
    obtain ⟨-, h2, h3⟩ := hstr i (Finset.mem_range.mp hi)
    rw [← List.length_map (f := Gate.wire) (as := strG _ _ _), strG_support _ _ h2, support_length, h3]

/-- **C137, distance**.  If the generators of an accepted code have distance `d`, the circuit of every logical operator
sends at least `d` gates, to `d` different qubits. -/
theorem C137_logical_distance (s : StabInput) (n k : ℕ) (c : StabCode) (h : stabInit s n k none = .ok c)
    (hb : BinaryArr c.stab) (hind : Independent n c.stab) (d : ℕ) (hd : DistanceAtLeast n c.iter d) (p : Char)
    (hp : p = 'X' ∨ p = 'Y' ∨ p = 'Z') (i : ℕ) (hi : i < k) (hi' : i < 10) :
    ∃ gs, logicalCircuit c n [p, Char.ofNat (48 + i)] = .ok gs ∧ d ≤ gs.length ∧ (gs.map Gate.wire).Nodup := by
  obtain ⟨gs, h1, h2, -⟩ := C137_logical s n k c h hb hind p hp i hi hi'
  obtain ⟨-, -, -, -, -, -, hg, hq⟩ := C08_logical_operators s n k c h hb hind
  refine ⟨gs, h1, ?_, ?_⟩
  · rw [← List.length_map (f := Gate.wire), h2, support_length]
    have hX : ∀ g ∈ c.iter, sympV (rowPauli n (c.logicalX.row i)).vec (rowPauli n g).vec = 0 := fun g hm => (hg i hi g hm).1
    have hZ : ∀ g ∈ c.iter, sympV (rowPauli n (c.logicalZ.row i)).vec (rowPauli n g).vec = 0 := fun g hm => (hg i hi g hm).2
    have hXZ : sympV (rowPauli n (c.logicalX.row i)).vec (rowPauli n (c.logicalZ.row i)).vec = 1 :=
      ((hq i hi i hi).1).trans (if_pos rfl)
    have hXX : sympV (rowPauli n (c.logicalX.row i)).vec (rowPauli n (c.logicalX.row i)).vec = 0 := (hq i hi i hi).2.1
    have hadd : ((rowPauli n (c.logicalX.row i)).add (rowPauli n (c.logicalZ.row i))).vec =
        (rowPauli n (c.logicalX.row i)).vec + (rowPauli n (c.logicalZ.row i)).vec := rfl
    apply hd
    · intro g hm
      rw [symp_comm, ← sympV_vec]
      split_ifs
      · exact hX g hm
      · exact hZ g hm
      · rw [hadd, sympV_add_left, hX g hm, hZ g hm, add_zero]
    · intro hmem
      split_ifs at hmem
      · have := symp_group hZ _ hmem
        rw [sympV_comm, hXZ] at this
        exact one_ne_zero this
      · have := symp_group hX _ hmem
        rw [hXZ] at this
        exact one_ne_zero this
      · rw [hadd] at hmem
        have := symp_group hX _ hmem
        rw [sympV_add_right, hXX, hXZ, zero_add] at this
        exact one_ne_zero this
  · rw [h2]
    unfold support
    exact (((List.nodup_finRange n).filter _)).map Fin.val_injective

/-- The hypotheses are met by the `[[4,2]]` code. -/
example : ∃ c, stabInit (.rows [[1, 1, 1, 1, 0, 0, 0, 0], [0, 0, 0, 0, 1, 1, 1, 1]]) 4 2 none = .ok c ∧
    BinaryArr c.stab ∧ Independent 4 c.stab ∧ IsBinary [1, 0] ∧ [(1 : ℤ), 0].length = 2 ∧
    weight (rowPauli 4 (c.stab.row 0)) = 4 ∧ support (rowPauli 4 [0, 1, 1, 0, 0, 0, 1, 0]) = [1, 2] := by
  obtain ⟨c, h1, h2, h3, -, -, h4, -⟩ := code422
  refine ⟨c, h1, h2, h3, by simp [IsBinary], rfl, ?_, ?_⟩
  · rw [h4]; decide
  · decide

/-- The hypotheses of `C137_logical_distance` are met by the five-qubit code with distance 3. -/
example : ∃ c, stabInit (.rows fiveRows) 5 1 none = .ok c ∧ BinaryArr c.stab ∧ Independent 5 c.stab ∧
    DistanceAtLeast 5 c.iter 3 ∧ 0 < 1 := by
  obtain ⟨c, h1, h2, h3, -, h5⟩ := five_code
  refine ⟨c, h1, h2, h3, fun p hp hn => ?_, by omega⟩
  by_contra hw
  exact hn (five_distance h5 p (by omega) hp)

end PyQ
