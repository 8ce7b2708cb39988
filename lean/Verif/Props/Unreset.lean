import Verif.Lemmas.Unreset
import Verif.Props.EncodeState
import Verif.Props.Correctable

/-! **C140**: encoding on a register that was not reset. -/

namespace PyQ

open Spec

variable {n k : ℕ}

/-- Bits on the first qubits of a register, zeros on the others. -/
def firstOnly (n : ℕ) {m : ℕ} (a : Fin m → ZMod 2) : Fin n → ZMod 2 := fun j => if h : j.val < m then a ⟨j, h⟩ else 0

theorem firstOnly_add {m : ℕ} (a a' : Fin m → ZMod 2) : firstOnly n (a + a') = firstOnly n a + firstOnly n a' := by
  funext j
  simp only [firstOnly, Pi.add_apply]
  split_ifs <;> simp

theorem beyond_add (A : Arr ℤ) (t i : ℕ) (b b' : Fin n → ZMod 2) : beyond n A t i (b + b') = beyond n A t i b + beyond n A t i b' := by
  unfold beyond
  rw [← Finset.sum_add_distrib]
  apply Finset.sum_congr rfl
  intro j _
  rw [Pi.add_apply]
  split_ifs
  · ring
  · simp

theorem unresetErr_add (A : Arr ℤ) (t r : ℕ) (b b' : Fin n → ZMod 2) :
    unresetErr n t A r (b + b') = ⟨(unresetErr n t A r b).x + (unresetErr n t A r b').x,
      (unresetErr n t A r b).z + (unresetErr n t A r b').z⟩ := by
  unfold unresetErr
  congr 1
  · funext j
    simp only [Pi.add_apply]
    split_ifs <;> simp
  · funext j
    simp only [Pi.add_apply]
    rw [beyond_add]
    split_ifs
    · ring
    · simp

theorem beyond_congr (A : Arr ℤ) (t i : ℕ) {b b' : Fin n → ZMod 2} (h : ∀ j : Fin n, i < j.val → j.val < t → b j = b' j) :
    beyond n A t i b = beyond n A t i b' := by
  unfold beyond
  apply Finset.sum_congr rfl
  intro j _
  split_ifs with hj
  · rw [h j hj.1 hj.2]
  · rfl

theorem unresetErr_congr (A : Arr ℤ) {t r : ℕ} (hr : r ≤ t) {b b' : Fin n → ZMod 2} (h : ∀ j : Fin n, j.val < t → b j = b' j) :
    unresetErr n t A r b = unresetErr n t A r b' := by
  unfold unresetErr
  congr 1
  · funext j
    split_ifs with h1 h2
    · rfl
    · rw [h j h2]
    · rfl
  · funext j
    split_ifs with h1
    · rw [h j (by omega), beyond_congr A t j fun q _ hq => h q hq]
    · rfl

theorem onLast_ket (hk : k ≤ n) (b : Fin n → ZMod 2) :
    onLast n hk (ket fun i : Fin k => b ⟨n - k + i, by omega⟩) = ket fun j => if j.val < n - k then 0 else b j := by
  funext a
  unfold onLast ket
  by_cases h : ∀ j : Fin n, j.val < n - k → a j = 0
  · rw [if_pos h]
    apply if_congr _ rfl rfl
    constructor
    · intro e
      funext j
      split_ifs with hj
      · exact h j hj
      · have := congrFun e ⟨j.val - (n - k), by omega⟩
        simp only at this
        have hj' : (⟨n - k + (j.val - (n - k)), by omega⟩ : Fin n) = j := Fin.ext (by simp only; omega)
        rw [hj'] at this
        exact this
    · rintro rfl
      funext i
      simp
  · rw [if_neg h, if_neg]
    rintro rfl
    apply h
    intro j hj
    exact if_pos hj

/-- **C140**.  `encoding_circuit`, sent to a register in any basis state, gives the state it would have given on a register
whose first `n - k` qubits had been reset, changed by a Pauli operator `E` of those `n - k` bits alone.  `E` of zero bits is
the identity, `E` of a sum of bits is the product, and the generators see the bits one after the other: if all bits after bit
`i` are zero, generator `i` anticommutes with the operator exactly when bit `i` is one.  In particular no operator other than
the identity escapes all generators. -/
theorem C140_pauli_error (s : StabInput) (c : StabCode) (h : stabInit s n k none = .ok c)
    (hb : BinaryArr c.stab) (hind : Independent n c.stab) :
    ∃ hk : k ≤ n, ∃ enc : (Fin k → ZMod 2) → List Gate, (∀ δ, encodingCircuit c n (bitsList δ) = .ok (enc δ)) ∧
      ∃ E : (Fin (n - k) → ZMod 2) → Pauli n, E 0 = ⟨0, 0⟩ ∧
        (∀ a a', E (a + a') = ⟨(E a).x + (E a').x, (E a).z + (E a').z⟩) ∧
        (∀ (δ : Fin k → ZMod 2) (b : Fin n → ZMod 2), run (enc δ) (ket b) =
          pauliAct (E fun j => b ⟨j, by omega⟩) (run (enc (δ + fun i : Fin k => b ⟨n - k + i, by omega⟩)) (ket 0))) ∧
        (∀ (a : Fin (n - k) → ZMod 2) (i : Fin (n - k)), (∀ j, i < j → a j = 0) →
          symp (rowPauli n (c.iter.getD i [])) (E a) = a i) ∧
        (∀ a, (∀ g ∈ c.iter, symp (rowPauli n g) (E a) = 0) → a = 0) := by
  obtain ⟨hn, hk, hst, hsh, hX, -, -⟩ := accepted_facts h hb hind
  have hr := hsh.rows
  have hrk := hsh.rank_le
  obtain ⟨hkn, enc, henc, hsup, -⟩ := C89_superposition s n k c h hb hind
  have hE0 : unresetErr n (n - k) c.normalForm c.rank 0 = ⟨0, 0⟩ := by
    unfold unresetErr
    have : ∀ t i, beyond n c.normalForm t i 0 = 0 := by
      intro t i
      unfold beyond
      apply Finset.sum_eq_zero
      intro j _
      simp
    congr 1
    · funext j; simp
    · funext j; simp [this]
  have hiter : ∀ i < n - k, c.iter.getD i [] = c.normalForm.row i := by
    intro i hi
    unfold StabCode.iter
    rw [List.getD_eq_getElem _ _ (by simp; omega)]
    simp
  have htri : ∀ (a : Fin (n - k) → ZMod 2) (i : Fin (n - k)), (∀ j, i < j → a j = 0) →
      symp (rowPauli n (c.iter.getD i [])) (unresetErr n (n - k) c.normalForm c.rank (firstOnly n a)) = a i := by
    intro a i hai
    rw [hiter i i.2, symp_unreset_row hsh _ i.2]
    have e1 : beyond n c.normalForm c.rank i (firstOnly n a) = 0 := by
      unfold beyond
      apply Finset.sum_eq_zero
      intro j _
      split_ifs with hj
      · have : firstOnly n a j = 0 := by
          unfold firstOnly
          rw [dif_pos (by omega)]
          exact hai _ (by rw [Fin.lt_def]; exact hj.1)
        rw [this, mul_zero]
      · rfl
    rw [e1, add_zero, bitAt_of_lt _ (by omega)]
    unfold firstOnly
    rw [dif_pos (by simp)]
  refine ⟨hkn, enc, henc, fun a => unresetErr n (n - k) c.normalForm c.rank (firstOnly n a), ?_, ?_, ?_, htri, ?_⟩
  · show unresetErr n (n - k) c.normalForm c.rank (firstOnly n (0 : Fin (n - k) → ZMod 2)) = _
    rw [← hE0]
    congr 1
    funext j
    simp [firstOnly]
  · intro a a'
    simp only [firstOnly_add, unresetErr_add]
  · intro δ b
    rw [encoding_shift hn hk hst hsh hX _ (bitsList_length δ) (bitsList_binary δ) (henc δ) b, ← onLast_ket hkn b, hsup]
    congr 1
    · apply unresetErr_congr _ (by omega)
      intro j hj
      unfold firstOnly
      rw [dif_pos hj]
    · rw [Finset.sum_eq_single (fun i : Fin k => b ⟨n - k + i, by omega⟩)]
      · rw [add_comm]
        simp [ket]
      · intro d _ hd
        simp [ket, hd]
      · simp
  · intro a ha
    have hall : ∀ m, ∀ i : Fin (n - k), n - k ≤ i.val + m → a i = 0 := by
      intro m
      induction m with
      | zero => intro i hi; omega
      | succ m ih =>
        intro i hi
        rw [← htri a i fun j hj => ih j (by rw [Fin.lt_def] at hj; omega)]
        apply ha
        rw [List.getD_eq_getElem _ _ (by simp [StabCode.iter]; omega)]
        exact List.getElem_mem _
    funext i
    exact hall (n - k) i (by omega)

/-- **C140, measured**.  For generators with an even number of Y's: the states `encoding_circuit` makes from the basis states of
the register are orthonormal, measuring all generators after it leaves the state as it is, the results are all zero exactly
when the first `n - k` qubits had been reset, and they are the same for two registers exactly when the first `n - k` qubits
were. -/
theorem C140_measured (s : StabInput) (c : StabCode) (h : stabInit s c.n c.k none = .ok c)
    (hb : BinaryArr c.stab) (hind : Independent c.n c.stab)
    (hY : ∀ a < c.stab.rows, parityY (rowPauli c.n (c.stab.row a)) = 0)
    (δ : List ℤ) (hlen : δ.length = c.k) (hδ : IsBinary δ) :
    ∃ enc, encodingCircuit c c.n δ = .ok enc ∧
      (∀ b b' : Fin c.n → ZMod 2, braket (run enc (ket b)) (run enc (ket b')) = if b = b' then 1 else 0) ∧
      ∃ out : (Fin c.n → ZMod 2) → List (ZMod 2),
        (∀ b, History (FreshStep c) (run enc (ket b)) (c.iter.map .bin) (out b) (run enc (ket b))) ∧
        (∀ b rs φ, History (FreshStep c) (run enc (ket b)) (c.iter.map .bin) rs φ → rs = out b ∧ φ = run enc (ket b)) ∧
        (∀ b, (∀ v ∈ out b, v = 0) ↔ ∀ j : Fin c.n, j.val < c.n - c.k → b j = 0) ∧
        (∀ b b', out b = out b' ↔ ∀ j : Fin c.n, j.val < c.n - c.k → b j = b' j) := by
  obtain ⟨hn, hk, hst, hsh, hX, -, -⟩ := accepted_facts h hb hind
  obtain ⟨hkn, enc, henc, E, hE0, hEadd, hEact, -, hEinj⟩ := C140_pauli_error s c h hb hind
  obtain ⟨δ', rfl⟩ : ∃ δ' : Fin c.k → ZMod 2, bitsList δ' = δ := by
    refine ⟨fun i => ((δ.getD i 0 : ℤ) : ZMod 2), ?_⟩
    apply List.ext_getElem
    · rw [bitsList_length, hlen]
    · intro i h1 h2
      simp only [bitsList, List.getElem_ofFn]
      rw [List.getD_eq_getElem _ _ h2]
      rcases hδ _ (List.getElem_mem h2) with e | e <;> rw [e]
      · simp
      · simp; rfl
  obtain ⟨gs, hg1, hg2, -⟩ := encoding_ok hn hk hst hsh hX _ hlen hδ
  have hge : gs = enc δ' := by
    rw [henc] at hg1
    exact (Except.ok.inj hg1).symm
  subst hge
  set fst : (Fin c.n → ZMod 2) → Fin (c.n - c.k) → ZMod 2 := fun b j => b ⟨j, by omega⟩ with hfst
  have hsymp : ∀ (g : Pauli c.n) (a a'), symp g (E (a + a')) = symp g (E a) + symp g (E a') := by
    intro g a a'
    rw [hEadd]
    unfold symp
    simp only [dotp_add_right]
    ring
  have heig : ∀ b, ∀ g ∈ c.iter, pauliAct (rowPauli c.n g) (run (enc δ') (ket b)) =
      (sgn (symp (rowPauli c.n g) (E (fst b))) : ℂ) • run (enc δ') (ket b) := by
    intro b g hg
    obtain ⟨gs, h1, h2⟩ := C13_even_generators_rows_fix s c.n c.k c h hb hind hY
      (bitsList (δ' + fun i : Fin c.k => b ⟨c.n - c.k + i, by omega⟩)) (bitsList_length _) (bitsList_binary _)
    rw [henc] at h1
    cases h1
    rw [hEact, pauliAct_comm, h2 g hg]
  have horth : ∀ b b' : Fin c.n → ZMod 2, braket (run (enc δ') (ket b)) (run (enc δ') (ket b')) = if b = b' then 1 else 0 := by
    intro b b'
    rw [run_unitary _ hg2, braket_ket]
  have hval : ∀ g ∈ c.iter, g.length = 2 * c.n ∧ IsBinary g := by
    intro g hg
    simp only [StabCode.iter, List.mem_map, List.mem_range] at hg
    obtain ⟨a, ha, rfl⟩ := hg
    exact ⟨by rw [row_length, hsh.cols], row_binary hsh.binary ha⟩
  refine ⟨enc δ', henc δ', horth, fun b => c.iter.map fun g => symp (rowPauli c.n g) (E (fst b)), ?_, ?_, ?_, ?_⟩
  · intro b
    have := (C17_fresh_history c (run (enc δ') (ket b)) (normalised_of_braket (by rw [horth, if_pos rfl]))
      (fun a => symp (a.pauli c.n) (E (fst b))) (c.iter.map .bin) (by
        intro x hx
        obtain ⟨g, hg, rfl⟩ := List.mem_map.mp hx
        exact ⟨hval g hg, heig b g hg⟩)).2
    rw [List.map_map] at this
    exact this
  · intro b rs φ hh
    have := (C17_fresh_history c (run (enc δ') (ket b)) (normalised_of_braket (by rw [horth, if_pos rfl]))
      (fun a => symp (a.pauli c.n) (E (fst b))) (c.iter.map .bin) (by
        intro x hx
        obtain ⟨g, hg, rfl⟩ := List.mem_map.mp hx
        exact ⟨hval g hg, heig b g hg⟩)).1 rs φ hh
    rw [List.map_map] at this
    exact this
  · intro b
    constructor
    · intro hz j hj
      have := hEinj (fst b) fun g hg => hz _ (List.mem_map.mpr ⟨g, hg, rfl⟩)
      exact congrFun this ⟨j, hj⟩
    · intro hz v hv
      obtain ⟨g, -, rfl⟩ := List.mem_map.mp hv
      have : fst b = 0 := by
        funext j
        exact hz _ j.2
      rw [this, hE0]
      unfold symp
      simp [dotp_zero_right]
  · intro b b'
    constructor
    · intro he j hj
      have hg : ∀ g ∈ c.iter, symp (rowPauli c.n g) (E (fst b + fst b')) = 0 := by
        intro g hg
        rw [hsymp, List.map_inj_left.mp he g hg, add_self_z]
      have := congrFun (hEinj _ hg) ⟨j, hj⟩
      simp only [Pi.add_apply, Pi.zero_apply, hfst] at this
      have h2 := add_self_z (b' j)
      calc b j = b j + (b' j + b' j) := by rw [h2, add_zero]
        _ = (b j + b' j) + b' j := by ring
        _ = b' j := by
          have h3 : b j + b' j = 0 := this
          rw [h3, zero_add]
    · intro he
      have : fst b = fst b' := by
        funext j
        exact he _ j.2
      simp only [this]

/-- The five-qubit code meets the hypotheses. -/
example : ∃ c, stabInit (.rows fiveRows) c.n c.k none = .ok c ∧ c.n = 5 ∧ c.k = 1 ∧ BinaryArr c.stab ∧ Independent c.n c.stab ∧
    ∀ a < c.stab.rows, parityY (rowPauli c.n (c.stab.row a)) = 0 := by
  obtain ⟨c, h, hb, hind, hY, -⟩ := five_code
  obtain ⟨hn, hk, -⟩ := accepted_facts h hb hind
  refine ⟨c, ?_, hn, hk, hb, ?_, ?_⟩
  · rw [hn, hk]; exact h
  · rw [hn]; exact hind
  · rw [hn]; exact hY

end PyQ
