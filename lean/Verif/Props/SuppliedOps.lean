import Verif.Lemmas.EncodeSupplied
import Verif.Props.LogicalCircuit
import Verif.Props.EndToEnd

/-! # C70: logical operators supplied by the caller

`StabilizerCode(..., logical_ops=(LX, LZ))` skips the computation of the logical operators.  What is checked of the arrays,
what the encoder makes of them and when it still encodes into the code. -/

namespace PyQ

open Spec

/-- **C70 (a)**.  The arrays are stored as they are given; only their number of columns is checked, and everything else of
the object is what the constructor computes without them. -/
theorem C70_stored (s : StabInput) (n k : ℕ) (c : StabCode) (h : stabInit s n k none = .ok c) (LX LZ : Arr ℤ) :
    stabInit s n k (some (LX, LZ)) =
      if LX.cols = 2 * n ∧ LZ.cols = 2 * n then .ok { c with logicalX := LX, logicalZ := LZ } else .error .assertion := by
  obtain ⟨hA, hcom, hS, hN, hn, hk, -, -⟩ := stabInit_ok h
  unfold stabInit
  simp only [hA, ok_bind', isStabilizerCode_eq (initArray_cols hA), pyAssert, hcom, decide_true, if_true, hS, hN, pure_ok']
  by_cases h1 : LX.cols = 2 * n
  · by_cases h2 : LZ.cols = 2 * n
    · simp only [h1, h2, if_true, ok_bind', and_self]
      rw [← hn, ← hk]
    · simp [h1, h2]
  · simp [h1]

example : ∃ c, stabInit (.rows [[1, 1, 1, 1, 0, 0, 0, 0], [0, 0, 0, 0, 1, 1, 1, 1]]) 4 2 none = .ok c := by
  obtain ⟨c, h, -⟩ := code422
  exact ⟨c, h⟩

/-- **C70 refuted (validity)**.  Arrays that are not logical operators at all are accepted: with all-zero arrays the
supplied X and Z operators of every logical qubit commute. -/
theorem C70_unchecked_refuted (s : StabInput) (n k : ℕ) (c : StabCode) (h : stabInit s n k none = .ok c) :
    ∃ c', stabInit s n k (some (Arr.zeros k (2 * n), Arr.zeros k (2 * n))) = .ok c' ∧
      ∀ i < k, symp (rowPauli n (c'.logicalX.row i)) (rowPauli n (c'.logicalZ.row i)) = 0 := by
  refine ⟨{ c with logicalX := Arr.zeros k (2 * n), logicalZ := Arr.zeros k (2 * n) }, ?_, ?_⟩
  · rw [C70_stored s n k c h, if_pos ⟨rfl, rfl⟩]
  · intro i _
    have hx : (rowPauli n ((Arr.zeros k (2 * n)).row i)).x = 0 := by
      funext j; rw [rowPauli_x (by rfl)]; simp [Arr.zeros]
    have hz : (rowPauli n ((Arr.zeros k (2 * n)).row i)).z = 0 := by
      funext j; rw [rowPauli_z (by rfl)]; simp [Arr.zeros]
    simp only [symp, hx, hz]
    simp

/-- Unitary circuits do not annihilate `|0...0⟩`. -/
theorem run_ket_ne_zero {n : ℕ} (gs : List Gate) (hg : ∀ g ∈ gs, g.WF n) : (run gs (ket 0) : Amp n) ≠ 0 := by
  intro h0
  have := run_unitary gs hg (ket 0 : Amp n) (ket 0)
  rw [h0, braket_ket, if_pos rfl] at this
  unfold braket at this
  simp at this

/-- The bits `0...010...0`. -/
theorem unit_list {k i : ℕ} (hi : i < k) :
    ∃ δ : List ℤ, δ.length = k ∧ IsBinary δ ∧ bitFn δ = fun j => if j = i then 1 else 0 := by
  refine ⟨(List.range k).map fun j => if j = i then 1 else 0, by simp, ?_, ?_⟩
  · intro v hv
    simp only [List.mem_map, List.mem_range] at hv
    obtain ⟨j, -, rfl⟩ := hv
    split_ifs <;> simp
  · funext j
    unfold bitFn
    by_cases hj : j < k
    · rw [List.getD_eq_getElem _ _ (by simpa using hj)]
      simp only [List.getElem_map, List.getElem_range]
      split_ifs <;> simp
    · rw [List.getD_eq_default _ _ (by simp; omega), if_neg (by omega)]
      simp

/-- **C70 (b), partial**.  With supplied X operators the encoder always succeeds, and it encodes into the code (every
encoded state fixed by every row of the normal form with an even number of Y's) if and only if each supplied X operator has
its X letters on the qubits `r, ..., n-k-1` exactly where the computed operator has them: supplying another, equivalent,
choice is not enough. -/
theorem C70_encoding_iff_partial (s : StabInput) (n k : ℕ) (c : StabCode) (h : stabInit s n k none = .ok c)
    (hb : BinaryArr c.stab) (hind : Independent n c.stab) (LX LZ : Arr ℤ) (hX : LX.cols = 2 * n) (hZ : LZ.cols = 2 * n)
    (hrows : k ≤ LX.rows) :
    ∃ c', stabInit s n k (some (LX, LZ)) = .ok c' ∧
      (∀ δ : List ℤ, δ.length = k → IsBinary δ → ∃ gs, encodingCircuit c' n δ = .ok gs) ∧
      ((∀ (δ : List ℤ) (gs : List Gate), δ.length = k → IsBinary δ → encodingCircuit c' n δ = .ok gs →
          ∀ g ∈ c'.iter, parityY (rowPauli n g) = 0 → pauliAct (rowPauli n g) (run gs (ket 0)) = run gs (ket 0)) ↔
        ∀ i < k, ∀ q, c.rank ≤ q → q < n - k → (LX.get i q = 1 ↔ c.logicalX.get i q = 1)) := by
  obtain ⟨hn, hk, hst, hsh, hX0, -, hcom⟩ := accepted_facts h hb hind
  have hr := hsh.rows
  have hr2 := hsh.rank_le
  have enc := fun δ hl hδ => encoding_supplied (c := { c with logicalX := LX, logicalZ := LZ }) hn hk hst hsh hrows δ hl hδ
  refine ⟨{ c with logicalX := LX, logicalZ := LZ }, by rw [C70_stored s n k c h, if_pos ⟨hX, hZ⟩], ?_, ?_⟩
  · intro δ hl hδ
    obtain ⟨gs, g1, -⟩ := enc δ hl hδ
    exact ⟨gs, g1⟩
  have hcomm : ∀ a < c.normalForm.rows, ∀ g ∈ (List.range c.rank).map (fun i => rowPauli n (c.normalForm.row i)),
      symp (rowPauli n (c.normalForm.row a)) g = 0 := by
    intro a ha g hg
    simp only [List.mem_map, List.mem_range] at hg
    obtain ⟨i, hi, rfl⟩ := hg
    exact nf_symp hsh hcom ha (by omega)
  have hx0 : ∀ a, c.rank ≤ a → a < c.normalForm.rows → (rowPauli n (c.normalForm.row a)).x = 0 := by
    intro a ha1 ha2
    funext j
    rw [rowPauli_x hsh.cols, hsh.lowerX a ha1 ha2 j j.2]; rfl
  have hlow : ∀ (δ : List ℤ) (hl : δ.length = k) (hδ : IsBinary δ) (gs : List Gate),
      encodingCircuit { c with logicalX := LX, logicalZ := LZ } n δ = .ok gs → ∀ a, c.rank ≤ a → a < c.normalForm.rows →
      pauliAct (rowPauli n (c.normalForm.row a)) (run gs (ket 0)) =
        (sgn (suppliedN n k c.rank LX (bitFn δ) a + labelN n k c.rank c.normalForm (bitFn δ) a) : ℂ) •
          (run gs (ket 0) : Amp n) := by
    intro δ hl hδ gs hgs a ha1 ha2
    obtain ⟨gs', g1, -, g3⟩ := enc δ hl hδ
    rw [hgs] at g1
    cases g1
    rw [g3, pauliAct_projected _ _ (hcomm a ha2), lower_dot_supplied hsh ha1 ha2, hx0 a ha1 ha2, add_zero]
  have hget : ∀ i < k, ∀ q, c.rank ≤ q → q < n - k →
      ((c.normalForm.get q (n + (n - k) + i) : ℤ) : ZMod 2) = if c.logicalX.get i q = 1 then 1 else 0 := by
    intro i hi q hq1 hq2
    have e : c.logicalX.get i q = c.normalForm.get q (n + (n - k) + i) := by
      rw [hX0, lx_x hsh (by omega), if_neg (by omega), if_pos (by omega)]
      congr 1; omega
    rw [e]
    rcases hsh.binary q (by omega) (n + (n - k) + i) (by rw [hsh.cols]; omega) with e | e <;> rw [e] <;> simp
  constructor
  · intro H i hi q hq1 hq2
    obtain ⟨δ, d1, d2, d3⟩ := unit_list hi
    obtain ⟨gs, g1, g2, g3⟩ := enc δ d1 d2
    have hfix := H δ gs d1 d2 g1 (c.normalForm.row q)
      (by unfold StabCode.iter; exact List.mem_map_of_mem (List.mem_range.mpr (by simp only; omega)))
      (by unfold parityY; rw [hx0 q hq1 (by omega)]; simp)
    rw [hlow δ d1 d2 gs g1 q hq1 (by omega)] at hfix
    have hne : (run gs (ket 0) : Amp n) ≠ 0 := run_ket_ne_zero gs g2
    have hs : suppliedN n k c.rank LX (bitFn δ) q = if LX.get i q = 1 then 1 else 0 := by
      unfold suppliedN
      rw [if_neg (by omega), if_pos hq2, d3, Finset.sum_eq_single i]
      · simp
      · intro j _ hj; simp [hj]
      · intro hh; exact absurd (Finset.mem_range.mpr hi) hh
    have hlab : labelN n k c.rank c.normalForm (bitFn δ) q = if c.logicalX.get i q = 1 then 1 else 0 := by
      unfold labelN
      rw [if_neg (by omega), if_pos hq2, d3, Finset.sum_eq_single i]
      · rw [hget i hi q hq1 hq2]; simp
      · intro j _ hj; simp [hj]
      · intro hh; exact absurd (Finset.mem_range.mpr hi) hh
    rw [hs, hlab] at hfix
    have hneg : ∀ ψ : Amp n, ψ ≠ 0 → (sgn (1 : ZMod 2) : ℂ) • ψ ≠ ψ := by
      intro ψ hψ he
      rw [sgn_one, neg_smul, one_smul] at he
      apply hψ
      have : (2 : ℂ) • ψ = 0 := by rw [two_smul]; nth_rewrite 1 [← he]; exact neg_add_cancel _
      exact (smul_eq_zero.mp this).resolve_left (by norm_num)
    by_cases e1 : LX.get i q = 1 <;> by_cases e2 : c.logicalX.get i q = 1
    · simp [e1, e2]
    · rw [if_pos e1, if_neg e2, add_zero] at hfix
      exact absurd hfix (hneg _ hne)
    · rw [if_neg e1, if_pos e2, zero_add] at hfix
      exact absurd hfix (hneg _ hne)
    · simp [e1, e2]
  · intro H δ gs hl hδ hgs g hg hY
    simp only [StabCode.iter, List.mem_map, List.mem_range] at hg
    obtain ⟨a, ha, rfl⟩ := hg
    by_cases har : a < c.rank
    · obtain ⟨gs', g1, -, g3⟩ := enc δ hl hδ
      rw [hgs] at g1
      cases g1
      rw [g3]
      exact projected_fixed _ _ (upper_rows_mem har) (hcomm a ha) hY _
    · rw [hlow δ hl hδ gs hgs a (by omega) ha]
      have : suppliedN n k c.rank LX (bitFn δ) a = labelN n k c.rank c.normalForm (bitFn δ) a := by
        unfold suppliedN labelN
        rw [if_neg har, if_neg har, if_pos (by omega), if_pos (by omega)]
        apply Finset.sum_congr rfl
        intro i hi
        rw [Finset.mem_range] at hi
        rw [hget i hi a (by omega) (by omega)]
        have := H i hi a (by omega) (by omega)
        by_cases e : LX.get i a = 1
        · rw [if_pos e, if_pos (this.mp e), one_mul]
        · rw [if_neg e, if_neg (fun h => e (this.mpr h)), zero_mul]
      rw [this, add_self_z, sgn_zero, one_smul]

/-- **C70 (c)**.  When the supplied X operators agree with the computed ones on those qubits, the encoder emits the same
gates as the encoder of the code built without them. -/
theorem C70_encoding_same (s : StabInput) (n k : ℕ) (c : StabCode) (h : stabInit s n k none = .ok c)
    (hb : BinaryArr c.stab) (hind : Independent n c.stab) (LX LZ : Arr ℤ) (hX : LX.cols = 2 * n) (hZ : LZ.cols = 2 * n)
    (hrows : k ≤ LX.rows)
    (hagree : ∀ i < k, ∀ q, c.rank ≤ q → q < n - k → (LX.get i q = 1 ↔ c.logicalX.get i q = 1)) :
    ∃ c', stabInit s n k (some (LX, LZ)) = .ok c' ∧ ∀ δ len, encodingCircuit c' len δ = encodingCircuit c len δ := by
  obtain ⟨hn, hk, hst, hsh, hX0, -, -⟩ := accepted_facts h hb hind
  have hr : c.logicalX.rows = k := by rw [hX0]; exact (lx_shape hsh).1
  subst hk
  refine ⟨{ c with logicalX := LX, logicalZ := LZ }, by rw [C70_stored s n c.k c h, if_pos ⟨hX, hZ⟩], ?_⟩
  intro δ len
  have hg : ∀ i ∈ (List.range c.k).reverse, logicalXGates { c with logicalX := LX, logicalZ := LZ } i = logicalXGates c i := by
    intro i hi
    simp only [List.mem_reverse, List.mem_range] at hi
    unfold logicalXGates
    simp only [hn, List.flatMap_def]
    congr 1
    apply List.map_congr_left
    intro q hq
    rw [List.mem_range'_1] at hq
    have := hagree i hi q (by omega) (by omega)
    by_cases e : LX.get i q = 1
    · rw [if_pos e, if_pos (this.mp e)]
    · rw [if_neg e, if_neg (fun h => e (this.mpr h))]
  have hl : (List.range c.k).reverse.flatMap (logicalXGates { c with logicalX := LX, logicalZ := LZ }) =
      (List.range c.k).reverse.flatMap (logicalXGates c) := by
    simp only [List.flatMap_def]
    congr 1
    exact List.map_congr_left hg
  unfold encodingCircuit
  simp only [hl, hr, if_neg (show ¬ LX.rows < c.k by omega), lt_irrefl, if_false]
  rfl

/-- The operators of `[[4, 2]]` used below: the computed X operators IXXI and IXIX times XXXX, and the computed Z ones. -/
def equivX : Arr ℤ := Arr.ofRows 8 [[1, 0, 0, 1, 0, 0, 0, 0], [1, 0, 1, 0, 0, 0, 0, 0]]
/-- See `equivX`. -/
def equivZ : Arr ℤ := Arr.ofRows 8 [[0, 0, 0, 0, 1, 0, 1, 0], [0, 0, 0, 0, 1, 0, 0, 1]]

/-- **C70 refuted (encoding)**.  For the code of XXXX and ZZZZ supply XIIX, XIXI as X operators and ZIZI, ZIIZ as Z
operators: they commute with both generators and with each other except that each X anticommutes with its own Z, so they
are logical operators of the code.  The state encoded from `10` is an eigenvector of ZZZZ with eigenvalue `-1`: outside the
code. -/
theorem C70_encoding_refuted :
    (∀ i < 2, ∀ g ∈ [[1, 1, 1, 1, 0, 0, 0, 0], [0, 0, 0, 0, 1, 1, 1, 1]],
      symp (rowPauli 4 (equivX.row i)) (rowPauli 4 g) = 0 ∧ symp (rowPauli 4 (equivZ.row i)) (rowPauli 4 g) = 0) ∧
    (∀ i < 2, ∀ j < 2, symp (rowPauli 4 (equivX.row i)) (rowPauli 4 (equivX.row j)) = 0 ∧
      symp (rowPauli 4 (equivZ.row i)) (rowPauli 4 (equivZ.row j)) = 0 ∧
      symp (rowPauli 4 (equivX.row i)) (rowPauli 4 (equivZ.row j)) = if i = j then 1 else 0) ∧
    ∃ c gs, stabInit (.rows [[1, 1, 1, 1, 0, 0, 0, 0], [0, 0, 0, 0, 1, 1, 1, 1]]) 4 2 (some (equivX, equivZ)) = .ok c ∧
      encodingCircuit c 4 [1, 0] = .ok gs ∧ (run gs (ket 0) : Amp 4) ≠ 0 ∧
      pauliAct (rowPauli 4 [0, 0, 0, 0, 1, 1, 1, 1]) (run gs (ket 0)) = -run gs (ket 0) := by
  refine ⟨by decide, by decide, ?_⟩
  obtain ⟨c, h1, h2, h3, h4, h5, h6, h7, h8, h9, h10⟩ := code422
  obtain ⟨hn, hk, hst, hsh, hX0, -, hcom⟩ := accepted_facts h1 h2 h3
  have hbin : IsBinary [1, 0] := by unfold IsBinary; decide
  obtain ⟨gs, g1, g2, g3⟩ := encoding_supplied (c := { c with logicalX := equivX, logicalZ := equivZ }) hn hk hst hsh
    (by simp [equivX, Arr.ofRows]) [1, 0] rfl hbin
  refine ⟨_, gs, by rw [C70_stored _ 4 2 c h1, if_pos ⟨rfl, rfl⟩], g1, run_ket_ne_zero gs g2, ?_⟩
  have hlab : (fun j : Fin 4 => suppliedN 4 2 c.rank equivX (bitFn [1, 0]) j) = ![0, 0, 1, 0] := by
    rw [h4]
    decide
  rw [g3, pauliAct_projected, hlab]
  · have e1 : dotp (rowPauli 4 [0, 0, 0, 0, 1, 1, 1, 1]).z ![0, 0, 1, 0] = 1 := by decide
    have e2 : (rowPauli 4 [0, 0, 0, 0, 1, 1, 1, 1]).x = 0 := by decide
    rw [e1, e2, add_zero, sgn_one, neg_smul, one_smul]
  · intro g hg
    simp only [h4, List.map_cons, List.map_nil, List.range_one, List.mem_singleton] at hg
    rw [hg, h9]
    decide

/-- `logical_circuit('Xi')` and `('Zi')` on a supplied row. -/
theorem supplied_circuit {c : StabCode} {n : ℕ} {p : Char} (hp : p = 'X' ∨ p = 'Z') {i : ℕ} (hi10 : i < 10) (hi : i < c.k)
    {L : Arr ℤ} (hL : L = if p = 'X' then c.logicalX else c.logicalZ) (hc : L.cols = 2 * n) (hr : i < L.rows)
    (hb : IsBinary (L.row i)) :
    ∃ hs, logicalCircuit c n [p, Char.ofNat (48 + i)] = .ok hs ∧ ∀ ψ : Amp n, run hs ψ = pauliAct (rowPauli n (L.row i)) ψ := by
  obtain ⟨gs, g1, -, g3⟩ := row_gates (n := n) (by rw [row_length]; exact hc) hb
  refine ⟨gs, ?_, g3⟩
  have e : logicalRow c p i = .ok (L.row i) := by
    unfold logicalRow
    rcases hp with rfl | rfl
    · rw [if_pos rfl] at hL ⊢
      subst hL
      unfold rowAt; rw [if_pos hr]
    · rw [if_neg (by decide)] at hL
      rw [if_neg (by decide), if_pos rfl]
      subst hL
      unfold rowAt; rw [if_pos hr]
  unfold logicalCircuit
  simp only
  unfold pyAssert
  rw [if_pos (by rcases hp with rfl | rfl <;> simp), intOfChar_digit hi10, ok_bind', ok_bind', if_pos hi, ok_bind', e, ok_bind']
  exact g1

/-- A Pauli operator equal to another modulo the group acts like it on the code up to one sign. -/
theorem equiv_act {n : ℕ} {rows : List (List ℤ)} (p q : Pauli n) (h : p.vec + q.vec ∈ groupOf n rows) :
    ∃ t : ZMod 2, ∀ ψ : Amp n, (∀ g ∈ rows, pauliAct (rowPauli n g) ψ = ψ) →
      pauliAct p ψ = (sgn t : ℂ) • pauliAct q ψ := by
  obtain ⟨t, ht⟩ := group_act _ h
  have e : q.add (ofVec (p.vec + q.vec)) = p := by
    have hx : (ofVec (p.vec + q.vec)).x = p.x + q.x := by
      funext j; simp [ofVec, Pauli.vec]
    have hz : (ofVec (p.vec + q.vec)).z = p.z + q.z := by
      funext j; simp [ofVec, Pauli.vec]
    have k2 : ∀ a b : Fin n → ZMod 2, b + (a + b) = a := by
      intro a b
      rw [add_comm a b, ← add_assoc, add_self_f, zero_add]
    cases p; cases q
    simp only [Pauli.add] at hx hz ⊢
    rw [hx, hz, k2, k2]
  refine ⟨t + dotp q.z (ofVec (p.vec + q.vec)).x, fun ψ hψ => ?_⟩
  have h1 := pauliAct_comp q (ofVec (p.vec + q.vec)) ψ
  rw [ht ψ hψ, pauliAct_smul, e] at h1
  have h2 := congrArg (fun φ => (sgn (dotp q.z (ofVec (p.vec + q.vec)).x) : ℂ) • φ) h1
  simp only [smul_smul] at h2
  rw [sgn_mul_self, one_smul] at h2
  rw [← h2, sgn_add, mul_comm]

/-- **C70 (d)**.  Let the generators have even numbers of Y's and let the supplied 0/1 operators differ from the computed
ones by elements of the group of the normal form.  Then on the states of the default encoder `logical_circuit('Xi')` flips
the bit `i` and `logical_circuit('Zi')` gives the sign of the bit `i`, each up to one sign that does not depend on the
state. -/
theorem C70_logical_equiv (s : StabInput) (n k : ℕ) (c : StabCode) (h : stabInit s n k none = .ok c)
    (hb : BinaryArr c.stab) (hind : Independent n c.stab)
    (hY : ∀ a < c.stab.rows, parityY (rowPauli n (c.stab.row a)) = 0)
    (LX LZ : Arr ℤ) (hX : LX.cols = 2 * n) (hZ : LZ.cols = 2 * n) (i : ℕ) (hi : i < k) (hi10 : i < 10)
    (hrx : i < LX.rows) (hrz : i < LZ.rows) (hbx : IsBinary (LX.row i)) (hbz : IsBinary (LZ.row i))
    (hex : (rowPauli n (LX.row i)).vec + (rowPauli n (c.logicalX.row i)).vec ∈ groupOf n c.iter)
    (hez : (rowPauli n (LZ.row i)).vec + (rowPauli n (c.logicalZ.row i)).vec ∈ groupOf n c.iter) :
    ∃ c' xs zs, stabInit s n k (some (LX, LZ)) = .ok c' ∧
      logicalCircuit c' n ['X', Char.ofNat (48 + i)] = .ok xs ∧ logicalCircuit c' n ['Z', Char.ofNat (48 + i)] = .ok zs ∧
      ∃ t u : ZMod 2, ∀ δ : List ℤ, δ.length = k → IsBinary δ → ∃ gs gs', encodingCircuit c n δ = .ok gs ∧
        encodingCircuit c n (δ.set i (1 - δ.getD i 0)) = .ok gs' ∧
        run xs (run gs (ket 0)) = (sgn t : ℂ) • (run gs' (ket 0) : Amp n) ∧
        run zs (run gs (ket 0)) = ((sgn u : ℂ) * (if δ.getD i 0 = 1 then -1 else 1)) • (run gs (ket 0) : Amp n) := by
  obtain ⟨hn, hk, -, hsh, hX0, hZ0, -⟩ := accepted_facts h hb hind
  obtain ⟨xs, x1, x2⟩ := supplied_circuit (c := { c with logicalX := LX, logicalZ := LZ }) (n := n) (p := 'X') (Or.inl rfl)
    hi10 (by simp only; omega) (L := LX) rfl hX hrx hbx
  obtain ⟨zs, z1, z2⟩ := supplied_circuit (c := { c with logicalX := LX, logicalZ := LZ }) (n := n) (p := 'Z') (Or.inr rfl)
    hi10 (by simp only; omega) (L := LZ) (by rw [if_neg (by decide)]) hZ hrz hbz
  obtain ⟨xs0, a1, -, a3⟩ := logicalCircuit_ok hk hsh hX0 hZ0 (p := 'X') (Or.inl rfl) (intOfChar_digit hi10) hi
  obtain ⟨zs0, b1, -, b3⟩ := logicalCircuit_ok hk hsh hX0 hZ0 (p := 'Z') (Or.inr (Or.inr rfl)) (intOfChar_digit hi10) hi
  obtain ⟨t, ht⟩ := equiv_act _ _ hex
  obtain ⟨u, hu⟩ := equiv_act _ _ hez
  refine ⟨_, xs, zs, by rw [C70_stored s n k c h, if_pos ⟨hX, hZ⟩], x1, z1, t, u, fun δ hl hδ => ?_⟩
  obtain ⟨gs, gs', hs, e1, e2, e3, e4⟩ := C14_logical_X s n k c h hb hind δ hl hδ i hi hi10
  obtain ⟨gz, hz, f1, f2, f3⟩ := C14_logical_Z s n k c h hb hind δ hl hδ i hi hi10
  obtain ⟨gy, y1, y2⟩ := C13_even_generators_rows_fix s n k c h hb hind hY δ hl hδ
  rw [e1] at f1 y1
  cases f1; cases y1
  rw [a1] at e3
  cases e3
  rw [b1] at f2
  cases f2
  refine ⟨gs, gs', e1, e2, ?_, ?_⟩
  · rw [x2, ht _ y2, ← e4, a3, if_pos rfl]
  · rw [z2, hu _ y2, mul_smul, ← f3, b3, if_neg (by decide), if_pos rfl]

/-- Entries of a row. -/
theorem arr_row_getD (A : Arr ℤ) (i j : ℕ) (hj : j < A.cols) : (A.row i).getD j 0 = A.get i j := by
  simp [Arr.row, hj]

/-- The operators of `C70_encoding_refuted` meet the hypotheses of `C70_logical_equiv`. -/
example : ∃ c, stabInit (.rows [[1, 1, 1, 1, 0, 0, 0, 0], [0, 0, 0, 0, 1, 1, 1, 1]]) 4 2 none = .ok c ∧
    BinaryArr c.stab ∧ Independent 4 c.stab ∧ (∀ a < c.stab.rows, parityY (rowPauli 4 (c.stab.row a)) = 0) ∧
    equivX.cols = 2 * 4 ∧ equivZ.cols = 2 * 4 ∧ IsBinary (equivX.row 0) ∧ IsBinary (equivZ.row 0) ∧
    (rowPauli 4 (equivX.row 0)).vec + (rowPauli 4 (c.logicalX.row 0)).vec ∈ groupOf 4 c.iter ∧
    (rowPauli 4 (equivZ.row 0)).vec + (rowPauli 4 (c.logicalZ.row 0)).vec ∈ groupOf 4 c.iter := by
  obtain ⟨c, h1, h2, h3, h4, h5, h6, h7, h8, h9, h10⟩ := code422
  obtain ⟨hn, hk, hst, hsh, hX0, hZ0, hcom⟩ := accepted_facts h1 h2 h3
  have hc : c.normalForm.cols = 8 := hsh.cols
  have nf0 : ∀ j < 8, c.normalForm.get 0 j = [1, 1, 1, 1, 0, 0, 0, 0].getD j 0 := by
    intro j hj; rw [← h9]; simp [Arr.row, hc, hj]
  have nf1 : ∀ j < 8, c.normalForm.get 1 j = [0, 0, 0, 0, 1, 1, 1, 1].getD j 0 := by
    intro j hj; rw [← h10]; simp [Arr.row, hc, hj]
  have ex : rowPauli 4 (c.logicalX.row 0) = rowPauli 4 [0, 1, 1, 0, 0, 0, 0, 0] := by
    rw [hX0]
    unfold rowPauli
    congr 1 <;> funext j
    · rw [arr_row_getD _ _ _ (by rw [(lx_shape hsh).2]; omega), lx_x hsh j.2, h4, h8]
      fin_cases j <;> simp [nf1]
    · rw [arr_row_getD _ _ _ (by rw [(lx_shape hsh).2]; omega)]
      by_cases hj : j.val < c.rank
      · rw [lx_z_low hsh hj]
        have : j = 0 := by ext; simp only [Fin.val_zero]; omega
        subst this
        rw [h4, h8]; simp [nf0, nf1]
      · rw [lx_z_high hsh (by omega)]
        fin_cases j <;> simp
  have ez : rowPauli 4 (c.logicalZ.row 0) = rowPauli 4 [0, 0, 0, 0, 1, 0, 1, 0] := by
    rw [hZ0]
    unfold rowPauli
    congr 1 <;> funext j
    · rw [arr_row_getD _ _ _ (by rw [(lz_shape hsh).2]; omega), lz_x j.2]
      fin_cases j <;> simp
    · rw [arr_row_getD _ _ _ (by rw [(lz_shape hsh).2]; omega), lz_z hsh j.2, h4, h8]
      fin_cases j <;> simp [nf0]
  refine ⟨c, h1, h2, h3, ?_, rfl, rfl, by unfold IsBinary; decide, by unfold IsBinary; decide, ?_, ?_⟩
  · intro a ha
    rw [h5] at ha
    interval_cases a
    · rw [h6]; decide
    · rw [h7]; decide
  · have : (rowPauli 4 (equivX.row 0)).vec + (rowPauli 4 (c.logicalX.row 0)).vec = (rowPauli 4 (c.normalForm.row 0)).vec := by
      rw [ex, h9]; decide
    rw [this]
    exact mem_groupOf (List.mem_map_of_mem (List.mem_range.mpr (by omega)))
  · have : (rowPauli 4 (equivZ.row 0)).vec + (rowPauli 4 (c.logicalZ.row 0)).vec = 0 := by
      rw [ez]; decide
    rw [this]
    exact Submodule.zero_mem _

end PyQ
