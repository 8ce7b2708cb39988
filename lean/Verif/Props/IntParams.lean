import Verif.Model.IntParams
import Verif.Spec.IntParams
import Verif.Props.AcceptExact

/-! C136: a negative number of unencoded qubits. -/

namespace PyQ

open Spec

variable {n : ℕ}

theorem secondBlockStepInt_nat (n k rank t : ℕ) (A : Arr ℤ) :
    secondBlockStepInt n k rank A t = secondBlockStepAny n k rank A t := by
  unfold secondBlockStepInt secondBlockStepAny
  rcases colSwapAny n A t with e | B
  · rfl
  · simp only [ok_bind']
    rw [show ((n : ℤ) - (k : ℤ)).toNat = n - k by omega]
    by_cases h : B.rows + k < n
    · rw [if_pos h, if_pos (by omega)]
    · rw [if_neg h, if_neg (by omega)]

theorem standardNormalFormInt_nat (n k : ℕ) (A : Arr ℤ) : standardNormalFormInt n k A = standardNormalFormAny n k A := by
  unfold standardNormalFormInt standardNormalFormAny secondBlockInt secondBlockAny
  have : ∀ rank, secondBlockStepInt n (k : ℤ) rank = secondBlockStepAny n k rank := fun rank => by
    funext A t
    exact secondBlockStepInt_nat n k rank t A
  simp only [this]

theorem initArrayInt_nat (s : StabInput) (n k : ℕ) : initArrayInt s n k = initArrayAny s n k := by
  rcases s with l | (_ | ⟨r0, rest⟩)
  · rfl
  · rfl
  · unfold initArrayInt initArrayAny initArray
    have : ((Arr.ofRows r0.length (r0 :: rest)).rows : ℤ) = (n : ℤ) - k ↔ (Arr.ofRows r0.length (r0 :: rest)).rows + k = n := by
      omega
    simp only [this]

theorem logicalOperatorsInt_nat (n k rank : ℕ) (nf : Arr ℤ) : logicalOperatorsInt n k rank nf = logicalOperatorsAny n k rank nf := by
  unfold logicalOperatorsInt
  rw [if_neg (by omega), Int.toNat_natCast]
  by_cases h : topLeftIdentity nf rank
  · rw [pyAssert, if_pos h]; rfl
  · unfold logicalOperatorsAny
    rw [pyAssert, if_neg h]; rfl

/-- **C136**, agreement.  For a natural number `k` the constructor is the one of the other properties. -/
theorem C136_agrees (s : StabInput) (n k : ℕ) (lo : Option (Arr ℤ × Arr ℤ)) :
    stabInitInt s n k lo = (stabInitAny s n k lo).map StabCode.toInt := by
  unfold stabInitInt stabInitAny
  rw [initArrayInt_nat]
  rcases initArrayAny s n k with e | A
  · rfl
  simp only [ok_bind']
  rcases isStabilizerCode A with e | b
  · rfl
  simp only [ok_bind']
  rcases pyAssert (b = true) with e | u
  · rfl
  simp only [ok_bind']
  rcases (List.range A.rows).mapM fun i => binaryRepToPauliStr (A.row i) with e | strs
  · rfl
  simp only [ok_bind', standardNormalFormInt_nat]
  rcases standardNormalFormAny n k A with e | ⟨nf, rank⟩
  · rfl
  simp only [ok_bind']
  rcases lo with _ | ⟨lx, lz⟩
  · simp only [logicalOperatorsInt_nat]
    rcases logicalOperatorsAny n k rank nf with e | ⟨lx, lz⟩ <;> rfl
  · by_cases hx : lx.cols = 2 * n
    · by_cases hz : lz.cols = 2 * n
      · simp only [pyAssert, if_pos hx, if_pos hz]; rfl
      · simp only [pyAssert, if_pos hx, if_neg hz]; rfl
    · simp only [pyAssert, if_neg hx]; rfl

/-- **C136**, the part that holds: without `logical_ops` the constructor raises for every negative `k`, whatever the generators and
`n`.  Missing: supplied operators, for which the claim is false (`C136_supplied_refuted`). -/
theorem C136_negative_partial (s : StabInput) (n : ℕ) (k : ℤ) (hk : k < 0) (c : StabCodeInt) : stabInitInt s n k none ≠ .ok c := by
  unfold stabInitInt
  rcases initArrayInt s n k with e | A
  · intro h; cases h
  simp only [ok_bind']
  rcases isStabilizerCode A with e | b
  · intro h; cases h
  simp only [ok_bind']
  rcases pyAssert (b = true) with e | u
  · intro h; cases h
  simp only [ok_bind']
  rcases (List.range A.rows).mapM fun i => binaryRepToPauliStr (A.row i) with e | strs
  · intro h; cases h
  simp only [ok_bind']
  rcases standardNormalFormInt n k A with e | ⟨nf, rank⟩
  · intro h; cases h
  simp only [ok_bind', logicalOperatorsInt, if_pos hk]
  rcases pyAssert (topLeftIdentity nf rank) with e | u
  · intro h; cases h
  · intro h; cases h

theorem secondLoopInt_ok {A : Arr ℤ} {k : ℤ} (hc : A.cols = 2 * n) (hk : (A.rows : ℤ) = n - k) (rank : ℕ) (l : List ℕ) :
    ∃ B, l.foldlM (secondBlockStepInt n k rank) A = .ok B := by
  induction l generalizing A with
  | nil => exact ⟨A, rfl⟩
  | cons t l ih =>
    rw [List.foldlM_cons]
    unfold secondBlockStepInt
    rw [colSwapAny_eq hc]
    obtain ⟨h1, h2⟩ := colSwap2_cols (n := n) A t
    simp only [ok_bind', h2, if_neg (show ¬ (A.rows : ℤ) < n - k by omega), pure_ok']
    exact ih (by rw [elimColumn_cols, h1, hc]) (by rw [elimColumn_rows, h2, hk])

theorem standardNormalFormInt_neg {A : Arr ℤ} {k : ℤ} (hc : A.cols = 2 * n) (hp : 0 < A.rows) (hk : (A.rows : ℤ) = n - k) (hneg : k < 0) :
    (xRankQ n A < n → ∃ nf, standardNormalFormInt n k A = .ok (nf, xRankQ n A)) ∧
    (xRankQ n A = n → standardNormalFormInt n k A = .error .value) := by
  have hs : A.pySlice 0 A.rows 0 (n : ℕ) = A.slice 0 A.rows 0 n := by
    unfold Arr.pySlice
    rw [sliceBound_nat, show (0 : ℤ) = ((0 : ℕ) : ℤ) from rfl, sliceBound_nat, min_eq_left (by omega), min_eq_left (by omega)]
  have e1 := equi_firstBlock (n := n) A (xRankQ_le_n (n := n) A) (xRankQ_le_rows (n := n) A)
  have hbc : (firstBlock n (xRankQ n A) A).cols = 2 * n := by rw [e1.cols]; exact hc
  have hbr : (firstBlock n (xRankQ n A) A).rows = A.rows := e1.rows
  unfold standardNormalFormInt
  rw [hs]
  by_cases hn : n = 0
  · have h0 : (A.slice 0 A.rows 0 n).rows = 0 ∨ (A.slice 0 A.rows 0 n).cols = 0 := Or.inr (by show n - 0 = 0; omega)
    rw [matrixRank_error h0]
    exact ⟨fun h => absurd h (by omega), fun _ => rfl⟩
  · rw [matrixRank_ok (A := A.slice 0 A.rows 0 n) (show 0 < A.rows - 0 by omega) (show 0 < n - 0 by omega)]
    simp only [ok_bind', npRank_x, firstBlockAny_eq hc]
    generalize hr : xRankQ n A = r at *
    generalize hB : firstBlock n r A = B at *
    have hrn : r ≤ n := by rw [← hr]; exact xRankQ_le_n (n := n) A
    unfold secondBlockInt
    rw [if_neg (by omega)]
    have hs2 : B.pySlice r B.rows (n + r : ℕ) B.cols = B.slice r B.rows (n + r) B.cols := by
      unfold Arr.pySlice
      rw [sliceBound_nat, sliceBound_nat, min_eq_left (by omega), min_self]
    rw [hs2]
    constructor
    · intro hlt
      rw [matrixRank_ok (A := B.slice r B.rows (n + r) B.cols) (show 0 < B.rows - r by omega) (show 0 < B.cols - (n + r) by omega)]
      simp only [ok_bind']
      generalize npRank (B.slice r B.rows (n + r) B.cols) = e
      obtain ⟨h1, h2⟩ := rowSwaps_shape (n := n) (List.range' r e) B
      obtain ⟨C, hC⟩ := secondLoopInt_ok (A := (List.range' r e).foldl (rowSwap2 n) B) (k := k) (by rw [h1, hbc])
        (by rw [h2, hbr, hk]) r (List.range' r e)
      rw [hC]
      exact ⟨C, rfl⟩
    · intro he
      rw [matrixRank_error (Or.inr (show B.cols - (n + r) = 0 by omega))]
      rfl

theorem initArrayInt_rows {l : List (List ℤ)} {k : ℤ} (hne : l ≠ []) (hw : ∀ r ∈ l, r.length = 2 * n) (hcount : (l.length : ℤ) = n - k) :
    initArrayInt (.rows l) n k = .ok (Arr.ofRows (2 * n) l) := by
  obtain ⟨r0, rest, rfl⟩ := List.exists_cons_of_ne_nil hne
  have h0 := hw r0 List.mem_cons_self
  simp only [initArrayInt]
  rw [if_neg (by
    rintro ⟨r, hr, hh⟩
    exact hh ((hw r (List.mem_cons_of_mem _ hr)).trans h0.symm))]
  simp only [h0]
  rw [pyAssert, if_pos (show (Arr.ofRows (2 * n) (r0 :: rest)).cols = 2 * n from rfl), pyAssert, if_pos (show ((Arr.ofRows (2 * n) (r0 :: rest)).rows : ℤ) = n - k from hcount)]
  rfl

theorem initArrayInt_ragged {l : List (List ℤ)} {k : ℤ} (h : Ragged l) : initArrayInt (.rows l) n k = .error .index := by
  rcases l with _ | ⟨r0, rest⟩
  · rfl
  · simp only [initArrayInt]
    rw [if_pos]
    rcases h with h | ⟨p, hp, q, hq, hne⟩
    · cases h
    · by_contra hno
      push Not at hno
      have : ∀ r ∈ r0 :: rest, r.length = r0.length := by
        intro r hr
        rcases List.mem_cons.mp hr with rfl | hr
        · rfl
        · exact hno r hr
      exact hne ((this p hp).trans (this q hq).symm)

theorem initArrayInt_shape {l : List (List ℤ)} {k : ℤ} (h : ¬ Ragged l)
    (hsh : ¬ ((∀ r ∈ l, r.length = 2 * n) ∧ (l.length : ℤ) = n - k)) : initArrayInt (.rows l) n k = .error .assertion := by
  rcases l with _ | ⟨r0, rest⟩
  · exact absurd (Or.inl rfl) h
  · have hlen : ∀ r ∈ r0 :: rest, r.length = r0.length := by
      intro r hrm
      by_contra hne
      exact h (Or.inr ⟨r, hrm, r0, List.mem_cons_self, hne⟩)
    simp only [initArrayInt]
    rw [if_neg (by
      rintro ⟨r, hr, hh⟩
      exact hh (hlen r (List.mem_cons_of_mem _ hr)))]
    by_cases h0 : r0.length = 2 * n
    · rw [pyAssert, if_pos (show (Arr.ofRows r0.length (r0 :: rest)).cols = 2 * n from h0), pyAssert, if_neg]
      · rfl
      · intro hc
        exact hsh ⟨fun r hr => (hlen r hr).trans h0, hc⟩
    · rw [pyAssert, if_neg (show ¬ (Arr.ofRows r0.length (r0 :: rest)).cols = 2 * n from h0)]
      rfl

/-- **C136**, with `logical_ops`.  Exactly which generators are accepted with a negative `k`: `n - k` commuting ones, more than
`n`, whose X half has rank below `n`. -/
theorem C136_supplied (l : List (List ℤ)) (n : ℕ) (k : ℤ) (hk : k < 0) (LX LZ : Arr ℤ) (hb : ∀ r ∈ l, IsBinary r) :
    (CommutativeInt l n k → (xHalf ℚ l n).rank < n → LX.cols = 2 * n → LZ.cols = 2 * n →
      ∃ c, stabInitInt (.rows l) n k (some (LX, LZ)) = .ok c ∧ c.n = n ∧ c.k = k) ∧
    (CommutativeInt l n k → (xHalf ℚ l n).rank = n → stabInitInt (.rows l) n k (some (LX, LZ)) = .error .value) ∧
    (CommutativeInt l n k → (xHalf ℚ l n).rank < n → ¬ (LX.cols = 2 * n ∧ LZ.cols = 2 * n) →
      stabInitInt (.rows l) n k (some (LX, LZ)) = .error .assertion) ∧
    (Ragged l → stabInitInt (.rows l) n k (some (LX, LZ)) = .error .index) ∧
    (¬ Ragged l → ¬ CommutativeInt l n k → stabInitInt (.rows l) n k (some (LX, LZ)) = .error .assertion) := by
  have run : CommutativeInt l n k → ∃ strs, stabInitInt (.rows l) n k (some (LX, LZ)) =
      (standardNormalFormInt n k (Arr.ofRows (2 * n) l)).bind fun q => (do
        pyAssert (LX.cols = 2 * n)
        pyAssert (LZ.cols = 2 * n)
        return ⟨n, k, Arr.ofRows (2 * n) l, strs, q.1, q.2, LX, LZ⟩) := by
    rintro ⟨h1, h2, h3, h4⟩
    have hc : (Arr.ofRows (2 * n) l).cols = 2 * n := rfl
    obtain ⟨strs, hS⟩ := pauliStab_ok hc (ofRows_binary hb)
    refine ⟨strs, ?_⟩
    unfold stabInitInt
    simp only [initArrayInt_rows h1 h2 h3, ok_bind', isStabilizerCode_eq hc, commuting_ofRows.mpr h4, decide_true, hS]
    rw [pyAssert, if_pos trivial]
    rcases standardNormalFormInt n k (Arr.ofRows (2 * n) l) with e | ⟨nf, r⟩
    · rfl
    · show _ = (do
        pyAssert (LX.cols = 2 * n)
        pyAssert (LZ.cols = 2 * n)
        return _ : Except PyErr StabCodeInt)
      by_cases hx : LX.cols = 2 * n
      · by_cases hz : LZ.cols = 2 * n
        · simp only [pyAssert, if_pos hx, if_pos hz]; rfl
        · simp only [pyAssert, if_pos hx, if_neg hz]; rfl
      · simp only [pyAssert, if_neg hx]; rfl
  have nf : CommutativeInt l n k → _ := fun h => standardNormalFormInt_neg (n := n) (A := Arr.ofRows (2 * n) l) (k := k) rfl
    (show 0 < l.length from List.length_pos_iff.mpr h.nonempty) h.count hk
  have hq : xRankQ n (Arr.ofRows (2 * n) l) = (xHalf ℚ l n).rank := (ranks_ofRows l).1
  rw [← hq]
  refine ⟨fun h hr hx hz => ?_, fun h hr => ?_, fun h hr hno => ?_, fun h => ?_, fun hrag h => ?_⟩
  · obtain ⟨strs, hrun⟩ := run h
    obtain ⟨B, hB⟩ := (nf h).1 hr
    rw [hrun, hB]
    simp only [Except.bind, pyAssert, if_pos hx, if_pos hz]
    exact ⟨_, rfl, rfl, rfl⟩
  · obtain ⟨strs, hrun⟩ := run h
    rw [hrun, (nf h).2 hr]
    rfl
  · obtain ⟨strs, hrun⟩ := run h
    obtain ⟨B, hB⟩ := (nf h).1 hr
    rw [hrun, hB]
    by_cases hx : LX.cols = 2 * n
    · have hz : ¬ LZ.cols = 2 * n := fun hz => hno ⟨hx, hz⟩
      simp only [Except.bind, pyAssert, if_pos hx, if_neg hz]; rfl
    · simp only [Except.bind, pyAssert, if_neg hx]; rfl
  · unfold stabInitInt
    rw [initArrayInt_ragged h]
    rfl
  · by_cases hsh : (∀ r ∈ l, r.length = 2 * n) ∧ (l.length : ℤ) = n - k
    · have hne : l ≠ [] := fun h => hrag (Or.inl h)
      have hcom : ¬ Commuting n (Arr.ofRows (2 * n) l) := fun hc => h ⟨hne, hsh.1, hsh.2, commuting_ofRows.mp hc⟩
      unfold stabInitInt
      simp only [initArrayInt_rows hne hsh.1 hsh.2, ok_bind', isStabilizerCode_eq (A := Arr.ofRows (2 * n) l) (n := n) rfl, hcom,
        decide_false]
      rfl
    · unfold stabInitInt
      rw [initArrayInt_shape hrag hsh]
      rfl

/-- **C136** fails with `logical_ops`: a code on one qubit with `k = -1`, from the generator Z given twice. -/
theorem C136_supplied_refuted : ∃ c, stabInitInt (.rows [[0, 1], [0, 1]]) 1 (-1) (some (Arr.zeros 0 2, Arr.zeros 0 2)) = .ok c ∧
    c.k = -1 := by
  obtain ⟨c, h, -, hk⟩ := (C136_supplied [[0, 1], [0, 1]] 1 (-1) (by decide) (Arr.zeros 0 2) (Arr.zeros 0 2) (by simp [IsBinary])).1
    ⟨by decide, by decide, by decide, by decide⟩ (by
      have : xHalf ℚ [[0, 1], [0, 1]] 1 = 0 := by
        ext i j
        fin_cases i <;> fin_cases j <;> simp [xHalf]
      rw [this, Matrix.rank_zero]
      exact Nat.one_pos) rfl rfl
  exact ⟨c, h, hk⟩

/-- The other branches are met as well: with X given twice the X half has full rank. -/
example : stabInitInt (.rows [[1, 0], [1, 0]]) 1 (-1) (some (Arr.zeros 0 2, Arr.zeros 0 2)) = .error .value :=
  (C136_supplied [[1, 0], [1, 0]] 1 (-1) (by decide) (Arr.zeros 0 2) (Arr.zeros 0 2) (by simp [IsBinary])).2.1
    ⟨by decide, by decide, by decide, by decide⟩ (by
      refine le_antisymm (Matrix.rank_le_width _) ?_
      rw [Nat.one_le_iff_ne_zero, Matrix.rank_eq_finrank_span_row, Ne, Submodule.finrank_eq_zero, Submodule.span_eq_bot]
      intro h
      have := congrFun (h _ ⟨0, rfl⟩) 0
      simp [xHalf] at this)

end PyQ
