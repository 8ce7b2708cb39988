import Verif.Lemmas.ConcatMany
import Verif.Props.CodeKraus

/-!
# C21, C22: concatenation
-/

namespace PyQ

open Spec

theorem rowList_length (A : Arr ℤ) : A.rowList.length = A.rows := by simp [Arr.rowList]

theorem rowList_getElem (A : Arr ℤ) (i : ℕ) (h : i < A.rowList.length) : A.rowList[i] = A.row i := by
  simp [Arr.rowList]

theorem mem_rowList {A : Arr ℤ} {r : List ℤ} (h : r ∈ A.rowList) : ∃ i < A.rows, r = A.row i := by
  obtain ⟨i, hi, rfl⟩ := List.mem_map.mp h
  exact ⟨i, List.mem_range.mp hi, rfl⟩

theorem row_length (A : Arr ℤ) (i : ℕ) : (A.row i).length = A.cols := by simp [Arr.row]

theorem row_isBinary {A : Arr ℤ} (h : BinaryArr A) {i : ℕ} (hi : i < A.rows) : IsBinary (A.row i) := by
  intro v hv
  obtain ⟨j, hj, rfl⟩ := List.mem_map.mp hv
  exact h i hi j (List.mem_range.mp hj)

theorem rowList_independent {n : ℕ} {A : Arr ℤ} (hc : A.cols = 2 * n) (h : Independent n A) :
    LinearIndependent (ZMod 2) fun i : Fin A.rowList.length => (rowPauli n A.rowList[i]).vec := by
  have e := h.comp (finCongr (rowList_length A)) (finCongr (rowList_length A)).injective
  have h1 : (fun i : Fin A.rowList.length => (rowPauli n A.rowList[i]).vec) =
      (fun i : Fin A.rows => rowVec n A i) ∘ finCongr (rowList_length A) := by
    funext i
    simp only [Function.comp, Fin.getElem_fin, rowList_getElem, rowPauli_row hc]
    rfl
  rw [h1]
  exact e

theorem rowList_commuting {n : ℕ} {A : Arr ℤ} (hc : A.cols = 2 * n) (h : Commuting n A) :
    ∀ p ∈ A.rowList, ∀ q ∈ A.rowList, symp (rowPauli n p) (rowPauli n q) = 0 := by
  intro p hp q hq
  obtain ⟨i, hi, rfl⟩ := mem_rowList hp
  obtain ⟨j, hj, rfl⟩ := mem_rowList hq
  rw [← sympV_vec, rowPauli_row hc, rowPauli_row hc]
  exact h i hi j hj

theorem sum_fin_one {M : Type} [AddCommMonoid M] (f : Fin 1 → M) : ∑ a, f a = f 0 := by simp

/-- **C21**.  Concatenation of an `[n, k]` code with an `[m, 1]` code whose first logical X has no Z part and whose first
logical Z has no X part: the constructor is called with `nm - k` generators on `nm` qubits that commute pairwise; they are the
inner generators on each block, then the outer generators with their letters replaced by the logical operators.  They are
independent if the generators of both codes are. -/
theorem C21_generators (s1 s2 : StabInput) (n k m : ℕ) (lo1 lo2 : Option (Arr ℤ × Arr ℤ)) (c1 c2 : StabCode)
    (h1 : stabInit s1 n k lo1 = .ok c1) (h2 : stabInit s2 m 1 lo2 = .ok c2)
    (hr1 : c1.stab.rows + k = n) (hr2 : c2.stab.rows + 1 = m) (hb1 : BinaryArr c1.stab) (hb2 : BinaryArr c2.stab)
    (hlx : 0 < c2.logicalX.rows) (hlz : 0 < c2.logicalZ.rows) (hbx : BinaryArr c2.logicalX) (hbz : BinaryArr c2.logicalZ)
    (hcx : c2.logicalX.cols = 2 * m) (hcz : c2.logicalZ.cols = 2 * m)
    (hx : ∀ q < m, c2.logicalX.get 0 (m + q) = 0) (hz : ∀ q < m, c2.logicalZ.get 0 q = 0)
    (hlog : LogicalOf (l := 1) c2.stab.rowList (fun _ => rowVec m c2.logicalX 0) (fun _ => rowVec m c2.logicalZ 0)) :
    ∃ gens : List (List ℤ),
      concatenateCodes c1 c2 = (stabInit (.rows gens) (n * m) k none).map some ∧
      gens.length + k = n * m ∧ (∀ r ∈ gens, r.length = 2 * (n * m) ∧ IsBinary r) ∧
      gens.map (fun r => (rowPauli (n * m) r).vec) =
        ((List.finRange n).flatMap fun b => (List.range c2.stab.rows).map fun j => inBlock b (rowVec m c2.stab j)) ++
        (List.range c1.stab.rows).map (fun i =>
          substituted (l := 1) (fun b _ => (rowVec n c1.stab i).1 b) (fun b _ => (rowVec n c1.stab i).2 b)
            (fun _ => rowVec m c2.logicalX 0) (fun _ => rowVec m c2.logicalZ 0)) ∧
      (∀ p ∈ gens, ∀ q ∈ gens, symp (rowPauli (n * m) p) (rowPauli (n * m) q) = 0) ∧
      (Independent n c1.stab → Independent m c2.stab →
        LinearIndependent (ZMod 2) fun i : Fin gens.length => (rowPauli (n * m) gens[i]).vec) := by
  obtain ⟨hA1, hcom1, -, -, hn1, hk1, -⟩ := stabInit_ok h1
  obtain ⟨hA2, hcom2, -, -, hn2, hk2, -⟩ := stabInit_ok h2
  have hc1 := initArray_cols hA1
  have hc2 := initArray_cols hA2
  set X : Fin 1 → BVec m := fun _ => rowVec m c2.logicalX 0 with hX
  set Z : Fin 1 → BVec m := fun _ => rowVec m c2.logicalZ 0 with hZ
  set lx := c2.logicalX.row 0 with hlx'
  set lz := c2.logicalZ.row 0 with hlz'
  set subs := c1.stab.rowList.map (substRow n m lx lz) with hsubs
  have hlxl : lx.length = 2 * m := by rw [hlx', row_length, hcx]
  have hlzl : lz.length = 2 * m := by rw [hlz', row_length, hcz]
  have hXe : (fun _ : Fin 1 => ((rowPauli m lx).x, (0 : Fin m → ZMod 2))) = X := by
    funext a
    rw [hX]
    have h3 := rowPauli_row hcx 0
    apply Prod.ext
    · have h4 := congrArg Prod.fst h3
      exact h4
    · funext q
      show (0 : ZMod 2) = ((c2.logicalX.get 0 (m + q) : ℤ) : ZMod 2)
      rw [hx q q.2, Int.cast_zero]
  have hZe : (fun _ : Fin 1 => ((0 : Fin m → ZMod 2), (rowPauli m lz).z)) = Z := by
    funext a
    rw [hZ]
    have h3 := rowPauli_row hcz 0
    apply Prod.ext
    · funext q
      show (0 : ZMod 2) = ((c2.logicalZ.get 0 q : ℤ) : ZMod 2)
      rw [hz q q.2, Int.cast_zero]
    · have h4 := congrArg Prod.snd h3
      exact h4
  have hvec : ∀ i < c1.stab.rows, (rowPauli (n * m) (substRow n m lx lz (c1.stab.row i))).vec =
      substituted (l := 1) (fun b _ => (rowVec n c1.stab i).1 b) (fun b _ => (rowVec n c1.stab i).2 b) X Z := by
    intro i hi
    rw [substRow_vec n m lx lz _ hlxl hlzl (row_isBinary hb1 hi), hXe, hZe, ← rowPauli_row hc1 i]
    rfl
  have hsymp : ∀ i < c1.stab.rows, ∀ w : BVec n,
      sympV (substituted (l := 1) (fun b _ => w.1 b) (fun b _ => w.2 b) X Z)
        (rowPauli (n * m) (substRow n m lx lz (c1.stab.row i))).vec = sympV w (rowVec n c1.stab i) := by
    intro i hi w
    rw [hvec i hi, sympV_subst _ _ _ _ X Z hlog.XZ hlog.XX hlog.ZZ]
    unfold sympV dotp
    rw [← Finset.sum_add_distrib]
    exact Finset.sum_congr rfl fun b _ => sum_fin_one _
  have hs : ∀ r ∈ subs, ∃ ux uz, (rowPauli (n * m) r).vec = substituted (l := 1) ux uz X Z := by
    intro r hr
    obtain ⟨r', hr', rfl⟩ := List.mem_map.mp hr
    obtain ⟨i, hi, rfl⟩ := mem_rowList hr'
    exact ⟨_, _, hvec i hi⟩
  have hin : ∀ g ∈ c2.stab.rowList, g.length = 2 * m := by
    intro g hg
    obtain ⟨i, hi, rfl⟩ := mem_rowList hg
    rw [row_length, hc2]
  refine ⟨blockRows m n c2.stab.rowList ++ subs, ?_, ?_, ?_, ?_, ?_, ?_⟩
  · unfold concatenateCodes concatRowsOne
    rw [if_neg (by rw [hk2]; decide), if_pos hk2, if_neg (by omega), hn1, hn2, hk1]
    simp only [ok_bind']
    rcases stabInit (.rows (blockRows m n c2.stab.rowList ++ subs)) (n * m) k none with e | c <;> rfl
  · rw [List.length_append, blockRows_length, rowList_length, hsubs, List.length_map, rowList_length]
    have : n * m = n * c2.stab.rows + n := by rw [← hr2]; ring
    omega
  · intro r hr
    rcases List.mem_append.mp hr with hr | hr
    · obtain ⟨b, g, hg, rfl⟩ := mem_blockRows hr
      refine ⟨blockRow_length m n b g (hin g hg) b.2, blockRow_binary m n b g ?_⟩
      obtain ⟨i, hi, rfl⟩ := mem_rowList hg
      exact row_isBinary hb2 hi
    · obtain ⟨r', hr', rfl⟩ := List.mem_map.mp hr
      exact ⟨substRow_length n m lx lz r' hlxl hlzl,
        substRow_binary n m lx lz r' (row_isBinary hbx hlx) (row_isBinary hbz hlz)⟩
  · rw [List.map_append]
    congr 1
    · unfold blockRows
      rw [List.map_flatMap, ← List.map_coe_finRange_eq_range, List.flatMap_map]
      refine List.flatMap_congr fun b _ => ?_
      unfold Arr.rowList
      rw [List.map_map, List.map_map]
      refine List.map_congr_left fun j hj => ?_
      simp only [Function.comp]
      rw [blockRow_vec m n b _ (by rw [row_length, hc2]), rowPauli_row hc2]
    · rw [hsubs]
      unfold Arr.rowList
      rw [List.map_map, List.map_map]
      exact List.map_congr_left fun i hi => hvec i (List.mem_range.mp hi)
  · refine concat_commuting hin hlog (rowList_commuting hc2 hcom2) hs ?_
    intro p hp q hq
    obtain ⟨p', hp', rfl⟩ := List.mem_map.mp hp
    obtain ⟨i, hi, rfl⟩ := mem_rowList hp'
    obtain ⟨q', hq', rfl⟩ := List.mem_map.mp hq
    obtain ⟨j, hj, rfl⟩ := mem_rowList hq'
    rw [hvec i hi, hsymp j hj (rowVec n c1.stab i)]
    exact hcom1 i hi j hj
  · intro hi1 hi2
    refine concat_independent hin hlog (rowList_independent hc2 hi2) hs fun i => ?_
    have hlen : subs.length = c1.stab.rows := by rw [hsubs, List.length_map, rowList_length]
    obtain ⟨w, hw⟩ := exists_partner _ hi1 (finCongr hlen i)
    refine ⟨fun b _ => w.1 b, fun b _ => w.2 b, fun j => ?_⟩
    have hj : (j : ℕ) < c1.stab.rows := by rw [← hlen]; exact j.2
    have he : subs[j] = substRow n m lx lz (c1.stab.row j) := by
      simp only [hsubs, Fin.getElem_fin, List.getElem_map, rowList_getElem]
    rw [he, hsymp j hj w]
    have := hw (finCongr hlen j)
    rw [show ((finCongr hlen j : Fin _) : ℕ) = j from rfl] at this
    rw [this]
    by_cases h : j = i
    · rw [if_pos h, if_pos (by rw [h])]
    · rw [if_neg h, if_neg (by intro h'; exact h ((finCongr hlen).injective h'))]

/-- **C21**, the resulting code: for independent generators, `concatenate_codes` returns an `[nm, k]` code with exactly those
generators when the constructor accepts them, that is when the X half has the same rank over the rationals and modulo two (see
C10); otherwise the constructor raises `AssertionError`. -/
theorem C21_code (s1 s2 : StabInput) (n k m : ℕ) (lo1 lo2 : Option (Arr ℤ × Arr ℤ)) (c1 c2 : StabCode)
    (h1 : stabInit s1 n k lo1 = .ok c1) (h2 : stabInit s2 m 1 lo2 = .ok c2)
    (hr1 : c1.stab.rows + k = n) (hr2 : c2.stab.rows + 1 = m) (hb1 : BinaryArr c1.stab) (hb2 : BinaryArr c2.stab)
    (hi1 : Independent n c1.stab) (hi2 : Independent m c2.stab)
    (hlx : 0 < c2.logicalX.rows) (hlz : 0 < c2.logicalZ.rows) (hbx : BinaryArr c2.logicalX) (hbz : BinaryArr c2.logicalZ)
    (hcx : c2.logicalX.cols = 2 * m) (hcz : c2.logicalZ.cols = 2 * m)
    (hx : ∀ q < m, c2.logicalX.get 0 (m + q) = 0) (hz : ∀ q < m, c2.logicalZ.get 0 q = 0)
    (hlog : LogicalOf (l := 1) c2.stab.rowList (fun _ => rowVec m c2.logicalX 0) (fun _ => rowVec m c2.logicalZ 0)) :
    ∃ A : Arr ℤ, A.rows + k = n * m ∧
      (List.range A.rows).map (rowVec (n * m) A) =
        ((List.finRange n).flatMap fun b => (List.range c2.stab.rows).map fun j => inBlock b (rowVec m c2.stab j)) ++
        (List.range c1.stab.rows).map (fun i =>
          substituted (l := 1) (fun b _ => (rowVec n c1.stab i).1 b) (fun b _ => (rowVec n c1.stab i).2 b)
            (fun _ => rowVec m c2.logicalX 0) (fun _ => rowVec m c2.logicalZ 0)) ∧
      (xRankQ (n * m) A = xRank2 (n * m) A → ∃ c, concatenateCodes c1 c2 = .ok (some c) ∧ c.n = n * m ∧ c.k = k ∧
        c.stab = A ∧ BinaryArr c.stab ∧ Independent (n * m) c.stab) ∧
      (xRankQ (n * m) A ≠ xRank2 (n * m) A → concatenateCodes c1 c2 = .error .assertion) := by
  obtain ⟨gens, g1, g2, g3, g4, g5, g6⟩ := C21_generators s1 s2 n k m lo1 lo2 c1 c2 h1 h2 hr1 hr2 hb1 hb2 hlx hlz hbx hbz
    hcx hcz hx hz hlog
  have hne : gens ≠ [] := by
    rintro rfl
    have hp := initArray_rows_pos (stabInit_ok h1).1
    have h3 := congrArg List.length g4
    simp at h3
    omega
  have hl : ∀ r ∈ gens, r.length = 2 * (n * m) := fun r hr => (g3 r hr).1
  have hbin : ∀ r ∈ gens, IsBinary r := fun r hr => (g3 r hr).2
  have hA := initArray_rows_ok hne hl g2
  obtain ⟨a1, a2⟩ := C10_array_accepted_iff_partial gens (n * m) k hne hl g2 hbin g5 (g6 hi1 hi2)
  refine ⟨Arr.ofRows (2 * (n * m)) gens, g2, ?_, ?_, ?_⟩
  · rw [← g4]
    apply List.ext_getElem
    · simp [Arr.ofRows]
    · intro i hi hi'
      have hi'' : i < gens.length := by simpa using hi'
      rw [List.getElem_map, List.getElem_map, List.getElem_range, rowVec_ofRows, List.getD_eq_getElem _ _ hi'']
  · intro hr
    obtain ⟨c, hc⟩ := a1 hr
    obtain ⟨b1, b2, -, -, b3, b4, -⟩ := stabInit_ok hc
    rw [hA, Except.ok.injEq] at b1
    refine ⟨c, ?_, b3, b4, b1.symm, ?_, ?_⟩
    · rw [g1, hc]; rfl
    · rw [← b1]; exact ofRows_binary hbin
    · rw [← b1]
      unfold Independent
      have h4 : (fun i : Fin (Arr.ofRows (2 * (n * m)) gens).rows => rowVec (n * m) (Arr.ofRows (2 * (n * m)) gens) i) =
          fun i : Fin gens.length => (rowPauli (n * m) gens[i]).vec := by
        funext i
        rw [rowVec_ofRows, List.getD_eq_getElem _ _ (show i.val < gens.length from i.2)]
        rfl
      rw [h4]
      exact g6 hi1 hi2
  · intro hr
    rw [g1, a2 hr]
    rfl

/-! ### A code that meets the hypotheses -/

/-- The `[2, 1]` code with generator XX. -/
theorem codeXX : ∃ c, stabInit (.rows [[1, 1, 0, 0]]) 2 1 none = .ok c ∧
    BinaryArr c.stab ∧ Independent 2 c.stab ∧ c.stab = Arr.ofRows 4 [[1, 1, 0, 0]] ∧
    c.logicalX.row 0 = [0, 1, 0, 0] ∧ c.logicalZ.row 0 = [0, 0, 1, 1] := by
  obtain ⟨c, h1, h2, h3, h4, h5, h6⟩ := concrete_code (l := [[1, 1, 0, 0]]) (n := 2) (k := 1)
    (r := 1) (e := 0) (by decide) (by decide) (by decide) (by unfold IsBinary; decide) (by decide)
    (independent_cert _ (fun j a => if j = 0 ∧ a = 0 then 1 else 0) (by decide))
    (fun F _ => rank_cert (M := Matrix.of fun (i : Fin 1) (j : Fin 2) => (Arr.ofRows (2 * 2) [[1, 1, 0, 0]]).get i j)
      !![1] !![1, 1] !![1] !![1; 0] (by decide) (by decide) F)
    (Or.inl rfl)
  rw [if_pos (by decide)] at h6
  obtain ⟨-, hX, hZ⟩ := accepted_logical h1 h2 h3
  refine ⟨c, h1, h2, h3, h4, ?_⟩
  rw [hX, hZ, h5, h6]
  decide

/-- The `[2, 1]` code with generator YY. -/
theorem codeYY : ∃ c, stabInit (.rows [[1, 1, 1, 1]]) 2 1 none = .ok c ∧
    BinaryArr c.stab ∧ Independent 2 c.stab ∧ c.stab = Arr.ofRows 4 [[1, 1, 1, 1]] := by
  obtain ⟨c, h1, h2, h3, h4, h5, h6⟩ := concrete_code (l := [[1, 1, 1, 1]]) (n := 2) (k := 1)
    (r := 1) (e := 0) (by decide) (by decide) (by decide) (by unfold IsBinary; decide) (by decide)
    (independent_cert _ (fun j a => if j = 0 ∧ a = 0 then 1 else 0) (by decide))
    (fun F _ => rank_cert (M := Matrix.of fun (i : Fin 1) (j : Fin 2) => (Arr.ofRows (2 * 2) [[1, 1, 1, 1]]).get i j)
      !![1] !![1, 1] !![1] !![1; 0] (by decide) (by decide) F)
    (Or.inl rfl)
  exact ⟨c, h1, h2, h3, h4⟩

/-- Its logical operators meet the hypotheses of C21. -/
theorem codeXX_logical {c : StabCode} (hs : c.stab = Arr.ofRows 4 [[1, 1, 0, 0]]) (hcx : c.logicalX.cols = 2 * 2)
    (hcz : c.logicalZ.cols = 2 * 2) (hX : c.logicalX.row 0 = [0, 1, 0, 0]) (hZ : c.logicalZ.row 0 = [0, 0, 1, 1]) :
    LogicalOf (l := 1) c.stab.rowList (fun _ => rowVec 2 c.logicalX 0) (fun _ => rowVec 2 c.logicalZ 0) := by
  have hl : c.stab.rowList = [[1, 1, 0, 0]] := by rw [hs]; decide
  rw [hl, ← rowPauli_row hcx, ← rowPauli_row hcz, hX, hZ]
  constructor <;> decide

/-- The hypotheses of C21 are met: YY concatenated with XX gives XXII, IIXX and (YX)(YX) on four qubits. -/
theorem concat_YY_XX : ∃ c1 c2 c : StabCode, stabInit (.rows [[1, 1, 1, 1]]) 2 1 none = .ok c1 ∧
    stabInit (.rows [[1, 1, 0, 0]]) 2 1 none = .ok c2 ∧ concatenateCodes c1 c2 = .ok (some c) ∧ c.n = 4 ∧ c.k = 1 ∧
    c.stab.rows = 3 ∧ rowVec 4 c.stab 2 = rowVec 4 (Arr.ofRows 8 [[0, 1, 0, 1, 1, 1, 1, 1]]) 0 := by
  obtain ⟨c1, p1, p2, p3, p4⟩ := codeYY
  obtain ⟨c2, q1, q2, q3, q4, qx, qz⟩ := codeXX
  obtain ⟨x1, x2, z1, z2, xb, zb, -⟩ := C08_logical_operators _ 2 1 c2 q1 q2 q3
  have gx : ∀ j < 4, c2.logicalX.get 0 j = [0, 1, 0, 0].getD j 0 := by
    intro j hj
    rw [← qx]
    simp [Arr.row, x2, hj]
  have gz : ∀ j < 4, c2.logicalZ.get 0 j = [0, 0, 1, 1].getD j 0 := by
    intro j hj
    rw [← qz]
    simp [Arr.row, z2, hj]
  obtain ⟨A, a1, a2, a3, -⟩ := C21_code _ _ 2 1 2 none none c1 c2 p1 q1 (by rw [p4]; rfl) (by rw [q4]; rfl) p2 q2 p3 q3
    (by omega) (by omega) xb zb x2 z2
    (by intro q hq; rw [gx _ (by omega)]; interval_cases q <;> rfl)
    (by intro q hq; rw [gz _ (by omega)]; interval_cases q <;> rfl)
    (codeXX_logical q4 x2 z2 qx qz)
  have hA : A.rows = 3 := by omega
  rw [hA, q4, p4, ← rowPauli_row x2, ← rowPauli_row z2, qx, qz] at a2
  have r0 : rowVec 4 A 0 = rowVec 4 (Arr.ofRows 8 [[1, 1, 0, 0, 0, 0, 0, 0]]) 0 := by
    have := congrArg (fun l => l.getD 0 0) a2
    exact this.trans (by decide)
  have r1 : rowVec 4 A 1 = rowVec 4 (Arr.ofRows 8 [[0, 0, 1, 1, 0, 0, 0, 0]]) 0 := by
    have := congrArg (fun l => l.getD 1 0) a2
    exact this.trans (by decide)
  have r2 : rowVec 4 A 2 = rowVec 4 (Arr.ofRows 8 [[0, 1, 0, 1, 1, 1, 1, 1]]) 0 := by
    have := congrArg (fun l => l.getD 2 0) a2
    exact this.trans (by decide)
  have hrank : xRankQ 4 A = xRank2 4 A := by
    have hle := xRank2_le_Q (n := 4) A
    have hle' := xRankQ_le_rows (n := 4) A
    have h3 : xRank2 4 A = 3 := by
      clear a1 a2 a3 hle hle'
      rcases A with ⟨r, cc, g⟩
      simp only at hA
      subst hA
      have hM : (Matrix.of fun (i : Fin 3) (j : Fin 4) => ((g i j : ℤ) : ZMod 2)) =
          (Matrix.of ![![1, 1, 0, 0], ![0, 0, 1, 1], ![0, 1, 0, 1]] : Matrix (Fin 3) (Fin 4) ℤ).map (Int.cast : ℤ → ZMod 2) := by
        have e0 := congrArg Prod.fst r0
        have e1 := congrArg Prod.fst r1
        have e2 := congrArg Prod.fst r2
        ext i j
        fin_cases i
        · exact (congrFun e0 j).trans (by fin_cases j <;> decide)
        · exact (congrFun e1 j).trans (by fin_cases j <;> decide)
        · exact (congrFun e2 j).trans (by fin_cases j <;> decide)
      unfold xRank2
      refine (congrArg Matrix.rank hM).trans ?_
      exact rank_cert !![1, 0, 0; 0, 1, 0; 0, 0, 1] !![1, 1, 0, 0; 0, 0, 1, 1; 0, 1, 0, 1] !![1, 0, 0; 0, 1, 0; 0, 0, 1]
        !![1, 0, -1; 0, 0, 1; 0, 1, 0; 0, 0, 0] (by decide) (by decide) (ZMod 2)
    omega
  obtain ⟨c, c1', c2', c3', c4', -⟩ := a3 hrank
  exact ⟨c1, c2, c, p1, q1, c1', c2', c3', by rw [c4', hA], by rw [c4']; exact r2⟩

/-! ### C22 -/

/-- **C22** is false: when `l > 1` does not divide `n`, `concatenate_codes` raises nothing and returns `None`. -/
theorem C22_no_error_refuted (c1 c2 : StabCode) (hl : 2 ≤ c2.k) (hd : ¬ c2.k ∣ c1.n) :
    concatenateCodes c1 c2 = .ok none ∧ concatenateCodes c1 c2 ≠ .error .value := by
  have h : concatenateCodes c1 c2 = .ok none := by
    unfold concatenateCodes
    rw [if_neg (by omega), if_neg (by omega), if_neg fun h => hd (Nat.dvd_of_mod_eq_zero h)]
  exact ⟨h, by rw [h]; simp⟩

/-- An inner code without logical qubits: `ZeroDivisionError`. -/
theorem C22_no_logical_qubit (c1 c2 : StabCode) (h : c2.k = 0) : concatenateCodes c1 c2 = .error .zeroDivision := by
  unfold concatenateCodes
  rw [if_pos h]

/-- An inner code with one logical qubit that was given logical operators without rows: `IndexError`. -/
theorem C22_no_logical_rows (c1 c2 : StabCode) (h : c2.k = 1) (h0 : c2.logicalX.rows = 0 ∨ c2.logicalZ.rows = 0) :
    concatenateCodes c1 c2 = .error .index := by
  unfold concatenateCodes concatRowsOne
  rw [if_neg (by omega), if_pos h, if_pos h0]
  rfl

/-- The `[3, 2]` code with generator XXX, to be used with the `[4, 2]` code. -/
theorem codeXXX : ∃ c, stabInit (.rows [[1, 1, 1, 0, 0, 0]]) 3 2 none = .ok c ∧ c.n = 3 := by
  obtain ⟨c, h1, h2, h3, h4, h5, h6⟩ := concrete_code (l := [[1, 1, 1, 0, 0, 0]]) (n := 3) (k := 2)
    (r := 1) (e := 0) (by decide) (by decide) (by decide) (by unfold IsBinary; decide) (by decide)
    (independent_cert _ (fun j a => if j = 0 ∧ a = 0 then 1 else 0) (by decide))
    (fun F _ => rank_cert (M := Matrix.of fun (i : Fin 1) (j : Fin 3) => (Arr.ofRows (2 * 3) [[1, 1, 1, 0, 0, 0]]).get i j)
      !![1] !![1, 1, 1] !![1] !![1; 0; 0] (by decide) (by decide) F)
    (Or.inl rfl)
  exact ⟨c, h1, (stabInit_ok h1).2.2.2.2.1⟩

example : ∃ c1 c2 : StabCode, stabInit (.rows [[1, 1, 1, 0, 0, 0]]) 3 2 none = .ok c1 ∧
    stabInit (.rows [[1, 1, 1, 1, 0, 0, 0, 0], [0, 0, 0, 0, 1, 1, 1, 1]]) 4 2 none = .ok c2 ∧
    concatenateCodes c1 c2 = .ok none := by
  obtain ⟨c1, p1, p2⟩ := codeXXX
  obtain ⟨c2, q1, -⟩ := code422
  have hk := (stabInit_ok q1).2.2.2.2.2.1
  exact ⟨c1, c2, p1, q1, (C22_no_error_refuted c1 c2 (by omega) (by rw [hk, p2]; decide)).1⟩

/-- A code that is accepted without logical operators is accepted with any that have the right number of columns. -/
theorem stabInit_supplied {s : StabInput} {n k : ℕ} {c : StabCode} (h : stabInit s n k none = .ok c) (lx lz : Arr ℤ)
    (hx : lx.cols = 2 * n) (hz : lz.cols = 2 * n) : ∃ c', stabInit s n k (some (lx, lz)) = .ok c' := by
  unfold stabInit at h ⊢
  rcases hA : initArray s n k with _ | A
  · rw [hA] at h; cases h
  rw [hA] at h
  rcases hi : isStabilizerCode A with _ | b
  · simp only [ok_bind', hi] at h; cases h
  rcases hs : (List.range A.rows).mapM fun i => binaryRepToPauliStr (A.row i) with _ | strs
  · simp only [ok_bind', hi, hs] at h
    rcases b with _ | _ <;> cases h
  rcases hn : standardNormalForm n k A with _ | ⟨nf, rank⟩
  · simp only [ok_bind', hi, hs, hn] at h
    rcases b with _ | _ <;> cases h
  rcases b with _ | _
  · simp only [ok_bind', hi, hs, hn] at h
    cases h
  refine ⟨⟨n, k, A, strs, nf, rank, lx, lz⟩, ?_⟩
  simp only [ok_bind', hi, hs, hn, pyAssert, if_pos hx, if_pos hz, if_true]
  rfl

/-- The constructor accepts such operators: XX with a logical X and no logical Z. -/
example : ∃ c1 c2 : StabCode, stabInit (.rows [[1, 1, 1, 0, 0, 0]]) 3 2 none = .ok c1 ∧
    stabInit (.rows [[1, 1, 0, 0]]) 2 1 (some (Arr.ofRows 4 [[1, 0, 0, 0]], Arr.ofRows 4 [])) = .ok c2 ∧
    concatenateCodes c1 c2 = .error .index := by
  obtain ⟨c1, p1, -⟩ := codeXXX
  obtain ⟨c, q1, -⟩ := concrete_code (l := [[1, 1, 0, 0]]) (n := 2) (k := 1)
    (r := 1) (e := 0) (by decide) (by decide) (by decide) (by unfold IsBinary; decide) (by decide)
    (independent_cert _ (fun j a => if j = 0 ∧ a = 0 then 1 else 0) (by decide))
    (fun F _ => rank_cert (M := Matrix.of fun (i : Fin 1) (j : Fin 2) => (Arr.ofRows (2 * 2) [[1, 1, 0, 0]]).get i j)
      !![1] !![1, 1] !![1] !![1; 0] (by decide) (by decide) F)
    (Or.inl rfl)
  obtain ⟨c2, q2⟩ := stabInit_supplied q1 (Arr.ofRows 4 [[1, 0, 0, 0]]) (Arr.ofRows 4 []) rfl rfl
  obtain ⟨-, -, -, -, -, hk, -, hl⟩ := stabInit_ok q2
  obtain ⟨-, -, -, hz⟩ := hl _ _ rfl
  exact ⟨c1, c2, p1, q2, C22_no_logical_rows c1 c2 hk (Or.inr (by rw [hz]; rfl))⟩

/-- **C22** is false for inner codes with one logical qubit: the inner code XZ has the logical X `ZX`, whose Z part is dropped;
the new generators do not commute and the constructor raises `AssertionError`. -/
theorem C22_dropped_part_refuted : ∃ c1 c2 : StabCode, stabInit (.rows [[1, 1, 0, 0]]) 2 1 none = .ok c1 ∧
    stabInit (.rows [[1, 0, 0, 1]]) 2 1 none = .ok c2 ∧ c2.logicalX.row 0 = [0, 1, 1, 0] ∧ c2.logicalZ.row 0 = [0, 0, 0, 1] ∧
    concatenateCodes c1 c2 = .error .assertion := by
  obtain ⟨c1, p1, -, -, p4, -⟩ := codeXX
  obtain ⟨c2, h1, h2, h3, h4, h5, h6⟩ := concrete_code (l := [[1, 0, 0, 1]]) (n := 2) (k := 1)
    (r := 1) (e := 0) (by decide) (by decide) (by decide) (by unfold IsBinary; decide) (by decide)
    (independent_cert _ (fun j a => if j = 0 ∧ a = 0 then 1 else 0) (by decide))
    (fun F _ => rank_cert (M := Matrix.of fun (i : Fin 1) (j : Fin 2) => (Arr.ofRows (2 * 2) [[1, 0, 0, 1]]).get i j)
      !![1] !![1, 0] !![1] !![1; 0] (by decide) (by decide) F)
    (Or.inl rfl)
  rw [if_pos (by decide)] at h6
  obtain ⟨-, hX, hZ⟩ := accepted_logical h1 h2 h3
  have hX0 : c2.logicalX.row 0 = [0, 1, 1, 0] := by rw [hX, h5, h6]; decide
  have hZ0 : c2.logicalZ.row 0 = [0, 0, 0, 1] := by rw [hZ, h5, h6]; decide
  obtain ⟨x1, x2, z1, z2, -⟩ := C08_logical_operators _ 2 1 c2 h1 h2 h3
  refine ⟨c1, c2, p1, h1, hX0, hZ0, ?_⟩
  obtain ⟨-, -, -, -, n1, k1, -⟩ := stabInit_ok p1
  obtain ⟨-, -, -, -, n2, k2, -⟩ := stabInit_ok h1
  have hg : concatRowsOne c1 c2 = .ok [[1, 0, 0, 0, 0, 1, 0, 0], [0, 0, 1, 0, 0, 0, 0, 1], [0, 1, 0, 1, 0, 0, 0, 0]] := by
    unfold concatRowsOne
    rw [if_neg (by omega), n1, n2, hX0, hZ0, p4, h4]
    decide
  unfold concatenateCodes
  rw [if_neg (by omega), if_pos k2, hg, ok_bind', n1, n2, k1]
  rw [C05_array_anticommuting _ 4 1 none (by decide) (by decide)
    ⟨[1, 0, 0, 0, 0, 1, 0, 0], by decide, [0, 1, 0, 1, 0, 0, 0, 0], by decide, by decide⟩]
  rfl

theorem concat_many {c1 c2 : StabCode} (hl : 2 ≤ c2.k) (hd : c2.k ∣ c1.n) : concatenateCodes c1 c2 = (do
    let r ← c1.stab.rowList.foldlM (concatRow c1 c2 (c1.n / c2.k)) ([], none)
    return some (← stabInit (.rows (blockRows c2.n (c1.n / c2.k) c2.stab.rowList ++ r.1)) (c1.n / c2.k * c2.n) c1.k none)) := by
  unfold concatenateCodes
  rw [if_neg (by omega), if_neg (by omega), if_pos (Nat.mod_eq_zero_of_dvd hd)]

theorem concat_many_error {c1 c2 : StabCode} {m : ℕ} (hl : 2 ≤ c2.k) (hd : c2.k ∣ c1.n) (hr : 0 < c1.stab.rows)
    (hcx : c2.logicalX.cols = 2 * m) (hcz : c2.logicalZ.cols = 2 * m) (hn2 : c2.n = m) (j : ℕ) (hj : j < c1.n)
    (hbad : min (c1.n * (j / (c1.n / c2.k) + 1)) (c1.n / c2.k * m) - min (c1.n * (j / (c1.n / c2.k))) (c1.n / c2.k * m) ≠ m) :
    ∃ e, concatenateCodes c1 c2 = .error e := by
  rw [concat_many hl hd]
  have hrows : c1.stab.rowList = c1.stab.row 0 :: (List.range (c1.stab.rows - 1)).map fun i => c1.stab.row (1 + i) := by
    unfold Arr.rowList
    obtain ⟨r, hr'⟩ : ∃ r, c1.stab.rows = r + 1 := ⟨c1.stab.rows - 1, by omega⟩
    rw [hr', List.range_succ_eq_map, List.map_cons, List.map_map]
    congr 1
    refine List.map_congr_left fun i _ => ?_
    simp only [Function.comp, Nat.succ_eq_add_one, Nat.add_comm 1 i]
  obtain ⟨e, he⟩ := letters_error (row := c1.stab.row 0) hcx hcz hn2 j hj hbad
    ⟨List.replicate (c1.n / c2.k * m) 0, List.replicate (c1.n / c2.k * m) 0, none⟩ ⟨by simp, by simp⟩
  refine ⟨e, ?_⟩
  have h1 : concatRow c1 c2 (c1.n / c2.k) ([], none) (c1.stab.row 0) = .error e := by
    unfold concatRow
    rw [hn2]
    rw [he]
    rfl
  rw [hrows, List.foldlM_cons, h1]
  rfl

/-- **C22** is false in general: for `l > 1` logical qubits in the inner code, `concatenate_codes` raises for every pair of
codes of different lengths. -/
theorem C22_lengths_refuted (s1 s2 : StabInput) (n k m l : ℕ) (lo1 lo2 : Option (Arr ℤ × Arr ℤ)) (c1 c2 : StabCode)
    (h1 : stabInit s1 n k lo1 = .ok c1) (h2 : stabInit s2 m l lo2 = .ok c2) (hn : 0 < n) (hl : 2 ≤ l) (hlm : l < m)
    (hd : l ∣ n) (hcx : c2.logicalX.cols = 2 * m) (hcz : c2.logicalZ.cols = 2 * m) (hne : n ≠ m) :
    ∃ e, concatenateCodes c1 c2 = .error e := by
  obtain ⟨hA1, -, -, -, hn1, -⟩ := stabInit_ok h1
  obtain ⟨hA2, -, -, -, hn2, hk2, -⟩ := stabInit_ok h2
  refine concat_many_error (by omega) (by rw [hk2, hn1]; exact hd) (initArray_rows_pos hA1) hcx hcz hn2 0 (by omega) ?_
  rw [hn1, hk2, Nat.zero_div]
  obtain ⟨q, rfl⟩ := hd
  rw [Nat.mul_div_cancel_left q (by omega)]
  simp only [Nat.zero_add, Nat.mul_one, Nat.mul_zero, Nat.zero_min, Nat.sub_zero]
  intro h
  rcases Nat.le_total (l * q) (q * m) with h3 | h3
  · rw [min_eq_left h3] at h
    exact hne h
  · rw [min_eq_right h3] at h
    have : q = 1 := by
      have : q * m = 1 * m := by rw [h, one_mul]
      exact Nat.eq_of_mul_eq_mul_right (by omega) this
    subst this
    omega

/-- **C22** is false in general: for codes of the same length `n`, it raises whenever `n < l * l`. -/
theorem C22_few_blocks_refuted (s1 s2 : StabInput) (n k l : ℕ) (lo1 lo2 : Option (Arr ℤ × Arr ℤ)) (c1 c2 : StabCode)
    (h1 : stabInit s1 n k lo1 = .ok c1) (h2 : stabInit s2 n l lo2 = .ok c2) (hn : 0 < n) (hl : 2 ≤ l)
    (hd : l ∣ n) (hcx : c2.logicalX.cols = 2 * n) (hcz : c2.logicalZ.cols = 2 * n) (hlt : n < l * l) :
    ∃ e, concatenateCodes c1 c2 = .error e := by
  obtain ⟨hA1, -, -, -, hn1, -⟩ := stabInit_ok h1
  obtain ⟨hA2, -, -, -, hn2, hk2, -⟩ := stabInit_ok h2
  refine concat_many_error (m := n) (by omega) (by rw [hk2, hn1]; exact hd) (initArray_rows_pos hA1) hcx hcz hn2 (n - 1)
    (by omega) ?_
  rw [hn1, hk2]
  obtain ⟨q, rfl⟩ := hd
  rw [Nat.mul_div_cancel_left q (by omega)]
  have hq : q < l := Nat.lt_of_mul_lt_mul_left hlt
  have hq0 : 0 < q := Nat.pos_of_mul_pos_left hn
  have hdiv : (l * q - 1) / q = l - 1 := by
    obtain ⟨l', rfl⟩ : ∃ l', l = l' + 1 := ⟨l - 1, by omega⟩
    rw [Nat.div_eq_iff hq0, Nat.add_sub_cancel]
    rw [Nat.add_mul, one_mul]
    omega
  rw [hdiv]
  have h3 : q * (l * q) ≤ l * q * (l - 1) := by
    rw [mul_comm q]
    exact Nat.mul_le_mul_left _ (by omega)
  rw [min_eq_right h3, min_eq_right (h3.trans (Nat.mul_le_mul_left _ (Nat.le_succ _))), Nat.sub_self]
  omega

/-- **C22** is false in general: letter `j` asks for logical operator `j % (n / l)` of the inner code, which has only `l`; it
raises whenever that number is at least `l` and some outer generator acts on qubit `j`. -/
theorem C22_many_blocks_refuted (s1 s2 : StabInput) (n k m l : ℕ) (lo1 lo2 : Option (Arr ℤ × Arr ℤ)) (c1 c2 : StabCode)
    (h1 : stabInit s1 n k lo1 = .ok c1) (h2 : stabInit s2 m l lo2 = .ok c2) (hl : 2 ≤ l) (hd : l ∣ n)
    (hlx : c2.logicalX.rows = l) (hlz : c2.logicalZ.rows = l) (i j : ℕ) (hi : i < c1.stab.rows) (hj : j < n)
    (hjl : l ≤ j % (n / l)) (hb : BinaryArr c1.stab) (hne : c1.stab.get i j = 1 ∨ c1.stab.get i (n + j) = 1) :
    ∃ e, concatenateCodes c1 c2 = .error e := by
  obtain ⟨hA1, -, -, -, hn1, -⟩ := stabInit_ok h1
  obtain ⟨hA2, -, -, -, hn2, hk2, -⟩ := stabInit_ok h2
  have hc1 := initArray_cols hA1
  rw [concat_many (by omega) (by rw [hk2, hn1]; exact hd), hn1, hk2]
  have g : ∀ t < 2 * n, (c1.stab.row i).getD t 0 = c1.stab.get i t := by
    intro t ht
    rw [List.getD_eq_getElem _ _ (by simpa [Arr.row, hc1] using ht)]
    simp [Arr.row]
  have hletter : ∀ st, ∃ e, concatLetter c1 c2 (n / l) (c1.stab.row i) st j = .error e := by
    intro st
    refine ⟨.index, ?_⟩
    unfold concatLetter chooseLogical logicalAt
    rw [hn1, g j (by omega), g (n + j) (by omega), hlx, hlz]
    simp only [if_neg (Nat.not_lt.mpr hjl)]
    rcases hb i hi j (by omega) with hx | hx <;> rcases hb i hi (n + j) (by omega) with hz | hz
    · rcases hne with h | h <;> omega
    all_goals simp [hx, hz, bind, Except.bind]
  have hsplit : ∀ {N a : ℕ}, a < N → ∃ pre post, List.range N = pre ++ a :: post := by
    intro N a ha
    exact List.append_of_mem (List.mem_range.mpr ha)
  have hrow : ∀ acc, ∃ e, concatRow c1 c2 (n / l) acc (c1.stab.row i) = .error e := by
    intro acc
    obtain ⟨pre, post, hs⟩ := hsplit hj
    obtain ⟨e, he⟩ := foldlM_error_of (f := concatLetter c1 c2 (n / l) (c1.stab.row i)) (fun _ => True) (fun _ _ _ _ _ => trivial)
      pre j post ⟨List.replicate (n / l * c2.n) 0, List.replicate (n / l * c2.n) 0, acc.2⟩ trivial (fun st _ => hletter st)
    refine ⟨e, ?_⟩
    unfold concatRow
    rw [hn1, hs, he]
    rfl
  obtain ⟨pre, post, hs⟩ := hsplit hi
  obtain ⟨e, he⟩ := foldlM_error_of (f := concatRow c1 c2 (n / l)) (fun _ => True) (fun _ _ _ _ _ => trivial)
    (pre.map c1.stab.row) (c1.stab.row i) (post.map c1.stab.row) ([], none) trivial (fun st _ => hrow st)
  refine ⟨e, ?_⟩
  rw [show c1.stab.rowList = pre.map c1.stab.row ++ c1.stab.row i :: post.map c1.stab.row by
    unfold Arr.rowList; rw [hs, List.map_append, List.map_cons], he]
  rfl

/-- `UnboundLocalError` when the first letter of the first outer generator is the identity. -/
theorem C22_identity_letter_refuted (s1 s2 : StabInput) (n k m l : ℕ) (lo1 lo2 : Option (Arr ℤ × Arr ℤ)) (c1 c2 : StabCode)
    (h1 : stabInit s1 n k lo1 = .ok c1) (h2 : stabInit s2 m l lo2 = .ok c2) (hn : 0 < n) (hl : 2 ≤ l) (hd : l ∣ n)
    (hx : c1.stab.get 0 0 = 0) (hz : c1.stab.get 0 n = 0) : concatenateCodes c1 c2 = .error .unboundLocal := by
  obtain ⟨hA1, -, -, -, hn1, -⟩ := stabInit_ok h1
  obtain ⟨hA2, -, -, -, hn2, hk2, -⟩ := stabInit_ok h2
  have hc1 := initArray_cols hA1
  have hr := initArray_rows_pos hA1
  rw [concat_many (by omega) (by rw [hk2, hn1]; exact hd)]
  have hrows : ∃ rest, c1.stab.rowList = c1.stab.row 0 :: rest := by
    unfold Arr.rowList
    obtain ⟨r, hr'⟩ : ∃ r, c1.stab.rows = r + 1 := ⟨c1.stab.rows - 1, by omega⟩
    rw [hr', List.range_succ_eq_map, List.map_cons]
    exact ⟨_, rfl⟩
  have hrange : ∃ rest, List.range c1.n = 0 :: rest := by
    obtain ⟨r, hr'⟩ : ∃ r, c1.n = r + 1 := ⟨c1.n - 1, by omega⟩
    rw [hr', List.range_succ_eq_map]
    exact ⟨_, rfl⟩
  obtain ⟨rest, hrows⟩ := hrows
  obtain ⟨rest', hrange⟩ := hrange
  have g : ∀ j < 2 * n, (c1.stab.row 0).getD j 0 = c1.stab.get 0 j := by
    intro j hj
    rw [List.getD_eq_getElem _ _ (by simp [Arr.row, hc1, hj])]
    simp [Arr.row]
  have h3 : concatLetter c1 c2 (c1.n / c2.k) (c1.stab.row 0)
      ⟨List.replicate (c1.n / c2.k * c2.n) 0, List.replicate (c1.n / c2.k * c2.n) 0, none⟩ 0 = .error .unboundLocal := by
    unfold concatLetter
    rw [g 0 (by omega), g (c1.n + 0) (by omega), hx, hn1, Nat.add_zero, hz]
    rfl
  rw [hrows, List.foldlM_cons]
  unfold concatRow
  rw [hrange, List.foldlM_cons, h3]
  rfl

/-- **C22**, the case that works: outer and inner code have the same length `l * l`, and no outer generator has an identity
letter.  The constructor is called with the inner generators on each of the `l` blocks, then the outer generators with letter
`l * b + a` replaced by the logical operators `a` of block `b`; they commute, and they are independent if the generators of both
codes are.  Missing from C22: all other pairs of codes, for which the code raises or returns `None`. -/
theorem C22_square_partial (s1 s2 : StabInput) (l k : ℕ) (lo1 lo2 : Option (Arr ℤ × Arr ℤ)) (c1 c2 : StabCode) (hl : 2 ≤ l)
    (h1 : stabInit s1 (l * l) k lo1 = .ok c1) (h2 : stabInit s2 (l * l) l lo2 = .ok c2)
    (hr1 : c1.stab.rows + k = l * l) (hr2 : c2.stab.rows + l = l * l) (hb1 : BinaryArr c1.stab) (hb2 : BinaryArr c2.stab)
    (hlx : c2.logicalX.rows = l) (hlz : c2.logicalZ.rows = l) (hbx : BinaryArr c2.logicalX) (hbz : BinaryArr c2.logicalZ)
    (hcx : c2.logicalX.cols = 2 * (l * l)) (hcz : c2.logicalZ.cols = 2 * (l * l))
    (hne : ∀ i < c1.stab.rows, ∀ j < l * l, ¬ (c1.stab.get i j = 0 ∧ c1.stab.get i (l * l + j) = 0))
    (hlog : LogicalOf (l := l) c2.stab.rowList (fun a => rowVec (l * l) c2.logicalX a) (fun a => rowVec (l * l) c2.logicalZ a)) :
    ∃ gens : List (List ℤ),
      concatenateCodes c1 c2 = (stabInit (.rows gens) (l * (l * l)) k none).map some ∧
      gens.length + k = l * (l * l) ∧ (∀ r ∈ gens, r.length = 2 * (l * (l * l)) ∧ IsBinary r) ∧
      gens.map (fun r => (rowPauli (l * (l * l)) r).vec) =
        ((List.finRange l).flatMap fun b => (List.range c2.stab.rows).map fun j => inBlock b (rowVec (l * l) c2.stab j)) ++
        (List.range c1.stab.rows).map (fun i =>
          substituted (fun b a : Fin l => ((c1.stab.get i (l * b + a) : ℤ) : ZMod 2))
            (fun b a : Fin l => ((c1.stab.get i (l * l + (l * b + a)) : ℤ) : ZMod 2))
            (fun a => rowVec (l * l) c2.logicalX a) (fun a => rowVec (l * l) c2.logicalZ a)) ∧
      (∀ p ∈ gens, ∀ q ∈ gens, symp (rowPauli (l * (l * l)) p) (rowPauli (l * (l * l)) q) = 0) ∧
      (Independent (l * l) c1.stab → Independent (l * l) c2.stab →
        LinearIndependent (ZMod 2) fun i : Fin gens.length => (rowPauli (l * (l * l)) gens[i]).vec) := by
  obtain ⟨hA1, hcom1, -, -, hn1, hk1, -⟩ := stabInit_ok h1
  obtain ⟨hA2, hcom2, -, -, hn2, hk2, -⟩ := stabInit_ok h2
  have hc1 := initArray_cols hA1
  have hc2 := initArray_cols hA2
  set X : Fin l → BVec (l * l) := fun a => rowVec (l * l) c2.logicalX a with hX
  set Z : Fin l → BVec (l * l) := fun a => rowVec (l * l) c2.logicalZ a with hZ
  have g : ∀ i, ∀ j < 2 * (l * l), (c1.stab.row i).getD j 0 = c1.stab.get i j := by
    intro i j hj
    rw [List.getD_eq_getElem _ _ (by simp [Arr.row, hc1, hj])]
    simp [Arr.row]
  have hidx : ∀ b a : Fin l, l * (b : ℕ) + a < l * l := by
    intro b a
    have h3 : l * (b : ℕ) + l ≤ l * l := by
      rw [← Nat.mul_succ]
      exact Nat.mul_le_mul_left _ b.2
    omega
  obtain ⟨subs, cur', q0, q1⟩ := concatRows_ok hn1 hn2 rfl hcx hcz hbx hbz hlx hlz c1.stab.rowList
    (by
      intro row hrow j
      obtain ⟨i, hi, rfl⟩ := mem_rowList hrow
      rcases Nat.lt_or_ge j (2 * (l * l)) with h | h
      · rw [g i j h]; exact hb1 i hi j (by omega)
      · left; rw [List.getD_eq_default _ _ (by rw [row_length]; omega)])
    (by
      intro row hrow j hj
      obtain ⟨i, hi, rfl⟩ := mem_rowList hrow
      rw [g i j (by omega), g i (l * l + j) (by omega)]
      exact hne i hi j hj) ([], none)
  rw [List.nil_append] at q0
  have hlen : subs.length = c1.stab.rows := by rw [← q1.length_eq, rowList_length]
  have hsub : ∀ i (hi : i < subs.length), subs[i].length = 2 * (l * (l * l)) ∧ IsBinary subs[i] ∧
      (rowPauli (l * (l * l)) subs[i]).vec =
        substituted (fun b a : Fin l => ((c1.stab.get i (l * b + a) : ℤ) : ZMod 2))
            (fun b a : Fin l => ((c1.stab.get i (l * l + (l * b + a)) : ℤ) : ZMod 2)) X Z := by
    intro i hi
    have h3 := List.Forall₂.get q1 (i := i) (by rw [rowList_length]; omega) hi
    rw [List.get_eq_getElem, List.get_eq_getElem, rowList_getElem] at h3
    refine ⟨h3.1, h3.2.1, h3.2.2.trans ?_⟩
    congr 1 <;> funext b a
    · rw [g _ _ (by have := hidx b a; omega)]
    · rw [g _ _ (by have := hidx b a; omega)]
  have hsymp : ∀ i (hi : i < subs.length), ∀ w : BVec (l * l),
      sympV (substituted (fun b a : Fin l => w.1 ⟨l * b + a, hidx b a⟩) (fun b a : Fin l => w.2 ⟨l * b + a, hidx b a⟩) X Z)
        (rowPauli (l * (l * l)) subs[i]).vec = sympV w (rowVec (l * l) c1.stab i) := by
    intro i hi w
    rw [(hsub i hi).2.2, sympV_subst _ _ _ _ X Z hlog.XZ hlog.XX hlog.ZZ]
    unfold sympV dotp
    rw [← Finset.sum_add_distrib]
    refine (sum_blocksF (B := l) (m := l) fun b a => w.1 ⟨l * b + a, hidx b a⟩ *
      ((c1.stab.get i (l * l + (l * b + a)) : ℤ) : ZMod 2) + w.2 ⟨l * b + a, hidx b a⟩ *
      ((c1.stab.get i (l * b + a) : ℤ) : ZMod 2)).symm.trans ?_
    refine Finset.sum_congr rfl fun t _ => ?_
    have e : l * ((t.divNat : Fin l) : ℕ) + ((t.modNat : Fin l) : ℕ) = t := Nat.div_add_mod (t : ℕ) l
    have e' : (⟨l * (t.divNat : Fin l) + (t.modNat : Fin l), hidx _ _⟩ : Fin (l * l)) = t := Fin.ext e
    rw [e', e]
    rfl
  have hin : ∀ r ∈ c2.stab.rowList, r.length = 2 * (l * l) := by
    intro r hr
    obtain ⟨i, hi, rfl⟩ := mem_rowList hr
    rw [row_length, hc2]
  have hs : ∀ r ∈ subs, ∃ ux uz, (rowPauli (l * (l * l)) r).vec = substituted ux uz X Z := by
    intro r hr
    obtain ⟨i, hi, rfl⟩ := List.getElem_of_mem hr
    exact ⟨_, _, (hsub i hi).2.2⟩
  refine ⟨blockRows (l * l) l c2.stab.rowList ++ subs, ?_, ?_, ?_, ?_, ?_, ?_⟩
  · rw [concat_many (by omega) (by rw [hk2, hn1]; exact Dvd.intro l rfl), hn1, hk2, hn2, hk1,
      Nat.mul_div_cancel_left l (by omega), q0, ok_bind']
    rcases stabInit (.rows (blockRows (l * l) l c2.stab.rowList ++ subs)) (l * (l * l)) k none with e | c <;> rfl
  · rw [List.length_append, blockRows_length, rowList_length, hlen]
    have : l * (l * l) = l * c2.stab.rows + l * l := by rw [← Nat.mul_add, hr2]
    omega
  · intro r hr
    rcases List.mem_append.mp hr with hr | hr
    · obtain ⟨b, g', hg, rfl⟩ := mem_blockRows hr
      refine ⟨blockRow_length _ l b g' (hin g' hg) b.2, blockRow_binary _ l b g' ?_⟩
      obtain ⟨i, hi, rfl⟩ := mem_rowList hg
      exact row_isBinary hb2 hi
    · obtain ⟨i, hi, rfl⟩ := List.getElem_of_mem hr
      exact ⟨(hsub i hi).1, (hsub i hi).2.1⟩
  · rw [List.map_append]
    congr 1
    · unfold blockRows
      rw [List.map_flatMap, ← List.map_coe_finRange_eq_range, List.flatMap_map]
      refine List.flatMap_congr fun b _ => ?_
      unfold Arr.rowList
      rw [List.map_map, List.map_map]
      refine List.map_congr_left fun j hj => ?_
      simp only [Function.comp]
      rw [blockRow_vec _ l b _ (by rw [row_length, hc2]), rowPauli_row hc2]
    · apply List.ext_getElem
      · simp [hlen]
      · intro i hi hi'
        rw [List.getElem_map, List.getElem_map, List.getElem_range]
        exact (hsub i (by simpa using hi)).2.2
  · refine concat_commuting hin hlog (rowList_commuting hc2 hcom2) hs ?_
    intro p hp q hq
    obtain ⟨i, hi, rfl⟩ := List.getElem_of_mem hp
    obtain ⟨j, hj, rfl⟩ := List.getElem_of_mem hq
    have h3 := hsymp j hj (rowVec (l * l) c1.stab i)
    rw [hcom1 i (by omega) j (by omega)] at h3
    rw [(hsub i hi).2.2]
    exact h3
  · intro hi1 hi2
    refine concat_independent hin hlog (rowList_independent hc2 hi2) hs fun i => ?_
    obtain ⟨w, hw⟩ := exists_partner _ hi1 (finCongr hlen i)
    refine ⟨fun b a => w.1 ⟨l * b + a, hidx b a⟩, fun b a => w.2 ⟨l * b + a, hidx b a⟩, fun j => ?_⟩
    rw [Fin.getElem_fin, hsymp j j.2 w]
    have := hw (finCongr hlen j)
    rw [show ((finCongr hlen j : Fin _) : ℕ) = j from rfl] at this
    rw [this]
    by_cases h : j = i
    · rw [if_pos h, if_pos (by rw [h])]
    · rw [if_neg h, if_neg (by intro h'; exact h ((finCongr hlen).injective h'))]

/-- The `[4, 2]` code concatenated with itself meets the hypotheses: the new generators number six on eight qubits. -/
example : ∃ c : StabCode, ∃ gens : List (List ℤ),
    stabInit (.rows [[1, 1, 1, 1, 0, 0, 0, 0], [0, 0, 0, 0, 1, 1, 1, 1]]) 4 2 none = .ok c ∧
    concatenateCodes c c = (stabInit (.rows gens) 8 2 none).map some ∧ gens.length = 6 := by
  obtain ⟨c, h1, h2, h3, h4, h5, h6, h7, h8, h9, h10⟩ := code422
  obtain ⟨x1, x2, z1, z2, xb, zb, -, hp⟩ := C08_logical_operators _ 4 2 c h1 h2 h3
  obtain ⟨hsh, hX, hZ⟩ := accepted_logical h1 h2 h3
  have hc := initArray_cols (stabInit_ok h1).1
  have hg : ∀ j < 8, c.stab.get 0 j = [1, 1, 1, 1, 0, 0, 0, 0].getD j 0 ∧ c.stab.get 1 j = [0, 0, 0, 0, 1, 1, 1, 1].getD j 0 := by
    intro j hj
    rw [← h6, ← h7]
    constructor <;> simp [Arr.row, hc, hj]
  have hl : c.stab.rowList = [[1, 1, 1, 1, 0, 0, 0, 0], [0, 0, 0, 0, 1, 1, 1, 1]] := by
    unfold Arr.rowList
    rw [h5]
    simp [List.range_succ, h6, h7]
  have hcn : c.normalForm.cols = 8 := hsh.cols
  have hn : ∀ j < 8, c.normalForm.get 0 j = [1, 1, 1, 1, 0, 0, 0, 0].getD j 0 ∧
      c.normalForm.get 1 j = [0, 0, 0, 0, 1, 1, 1, 1].getD j 0 := by
    intro j hj
    rw [← h9, ← h10]
    constructor <;> simp [Arr.row, hcn, hj]
  have hiter : c.iter = c.stab.rowList := by
    rw [hl]
    unfold StabCode.iter
    rw [h8]
    simp [List.range_succ, h9, h10]
  obtain ⟨gens, g1, g2, -⟩ := C22_square_partial _ _ 2 2 none none c c le_rfl h1 h1 (by rw [h5]) (by rw [h5]) h2 h2 x1 z1 xb zb
    x2 z2
    (by
      intro i hi j hj
      rw [h5] at hi
      interval_cases i <;> interval_cases j <;> simp [hg])
    (by
      obtain ⟨-, -, -, -, -, -, hcc, -⟩ := C08_logical_operators _ 4 2 c h1 h2 h3
      refine ⟨?_, ?_, ?_, ?_, ?_⟩
      · intro g hg a
        rw [← rowPauli_row x2, sympV_comm, sympV_vec]
        exact (hcc a a.2 g (by rw [hiter]; exact hg)).1
      · intro g hg a
        rw [← rowPauli_row z2, sympV_comm, sympV_vec]
        exact (hcc a a.2 g (by rw [hiter]; exact hg)).2
      · intro a b
        rw [← rowPauli_row x2, ← rowPauli_row z2, sympV_vec, (hp a a.2 b b.2).1]
        simp only [Fin.ext_iff]
      · intro a b
        rw [← rowPauli_row x2, ← rowPauli_row x2, sympV_vec]
        exact (hp a a.2 b b.2).2.1
      · intro a b
        rw [← rowPauli_row z2, ← rowPauli_row z2, sympV_vec]
        exact (hp a a.2 b b.2).2.2)
  exact ⟨c, gens, h1, g1, by omega⟩

/-- Different lengths: YY with the `[4, 2]` code. -/
example : ∃ c1 c2 : StabCode, ∃ e, stabInit (.rows [[1, 1, 1, 1]]) 2 1 none = .ok c1 ∧
    stabInit (.rows [[1, 1, 1, 1, 0, 0, 0, 0], [0, 0, 0, 0, 1, 1, 1, 1]]) 4 2 none = .ok c2 ∧
    concatenateCodes c1 c2 = .error e := by
  obtain ⟨c1, p1, -⟩ := codeYY
  obtain ⟨c2, q1, q2, q3, -⟩ := code422
  obtain ⟨-, x2, -, z2, -⟩ := C08_logical_operators _ 4 2 c2 q1 q2 q3
  obtain ⟨e, he⟩ := C22_lengths_refuted _ _ 2 1 4 2 none none c1 c2 p1 q1 (by decide) le_rfl (by decide) (by decide) x2 z2 (by decide)
  exact ⟨c1, c2, e, p1, q1, he⟩

/-- Too few blocks: the `[6, 3]` code with generators X on the first, second and third qubit, with itself. -/
example : ∃ c : StabCode, ∃ e, stabInit (.rows [[1, 0, 0, 0, 0, 0, 0, 0, 0, 0, 0, 0], [0, 1, 0, 0, 0, 0, 0, 0, 0, 0, 0, 0],
    [0, 0, 1, 0, 0, 0, 0, 0, 0, 0, 0, 0]]) 6 3 none = .ok c ∧ concatenateCodes c c = .error e := by
  obtain ⟨c, h1, h2, h3, -⟩ := concrete_code (l := [[1, 0, 0, 0, 0, 0, 0, 0, 0, 0, 0, 0],
      [0, 1, 0, 0, 0, 0, 0, 0, 0, 0, 0, 0], [0, 0, 1, 0, 0, 0, 0, 0, 0, 0, 0, 0]]) (n := 6) (k := 3)
    (r := 3) (e := 0) (by decide) (by decide) (by decide) (by unfold IsBinary; decide) (by decide)
    (independent_cert _ (fun j a => if j = a then 1 else 0) (by decide))
    (fun F _ => rank_cert (M := Matrix.of fun (i : Fin 3) (j : Fin 6) => (Arr.ofRows (2 * 6) [[1, 0, 0, 0, 0, 0, 0, 0, 0, 0, 0, 0],
      [0, 1, 0, 0, 0, 0, 0, 0, 0, 0, 0, 0], [0, 0, 1, 0, 0, 0, 0, 0, 0, 0, 0, 0]]).get i j)
      1 (Matrix.of fun i j => if (i : ℕ) = j then 1 else 0) 1 (Matrix.of fun i j => if (i : ℕ) = j then 1 else 0)
      (by decide) (by decide) F)
    (Or.inl rfl)
  obtain ⟨-, x2, -, z2, -⟩ := C08_logical_operators _ 6 3 c h1 h2 h3
  obtain ⟨e, he⟩ := C22_few_blocks_refuted _ _ 6 3 3 none none c c h1 h1 (by decide) (by decide) (by decide) x2 z2 (by decide)
  exact ⟨c, e, h1, he⟩

/-- Too many blocks: the `[6, 2]` code with generators X on the first four qubits, with itself.  The third letter of its third
generator asks for a third logical operator. -/
example : ∃ c : StabCode, ∃ e, stabInit (.rows [[1, 0, 0, 0, 0, 0, 0, 0, 0, 0, 0, 0], [0, 1, 0, 0, 0, 0, 0, 0, 0, 0, 0, 0],
    [0, 0, 1, 0, 0, 0, 0, 0, 0, 0, 0, 0], [0, 0, 0, 1, 0, 0, 0, 0, 0, 0, 0, 0]]) 6 2 none = .ok c ∧
    concatenateCodes c c = .error e := by
  obtain ⟨c, h1, h2, h3, h4, -⟩ := concrete_code (l := [[1, 0, 0, 0, 0, 0, 0, 0, 0, 0, 0, 0],
      [0, 1, 0, 0, 0, 0, 0, 0, 0, 0, 0, 0], [0, 0, 1, 0, 0, 0, 0, 0, 0, 0, 0, 0],
      [0, 0, 0, 1, 0, 0, 0, 0, 0, 0, 0, 0]]) (n := 6) (k := 2)
    (r := 4) (e := 0) (by decide) (by decide) (by decide) (by unfold IsBinary; decide) (by decide)
    (independent_cert _ (fun j a => if j = a then 1 else 0) (by decide))
    (fun F _ => rank_cert (M := Matrix.of fun (i : Fin 4) (j : Fin 6) => (Arr.ofRows (2 * 6) [[1, 0, 0, 0, 0, 0, 0, 0, 0, 0, 0, 0],
      [0, 1, 0, 0, 0, 0, 0, 0, 0, 0, 0, 0], [0, 0, 1, 0, 0, 0, 0, 0, 0, 0, 0, 0], [0, 0, 0, 1, 0, 0, 0, 0, 0, 0, 0, 0]]).get i j)
      1 (Matrix.of fun i j => if (i : ℕ) = j then 1 else 0) 1 (Matrix.of fun i j => if (i : ℕ) = j then 1 else 0)
      (by decide) (by decide) F)
    (Or.inl rfl)
  obtain ⟨x1, -, z1, -⟩ := C08_logical_operators _ 6 2 c h1 h2 h3
  obtain ⟨e, he⟩ := C22_many_blocks_refuted _ _ 6 2 6 2 none none c c h1 h1 le_rfl (by decide) x1 z1 2 2
    (by rw [h4]; decide) (by decide) (by decide) h2 (Or.inl (by rw [h4]; decide))
  exact ⟨c, e, h1, he⟩

/-- An identity letter: IX with the `[4, 2]` code. -/
example : ∃ c1 c2 : StabCode, stabInit (.rows [[0, 1, 0, 0]]) 2 1 none = .ok c1 ∧
    stabInit (.rows [[1, 1, 1, 1, 0, 0, 0, 0], [0, 0, 0, 0, 1, 1, 1, 1]]) 4 2 none = .ok c2 ∧
    concatenateCodes c1 c2 = .error .unboundLocal := by
  obtain ⟨c1, p1, -, -, p4, -⟩ := concrete_code (l := [[0, 1, 0, 0]]) (n := 2) (k := 1)
    (r := 1) (e := 0) (by decide) (by decide) (by decide) (by unfold IsBinary; decide) (by decide)
    (independent_cert _ (fun j a => if j = 1 ∧ a = 0 then 1 else 0) (by decide))
    (fun F _ => rank_cert (M := Matrix.of fun (i : Fin 1) (j : Fin 2) => (Arr.ofRows (2 * 2) [[0, 1, 0, 0]]).get i j)
      !![1] !![0, 1] !![1] !![0; 1] (by decide) (by decide) F)
    (Or.inl rfl)
  obtain ⟨c2, q1, -⟩ := code422
  exact ⟨c1, c2, p1, q1, C22_identity_letter_refuted _ _ 2 1 4 2 none none c1 c2 p1 q1 (by decide) le_rfl (by decide)
    (by rw [p4]; decide) (by rw [p4]; decide)⟩

end PyQ
