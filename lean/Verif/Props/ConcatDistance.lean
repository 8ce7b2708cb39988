import Verif.Lemmas.ConcatDistance
import Verif.Props.Concat
import Verif.Props.Digitise

/-! # C99: the distance of concatenated codes -/

namespace PyQ

open Spec Module

/-- Distance in terms of the rows of an array. -/
theorem distance_rows {n d : ℕ} {A : Arr ℤ} (hc : A.cols = 2 * n) : DistanceAtLeast n A.rowList d ↔
    ∀ v : BVec n, (∀ i < A.rows, sympV (rowVec n A i) v = 0) → v ∉ rowSpan n A → d ≤ weight (ofVec v) := by
  have hg : groupOf n A.rowList = rowSpan n A := groupOf_rows hc
  have hr : ∀ p : Pauli n, (∀ g ∈ A.rowList, symp (rowPauli n g) p = 0) ↔ ∀ i < A.rows, sympV (rowVec n A i) p.vec = 0 := by
    intro p
    constructor
    · intro h i hi
      rw [← rowPauli_row hc, sympV_vec]
      exact h _ (List.mem_map.mpr ⟨i, List.mem_range.mpr hi, rfl⟩)
    · intro h g hg
      obtain ⟨i, hi, rfl⟩ := mem_rowList hg
      rw [← sympV_vec, rowPauli_row hc]
      exact h i hi
  unfold DistanceAtLeast
  rw [hg]
  constructor
  · intro h v h1 h2
    exact h (ofVec v) ((hr _).mpr h1) h2
  · intro h p h1 h2
    exact h p.vec ((hr p).mp h1) h2

theorem weight_relabel {n : ℕ} (σ : Equiv.Perm (Fin n)) (v : BVec n) : weight (ofVec (relabel σ v)) = weight (ofVec v) := by
  rw [weight_sum, weight_sum]
  exact Equiv.sum_comp σ fun j => if v.1 j ≠ 0 ∨ v.2 j ≠ 0 then 1 else 0

theorem commutes_span {n : ℕ} {A : Arr ℤ} {v : BVec n} :
    (∀ i < A.rows, sympV (rowVec n A i) v = 0) ↔ ∀ w ∈ rowSpan n A, sympV w v = 0 := by
  constructor
  · intro h w hw
    have : rowSpan n A ≤ LinearMap.ker ((sympB n).flip v) := by
      unfold rowSpan
      rw [Submodule.span_le]
      rintro _ ⟨i, rfl⟩
      exact h i i.2
    exact this hw
  · intro h i hi
    exact h _ (Submodule.subset_span ⟨⟨i, hi⟩, rfl⟩)

/-- **C99**.  Bringing the generators of an accepted code to normal form keeps the distance. -/
theorem C99_normal_form (s : StabInput) (n k : ℕ) (lo : Option (Arr ℤ × Arr ℤ)) (c : StabCode) (h : stabInit s n k lo = .ok c)
    (d : ℕ) : DistanceAtLeast n c.iter d ↔ DistanceAtLeast n c.stab.rowList d := by
  obtain ⟨hA, -, -, hN, -⟩ := stabInit_ok h
  have hc := initArray_cols hA
  have hE := (standardNormalForm_equi hc hN).1
  obtain ⟨σ, hσ⟩ := hE.span
  rw [show c.iter = c.normalForm.rowList from rfl, distance_rows (hE.cols.trans hc), distance_rows hc]
  simp only [commutes_span]
  rw [hσ]
  constructor
  · intro hd v h1 h2
    rw [← weight_relabel σ]
    refine hd _ ?_ ?_
    · rintro _ ⟨w, hw, rfl⟩
      exact (sympV_relabel σ w v).trans (h1 w hw)
    · rintro ⟨w, hw, he⟩
      exact h2 ((relabel σ).injective he ▸ hw)
  · intro hd v h1 h2
    obtain ⟨u, rfl⟩ := (relabel σ).surjective v
    rw [weight_relabel]
    refine hd u ?_ fun hu => h2 ⟨u, hu, rfl⟩
    intro w hw
    rw [← sympV_relabel σ]
    exact h1 _ ⟨w, hw, rfl⟩

/-- **C99**.  Let `c1` be an `[n, k]` code and `c2` an `[m, 1]` code with independent generators, and let the first logical X
of `c2` have no Z part and the first logical Z no X part.  If `concatenate_codes` returns a code, its distance is at least the
product of the distances of `c1` and `c2`. -/
theorem C99_distance (s1 s2 : StabInput) (n k m : ℕ) (lo1 lo2 : Option (Arr ℤ × Arr ℤ)) (c1 c2 c : StabCode)
    (h1 : stabInit s1 n k lo1 = .ok c1) (h2 : stabInit s2 m 1 lo2 = .ok c2)
    (hr1 : c1.stab.rows + k = n) (hr2 : c2.stab.rows + 1 = m) (hb1 : BinaryArr c1.stab) (hb2 : BinaryArr c2.stab)
    (hi1 : Independent n c1.stab) (hi2 : Independent m c2.stab)
    (hlx : 0 < c2.logicalX.rows) (hlz : 0 < c2.logicalZ.rows) (hbx : BinaryArr c2.logicalX) (hbz : BinaryArr c2.logicalZ)
    (hcx : c2.logicalX.cols = 2 * m) (hcz : c2.logicalZ.cols = 2 * m)
    (hx : ∀ q < m, c2.logicalX.get 0 (m + q) = 0) (hz : ∀ q < m, c2.logicalZ.get 0 q = 0)
    (hlog : LogicalOf (l := 1) c2.stab.rowList (fun _ => rowVec m c2.logicalX 0) (fun _ => rowVec m c2.logicalZ 0))
    (hc : concatenateCodes c1 c2 = .ok (some c)) (d1 d2 : ℕ)
    (hd1 : DistanceAtLeast n c1.stab.rowList d1) (hd2 : DistanceAtLeast m c2.stab.rowList d2) :
    c.n = n * m ∧ DistanceAtLeast (n * m) c.stab.rowList (d1 * d2) := by
  obtain ⟨gens, g1, -⟩ := C21_generators s1 s2 n k m lo1 lo2 c1 c2 h1 h2 hr1 hr2 hb1 hb2 hlx hlz hbx hbz hcx hcz hx hz hlog
  obtain ⟨A, a1, a2, a3, a4⟩ := C21_code s1 s2 n k m lo1 lo2 c1 c2 h1 h2 hr1 hr2 hb1 hb2 hi1 hi2 hlx hlz hbx hbz
    hcx hcz hx hz hlog
  have hrank : xRankQ (n * m) A = xRank2 (n * m) A := by
    by_contra h
    rw [a4 h] at hc
    cases hc
  obtain ⟨c', e1, e2, -, e4, -⟩ := a3 hrank
  rw [hc] at e1
  obtain rfl : c = c' := by injection e1 with e1; injection e1
  subst e4
  have hsc : stabInit (.rows gens) (n * m) k none = .ok c := by
    rw [hc] at g1
    rcases hs : stabInit (.rows gens) (n * m) k none with e | c0
    · rw [hs] at g1; cases g1
    · rw [hs] at g1
      injection g1 with g1
      injection g1 with g1
      rw [g1]
  have hcc := initArray_cols (stabInit_ok hsc).1
  have hc1 := initArray_cols (stabInit_ok h1).1
  have hc2 := initArray_cols (stabInit_ok h2).1
  refine ⟨e2, ?_⟩
  rw [distance_rows hc1] at hd1
  rw [distance_rows hc2] at hd2
  rw [distance_rows hcc]
  intro v hv hnv
  have hmem : ∀ w, w ∈ ((List.finRange n).flatMap fun b => (List.range c2.stab.rows).map fun j => inBlock b (rowVec m c2.stab j)) ++
        (List.range c1.stab.rows).map (fun i =>
          substituted (l := 1) (fun b _ => (rowVec n c1.stab i).1 b) (fun b _ => (rowVec n c1.stab i).2 b)
            (fun _ => rowVec m c2.logicalX 0) (fun _ => rowVec m c2.logicalZ 0)) →
      ∃ i < c.stab.rows, rowVec (n * m) c.stab i = w := by
    intro w hw
    rw [← a2] at hw
    obtain ⟨i, hi, rfl⟩ := List.mem_map.mp hw
    exact ⟨i, List.mem_range.mp hi, rfl⟩
  have hin : ∀ (b : Fin n) (j : Fin c2.stab.rows), ∃ i < c.stab.rows, rowVec (n * m) c.stab i = inBlock b (rowVec m c2.stab j) :=
    fun b j => hmem _ (List.mem_append_left _ (List.mem_flatMap.mpr ⟨b, List.mem_finRange b,
      List.mem_map.mpr ⟨j, List.mem_range.mpr j.2, rfl⟩⟩))
  have hsub : ∀ i : Fin c1.stab.rows, ∃ t < c.stab.rows,
      rowVec (n * m) c.stab t = substL (rowVec m c2.logicalX 0) (rowVec m c2.logicalZ 0) (rowVec n c1.stab i) := by
    intro i
    rw [substL_eq]
    exact hmem _ (List.mem_append_right _ (List.mem_map.mpr ⟨i, List.mem_range.mpr i.2, rfl⟩))
  have hinner : ∀ j < c2.stab.rows, ∃ g ∈ c2.stab.rowList, (rowPauli m g).vec = rowVec m c2.stab j :=
    fun j hj => ⟨_, List.mem_map.mpr ⟨j, List.mem_range.mpr hj, rfl⟩, rowPauli_row hc2 j⟩
  refine concat_distance (fun j : Fin c2.stab.rows => rowVec m c2.stab j) (rowVec m c2.logicalX 0) (rowVec m c2.logicalZ 0)
    (fun i : Fin c1.stab.rows => rowVec n c1.stab i) hr2 hi2 (fun i j => (stabInit_ok h2).2.1 i i.2 j j.2) ?_ ?_ ?_
    (hlog.XX 0 0) (hlog.ZZ 0 0) (fun q hq => hd1 q fun i hi => hq ⟨i, hi⟩) (fun q hq => hd2 q fun i hi => hq ⟨i, hi⟩)
    (rowSpan (n * m) c.stab) ?_ ?_ v ?_ ?_ hnv
  · intro j
    obtain ⟨g, hg, he⟩ := hinner j j.2
    rw [← he]; exact hlog.commX g hg 0
  · intro j
    obtain ⟨g, hg, he⟩ := hinner j j.2
    rw [← he]; exact hlog.commZ g hg 0
  · rw [hlog.XZ 0 0, if_pos rfl]
  · intro b j
    obtain ⟨i, hi, he⟩ := hin b j
    rw [← he]
    exact Submodule.subset_span ⟨⟨i, hi⟩, rfl⟩
  · intro j
    obtain ⟨i, hi, he⟩ := hsub j
    rw [← he]
    exact Submodule.subset_span ⟨⟨i, hi⟩, rfl⟩
  · intro b j
    obtain ⟨i, hi, he⟩ := hin b j
    rw [← he]
    exact hv i hi
  · intro j
    obtain ⟨i, hi, he⟩ := hsub j
    rw [← he]
    exact hv i hi

theorem dotp_joined {n m : ℕ} (f : Fin n → BVec m) : dotp (joined f).2 (joined f).1 = ∑ b, dotp (f b).2 (f b).1 := by
  unfold dotp
  exact sum_blocksF fun b q => (f b).2 q * (f b).1 q

/-- **C99**.  In the same situation, let the generators of both codes have even numbers of Y's.  Then one table of corrections
for the returned code undoes all noise on at most `t` qubits, for every `t` with `2 t` less than the product of the
distances. -/
theorem C99_corrects (s1 s2 : StabInput) (n k m : ℕ) (lo1 lo2 : Option (Arr ℤ × Arr ℤ)) (c1 c2 c : StabCode)
    (h1 : stabInit s1 n k lo1 = .ok c1) (h2 : stabInit s2 m 1 lo2 = .ok c2)
    (hr1 : c1.stab.rows + k = n) (hr2 : c2.stab.rows + 1 = m) (hb1 : BinaryArr c1.stab) (hb2 : BinaryArr c2.stab)
    (hi1 : Independent n c1.stab) (hi2 : Independent m c2.stab)
    (hlx : 0 < c2.logicalX.rows) (hlz : 0 < c2.logicalZ.rows) (hbx : BinaryArr c2.logicalX) (hbz : BinaryArr c2.logicalZ)
    (hcx : c2.logicalX.cols = 2 * m) (hcz : c2.logicalZ.cols = 2 * m)
    (hx : ∀ q < m, c2.logicalX.get 0 (m + q) = 0) (hz : ∀ q < m, c2.logicalZ.get 0 q = 0)
    (hlog : LogicalOf (l := 1) c2.stab.rowList (fun _ => rowVec m c2.logicalX 0) (fun _ => rowVec m c2.logicalZ 0))
    (hc : concatenateCodes c1 c2 = .ok (some c)) (d1 d2 : ℕ)
    (hd1 : DistanceAtLeast n c1.stab.rowList d1) (hd2 : DistanceAtLeast m c2.stab.rowList d2)
    (hY1 : ∀ a < c1.stab.rows, parityY (rowPauli n (c1.stab.row a)) = 0)
    (hY2 : ∀ a < c2.stab.rows, parityY (rowPauli m (c2.stab.row a)) = 0) (t : ℕ) (ht : 2 * t < d1 * d2) :
    ∃ table : List (ZMod 2) → List ℤ, (∀ rs, (table rs).length = 2 * c.n ∧ IsBinary (table rs)) ∧
      UndoesNoise c k {A | ∃ T : Finset (Fin c.n), T.card ≤ t ∧ ActsOn T A} table := by
  obtain ⟨hn, hd⟩ := C99_distance s1 s2 n k m lo1 lo2 c1 c2 c h1 h2 hr1 hr2 hb1 hb2 hi1 hi2 hlx hlz hbx hbz hcx hcz hx hz hlog
    hc d1 d2 hd1 hd2
  obtain ⟨gens, g1, -⟩ := C21_generators s1 s2 n k m lo1 lo2 c1 c2 h1 h2 hr1 hr2 hb1 hb2 hlx hlz hbx hbz hcx hcz hx hz hlog
  obtain ⟨A, a1, a2, a3, a4⟩ := C21_code s1 s2 n k m lo1 lo2 c1 c2 h1 h2 hr1 hr2 hb1 hb2 hi1 hi2 hlx hlz hbx hbz
    hcx hcz hx hz hlog
  have hrank : xRankQ (n * m) A = xRank2 (n * m) A := by
    by_contra h
    rw [a4 h] at hc
    cases hc
  obtain ⟨c', e1, e2, -, e4, e5, e6⟩ := a3 hrank
  rw [hc] at e1
  obtain rfl : c = c' := by injection e1 with e1; injection e1
  subst e4
  have hsc : stabInit (.rows gens) (n * m) k none = .ok c := by
    rw [hc] at g1
    rcases hs : stabInit (.rows gens) (n * m) k none with e | c0
    · rw [hs] at g1; cases g1
    · rw [hs] at g1
      injection g1 with g1
      injection g1 with g1
      rw [g1]
  have hcc := initArray_cols (stabInit_ok hsc).1
  have hc1 := initArray_cols (stabInit_ok h1).1
  have hc2 := initArray_cols (stabInit_ok h2).1
  have hY : ∀ a < c.stab.rows, parityY (rowPauli (n * m) (c.stab.row a)) = 0 := by
    intro a ha
    have hpar : ∀ {N : ℕ} (A : Arr ℤ), A.cols = 2 * N → ∀ i, parityY (rowPauli N (A.row i)) =
        dotp (rowVec N A i).2 (rowVec N A i).1 := by
      intro N A hA i
      rw [← rowPauli_row hA]; rfl
    rw [hpar _ hcc]
    have hmem : rowVec (n * m) c.stab a ∈ (List.range c.stab.rows).map (rowVec (n * m) c.stab) :=
      List.mem_map.mpr ⟨a, List.mem_range.mpr ha, rfl⟩
    rw [a2] at hmem
    rcases List.mem_append.mp hmem with h | h
    · obtain ⟨b, -, h⟩ := List.mem_flatMap.mp h
      obtain ⟨j, hj, h⟩ := List.mem_map.mp h
      rw [← h]
      unfold inBlock
      rw [dotp_joined, Finset.sum_eq_zero]
      intro b' _
      split_ifs
      · rw [← hpar _ hc2]; exact hY2 j (List.mem_range.mp hj)
      · unfold dotp; simp
    · obtain ⟨i, hi, h⟩ := List.mem_map.mp h
      rw [← h, ← substL_eq, ← hY1 i (List.mem_range.mp hi), hpar _ hc1]
      rw [show substL (rowVec m c2.logicalX 0) (rowVec m c2.logicalZ 0) (rowVec n c1.stab i) =
        joined (fun b => (rowVec n c1.stab i).1 b • rowVec m c2.logicalX 0 + (rowVec n c1.stab i).2 b • rowVec m c2.logicalZ 0) from rfl,
        dotp_joined]
      have hx0 : (rowVec m c2.logicalX 0).2 = 0 := by
        funext q
        show ((c2.logicalX.get 0 (m + q) : ℤ) : ZMod 2) = 0
        rw [hx q q.2, Int.cast_zero]
      have hz0 : (rowVec m c2.logicalZ 0).1 = 0 := by
        funext q
        show ((c2.logicalZ.get 0 q : ℤ) : ZMod 2) = 0
        rw [hz q q.2, Int.cast_zero]
      have hXZ := hlog.XZ 0 0
      rw [if_pos rfl] at hXZ
      unfold sympV at hXZ
      rw [hx0] at hXZ
      unfold dotp at hXZ ⊢
      simp only [Pi.zero_apply, zero_mul, Finset.sum_const_zero, add_zero] at hXZ
      refine Finset.sum_congr rfl fun b _ => ?_
      simp only [Prod.snd_add, Prod.fst_add, Prod.smul_snd, Prod.smul_fst, hx0, hz0, smul_zero, zero_add, add_zero, Pi.smul_apply,
        smul_eq_mul]
      rw [← mul_one ((rowVec n c1.stab i).2 b * (rowVec n c1.stab i).1 b), ← hXZ, Finset.mul_sum]
      exact Finset.sum_congr rfl fun q _ => by ring
  refine C98_local (.rows gens) k c (by rw [hn]; exact hsc) e5 (by rw [hn]; exact e6) (by rw [hn]; exact hY) t ?_
  rw [hn]
  intro p hp hcom
  by_contra hcon
  have := (C99_normal_form _ _ _ _ c hsc _).mpr hd p hcom hcon
  omega

/-! ### A case that meets the hypotheses -/

/-- XXXX, ZZII and IIZZ. -/
def rows412 : List (List ℤ) := [[1, 1, 1, 1, 0, 0, 0, 0], [0, 0, 0, 0, 1, 1, 0, 0], [0, 0, 0, 0, 0, 0, 1, 1]]

theorem code412 : ∃ c, stabInit (.rows rows412) 4 1 none = .ok c ∧
    BinaryArr c.stab ∧ Independent 4 c.stab ∧ c.stab = Arr.ofRows 8 rows412 ∧
    c.logicalX.row 0 = [0, 0, 1, 1, 0, 0, 0, 0] ∧ c.logicalZ.row 0 = [0, 0, 0, 0, 1, 0, 0, 1] := by
  obtain ⟨c, h1, h2, h3, h4, h5, h6⟩ := concrete_code (l := rows412) (n := 4) (k := 1)
    (r := 1) (e := 2) (by decide) (by decide) (by decide) (by unfold IsBinary; decide) (by decide)
    (independent_cert _ (fun j a => if j = 0 ∧ a = 0 ∨ j = 4 ∧ a = 1 ∨ j = 6 ∧ a = 2 then 1 else 0) (by decide))
    (fun F _ => rank_cert (M := Matrix.of fun (i : Fin 3) (j : Fin 4) => (Arr.ofRows (2 * 4) rows412).get i j)
      !![1; 0; 0] !![1, 1, 1, 1] !![1, 0, 0] !![1; 0; 0; 0] (by decide) (by decide) F)
    (Or.inr (rank_cert (M := Matrix.of fun (i : Fin 2) (j : Fin 3) =>
        ((firstBlock 4 1 (Arr.ofRows (2 * 4) rows412)).slice 1 3 (4 + 1) (2 * 4)).get i j)
      !![1, 0; 0, 1] !![1, 0, 0; 0, 1, 1] !![1, 0; 0, 1] !![1, 0; 0, 1; 0, 0] (by decide) (by decide) ℚ))
  rw [if_neg (by decide)] at h6
  obtain ⟨-, hX, hZ⟩ := accepted_logical h1 h2 h3
  refine ⟨c, h1, h2, h3, h4, ?_⟩
  rw [hX, hZ, h5, h6]
  decide

theorem distance412 : DistanceAtLeast 4 rows412 2 := by
  intro p h1 h2
  have hfin : ∀ x z : Fin 4 → ZMod 2, (∀ g ∈ rows412, symp (rowPauli 4 g) ⟨x, z⟩ = 0) → 2 ≤ weight ⟨x, z⟩ ∨ x = 0 ∧ z = 0 := by
    decide +kernel
  rcases hfin p.x p.z h1 with h | ⟨hx, hz⟩
  · exact h
  · exact absurd (show p.vec ∈ _ from (Prod.ext hx hz : p.vec = 0) ▸ Submodule.zero_mem _) h2

theorem distance422 : DistanceAtLeast 4 [[1, 1, 1, 1, 0, 0, 0, 0], [0, 0, 0, 0, 1, 1, 1, 1]] 2 := by
  intro p h1 h2
  have hfin : ∀ x z : Fin 4 → ZMod 2, (∀ g ∈ ([[1, 1, 1, 1, 0, 0, 0, 0], [0, 0, 0, 0, 1, 1, 1, 1]] : List (List ℤ)),
      symp (rowPauli 4 g) ⟨x, z⟩ = 0) → 2 ≤ weight ⟨x, z⟩ ∨ x = 0 ∧ z = 0 := by
    decide +kernel
  rcases hfin p.x p.z h1 with h | ⟨hx, hz⟩
  · exact h
  · exact absurd (show p.vec ∈ _ from (Prod.ext hx hz : p.vec = 0) ▸ Submodule.zero_mem _) h2

/-- The generators of the concatenated code: XXXX, ZZII and IIZZ on each of the four blocks, then IIXX on all blocks and ZIIZ
on all blocks. -/
def rows16 : List (List ℤ) :=
  [
    [1, 1, 1, 1, 0, 0, 0, 0, 0, 0, 0, 0, 0, 0, 0, 0, 0, 0, 0, 0, 0, 0, 0, 0, 0, 0, 0, 0, 0, 0, 0, 0],
    [0, 0, 0, 0, 0, 0, 0, 0, 0, 0, 0, 0, 0, 0, 0, 0, 1, 1, 0, 0, 0, 0, 0, 0, 0, 0, 0, 0, 0, 0, 0, 0],
    [0, 0, 0, 0, 0, 0, 0, 0, 0, 0, 0, 0, 0, 0, 0, 0, 0, 0, 1, 1, 0, 0, 0, 0, 0, 0, 0, 0, 0, 0, 0, 0],
    [0, 0, 0, 0, 1, 1, 1, 1, 0, 0, 0, 0, 0, 0, 0, 0, 0, 0, 0, 0, 0, 0, 0, 0, 0, 0, 0, 0, 0, 0, 0, 0],
    [0, 0, 0, 0, 0, 0, 0, 0, 0, 0, 0, 0, 0, 0, 0, 0, 0, 0, 0, 0, 1, 1, 0, 0, 0, 0, 0, 0, 0, 0, 0, 0],
    [0, 0, 0, 0, 0, 0, 0, 0, 0, 0, 0, 0, 0, 0, 0, 0, 0, 0, 0, 0, 0, 0, 1, 1, 0, 0, 0, 0, 0, 0, 0, 0],
    [0, 0, 0, 0, 0, 0, 0, 0, 1, 1, 1, 1, 0, 0, 0, 0, 0, 0, 0, 0, 0, 0, 0, 0, 0, 0, 0, 0, 0, 0, 0, 0],
    [0, 0, 0, 0, 0, 0, 0, 0, 0, 0, 0, 0, 0, 0, 0, 0, 0, 0, 0, 0, 0, 0, 0, 0, 1, 1, 0, 0, 0, 0, 0, 0],
    [0, 0, 0, 0, 0, 0, 0, 0, 0, 0, 0, 0, 0, 0, 0, 0, 0, 0, 0, 0, 0, 0, 0, 0, 0, 0, 1, 1, 0, 0, 0, 0],
    [0, 0, 0, 0, 0, 0, 0, 0, 0, 0, 0, 0, 1, 1, 1, 1, 0, 0, 0, 0, 0, 0, 0, 0, 0, 0, 0, 0, 0, 0, 0, 0],
    [0, 0, 0, 0, 0, 0, 0, 0, 0, 0, 0, 0, 0, 0, 0, 0, 0, 0, 0, 0, 0, 0, 0, 0, 0, 0, 0, 0, 1, 1, 0, 0],
    [0, 0, 0, 0, 0, 0, 0, 0, 0, 0, 0, 0, 0, 0, 0, 0, 0, 0, 0, 0, 0, 0, 0, 0, 0, 0, 0, 0, 0, 0, 1, 1],
    [0, 0, 1, 1, 0, 0, 1, 1, 0, 0, 1, 1, 0, 0, 1, 1, 0, 0, 0, 0, 0, 0, 0, 0, 0, 0, 0, 0, 0, 0, 0, 0],
    [0, 0, 0, 0, 0, 0, 0, 0, 0, 0, 0, 0, 0, 0, 0, 0, 1, 0, 0, 1, 1, 0, 0, 1, 1, 0, 0, 1, 1, 0, 0, 1]]

/-- A binary row is determined by its operator. -/
theorem row_of_vec {n : ℕ} {r r' : List ℤ} (h : r.length = 2 * n) (h' : r'.length = 2 * n) (hb : IsBinary r) (hb' : IsBinary r')
    (he : (rowPauli n r).vec = (rowPauli n r').vec) : r = r' := by
  have hinj : ∀ a b : ℤ, (a = 0 ∨ a = 1) → (b = 0 ∨ b = 1) → ((a : ℤ) : ZMod 2) = ((b : ℤ) : ZMod 2) → a = b := by
    rintro a b (rfl | rfl) (rfl | rfl) <;> decide
  apply List.ext_getElem (h.trans h'.symm)
  intro i hi hi'
  refine hinj _ _ (hb _ (List.getElem_mem hi)) (hb' _ (List.getElem_mem hi')) ?_
  by_cases hin : i < n
  · have := congrFun (congrArg Prod.fst he) ⟨i, hin⟩
    simp only [rowPauli, Pauli.vec] at this
    rwa [List.getD_eq_getElem _ _ hi, List.getD_eq_getElem _ _ hi'] at this
  · have := congrFun (congrArg Prod.snd he) ⟨i - n, by omega⟩
    simp only [rowPauli, Pauli.vec] at this
    rw [show n + (i - n) = i by omega] at this
    rwa [List.getD_eq_getElem _ _ hi, List.getD_eq_getElem _ _ hi'] at this

theorem rows_of_vecs {n : ℕ} {l l' : List (List ℤ)} (h : ∀ r ∈ l, r.length = 2 * n ∧ IsBinary r)
    (h' : ∀ r ∈ l', r.length = 2 * n ∧ IsBinary r)
    (he : l.map (fun r => (rowPauli n r).vec) = l'.map (fun r => (rowPauli n r).vec)) : l = l' := by
  have hlen : l.length = l'.length := by simpa using congrArg List.length he
  apply List.ext_getElem hlen
  intro i hi hi'
  have h1 := h _ (List.getElem_mem hi)
  have h2 := h' _ (List.getElem_mem hi')
  refine row_of_vec h1.1 h2.1 h1.2 h2.2 ?_
  have := List.getElem_of_eq he (by simpa using hi)
  simpa using this

/-- **C99**, an instance: XXXX and ZZZZ concatenated with XXXX, ZZII and IIZZ give an accepted code on sixteen qubits with two
logical qubits, and one table of corrections undoes all noise on one of its qubits.  The first code alone has no
such table (`C73_four_qubits`). -/
theorem C99_sixteen_qubits : ∃ c1 c2 c : StabCode,
    stabInit (.rows [[1, 1, 1, 1, 0, 0, 0, 0], [0, 0, 0, 0, 1, 1, 1, 1]]) 4 2 none = .ok c1 ∧
    stabInit (.rows rows412) 4 1 none = .ok c2 ∧ concatenateCodes c1 c2 = .ok (some c) ∧ c.n = 16 ∧
    DistanceAtLeast 16 c.stab.rowList 4 ∧
    ∃ table : List (ZMod 2) → List ℤ, (∀ rs, (table rs).length = 2 * c.n ∧ IsBinary (table rs)) ∧
      UndoesNoise c 2 {A | ∃ T : Finset (Fin c.n), T.card ≤ 1 ∧ ActsOn T A} table := by
  obtain ⟨c1, p1, p2, p3, -, p4, p5, p6, -⟩ := code422
  obtain ⟨c2, q1, q2, q3, q4, qx, qz⟩ := code412
  obtain ⟨x1, x2, z1, z2, xb, zb, -⟩ := C08_logical_operators _ 4 1 c2 q1 q2 q3
  have hc1 := initArray_cols (stabInit_ok p1).1
  have hl1 : c1.stab.rowList = [[1, 1, 1, 1, 0, 0, 0, 0], [0, 0, 0, 0, 1, 1, 1, 1]] := by
    unfold Arr.rowList
    rw [p4]
    simp only [List.range_succ, List.range_zero, List.nil_append, List.map_append, List.map_cons, List.map_nil]
    rw [p5, p6]; rfl
  have hl2 : c2.stab.rowList = rows412 := by rw [q4]; decide
  have gx : ∀ j < 8, c2.logicalX.get 0 j = [0, 0, 1, 1, 0, 0, 0, 0].getD j 0 := by
    intro j hj
    rw [← qx]
    simp [Arr.row, x2, hj]
  have gz : ∀ j < 8, c2.logicalZ.get 0 j = [0, 0, 0, 0, 1, 0, 0, 1].getD j 0 := by
    intro j hj
    rw [← qz]
    simp [Arr.row, z2, hj]
  have hx : ∀ q < 4, c2.logicalX.get 0 (4 + q) = 0 := by
    intro q hq; rw [gx _ (by omega)]; interval_cases q <;> rfl
  have hz : ∀ q < 4, c2.logicalZ.get 0 q = 0 := by
    intro q hq; rw [gz _ (by omega)]; interval_cases q <;> rfl
  have hlog : LogicalOf (l := 1) c2.stab.rowList (fun _ => rowVec 4 c2.logicalX 0) (fun _ => rowVec 4 c2.logicalZ 0) := by
    rw [hl2, ← rowPauli_row x2, ← rowPauli_row z2, qx, qz]
    constructor <;> decide
  have hr1 : c1.stab.rows + 2 = 4 := by rw [p4]
  have hr2 : c2.stab.rows + 1 = 4 := by rw [q4]; rfl
  obtain ⟨gens, g1, g2, g3, g4, g5, g6⟩ := C21_generators _ _ 4 2 4 none none c1 c2 p1 q1 hr1 hr2 p2 q2
    (by omega) (by omega) xb zb x2 z2 hx hz hlog
  have hgens : gens = rows16 := by
    refine rows_of_vecs (n := 16) g3 (by unfold IsBinary; decide +kernel) ?_
    refine g4.trans ?_
    rw [p4, q4, ← rowPauli_row x2, ← rowPauli_row z2, qx, qz]
    simp only [← rowPauli_row hc1, List.range_succ, List.range_zero, List.nil_append, List.map_append, List.map_cons,
      List.map_nil, p5, p6]
    decide +kernel
  subst hgens
  have hrank : ∀ (F : Type) [Field F], (Matrix.of fun (i : Fin 14) (j : Fin 16) =>
      (((Arr.ofRows (2 * 16) rows16).get i j : ℤ) : F)).rank = 5 := fun F _ =>
    rank_cert (M := Matrix.of fun (i : Fin 14) (j : Fin 16) => (Arr.ofRows (2 * 16) rows16).get i j)
      (Matrix.of fun i a => if (i : ℕ) = 3 * a then 1 else 0)
      (Matrix.of fun a j => (Arr.ofRows (2 * 16) rows16).get (3 * a) j)
      (Matrix.of fun a i => if (i : ℕ) = 3 * a then 1 else 0)
      (Matrix.of fun j a => if (a : ℕ) = 4 then (if (j : ℕ) = 2 then 1 else if (j : ℕ) = 0 then -1 else 0) else
        if (j : ℕ) = 4 * a then 1 else 0) (by decide +kernel) (by decide +kernel) F
  obtain ⟨c, hc⟩ := (C10_array_accepted_iff_partial rows16 16 2 (by decide) (fun r hr => (g3 r hr).1) g2
    (fun r hr => (g3 r hr).2) g5 (g6 p3 q3)).1 ((hrank ℚ).trans (hrank (ZMod 2)).symm)
  have hcc : concatenateCodes c1 c2 = .ok (some c) := by
    rw [g1]
    exact congrArg (Except.map some) hc
  have hd1 : DistanceAtLeast 4 c1.stab.rowList 2 := by rw [hl1]; exact distance422
  have hd2 : DistanceAtLeast 4 c2.stab.rowList 2 := by rw [hl2]; exact distance412
  obtain ⟨hn, hd⟩ := C99_distance _ _ 4 2 4 none none c1 c2 c p1 q1 hr1 hr2 p2 q2 p3 q3 (by omega) (by omega) xb zb x2 z2 hx hz
    hlog hcc 2 2 hd1 hd2
  refine ⟨c1, c2, c, p1, q1, hcc, hn, hd, ?_⟩
  refine C99_corrects _ _ 4 2 4 none none c1 c2 c p1 q1 hr1 hr2 p2 q2 p3 q3 (by omega) (by omega) xb zb x2 z2 hx hz
    hlog hcc 2 2 hd1 hd2 ?_ ?_ 1 (by decide)
  · intro a ha
    rw [p4] at ha
    interval_cases a
    · rw [p5]; decide
    · rw [p6]; decide
  · rw [q4]
    decide

end PyQ
