import Verif.Model.Normalizer
import Verif.Props.EndToEnd
import Verif.Props.PauliConv

/-! # C64, C65: the normalizer, the undetectable errors and the Pauli generators -/

namespace PyQ

open Spec Module

/-! ## The enumeration -/

theorem mem_productBits {m : ℕ} {b : List ℤ} : b ∈ productBits m ↔ b.length = m ∧ IsBinary b := by
  induction m generalizing b with
  | zero =>
    simp only [productBits, List.mem_singleton, List.length_eq_zero_iff]
    constructor
    · rintro rfl; exact ⟨rfl, fun v hv => by simp at hv⟩
    · exact fun h => h.1
  | succ m ih =>
    simp only [productBits, List.mem_flatMap, List.mem_map, ih]
    constructor
    · rintro ⟨v, hv, b', ⟨h1, h2⟩, rfl⟩
      refine ⟨by simp [h1], fun w hw => ?_⟩
      rcases List.mem_cons.mp hw with rfl | hw
      · simpa using hv
      · exact h2 w hw
    · rintro ⟨h1, h2⟩
      obtain ⟨v, b', rfl⟩ := List.exists_cons_of_length_eq_add_one h1
      exact ⟨v, by simpa using h2 v (by simp), b', ⟨by simpa using h1, fun w hw => h2 w (by simp [hw])⟩, rfl⟩

theorem nodup_productBits (m : ℕ) : (productBits m).Nodup := by
  induction m with
  | zero => simp [productBits]
  | succ m ih =>
    simp only [productBits, List.flatMap_cons, List.flatMap_nil, List.append_nil]
    refine List.Nodup.append (ih.map fun a b h => (List.cons.inj h).2) (ih.map fun a b h => (List.cons.inj h).2) ?_
    intro x hx hy
    obtain ⟨a, -, rfl⟩ := List.mem_map.mp hx
    obtain ⟨b, -, hb⟩ := List.mem_map.mp hy
    exact absurd (List.cons.inj hb).1 (by norm_num)

theorem foldlM_filter {l : List (List ℤ)} {f : List ℤ → Except PyErr Bool} {g : List ℤ → Bool}
    (h : ∀ r ∈ l, f r = .ok (g r)) (acc : List (List ℤ)) :
    l.foldlM (fun acc p => do let ok ← f p; return if ok then acc ++ [p] else acc) acc = .ok (acc ++ l.filter g) := by
  induction l generalizing acc with
  | nil => simp
  | cons r l ih =>
    rw [foldlM_cons_except, h r (by simp)]
    refine (ih (fun r hr => h r (by simp [hr])) _).trans ?_
    cases hg : g r <;> simp [hg]

/-- **C64 is false of the code.**  On every object that the constructor returns, `normalizer` and `undetectable_errors`
raise `AttributeError`. -/
theorem C64_normalizer_refuted (s : StabInput) (n k : ℕ) (lo : Option (Arr ℤ × Arr ℤ)) (c : StabCode)
    (h : stabInit s n k lo = .ok c) :
    normalizer c = .error .attribute ∧ undetectableErrors c = .error .attribute := by
  have hp := initArray_rows_pos (stabInit_ok h).1
  have hN : ∀ c : StabCode, 0 < c.stab.rows → normalizerWith (fun _ _ => .error .attribute) c = .error .attribute := by
    intro c hc
    unfold normalizerWith
    obtain ⟨b, l, hb⟩ : ∃ b l, productBits (2 * c.n) = b :: l := by
      have : List.replicate (2 * c.n) (0 : ℤ) ∈ productBits (2 * c.n) :=
        mem_productBits.mpr ⟨by simp, fun v hv => .inl (List.eq_of_mem_replicate hv)⟩
      cases hL : productBits (2 * c.n) with
      | nil => rw [hL] at this; simp at this
      | cons b l => exact ⟨b, l, rfl⟩
    obtain ⟨m, hm⟩ : ∃ m, c.stab.rows = m + 1 := ⟨c.stab.rows - 1, by omega⟩
    rw [hb, foldlM_cons_except]
    have : commutesAll (fun _ _ => .error .attribute) ((List.range c.stab.rows).map c.stab.row) b = .error .attribute := by
      rw [hm, List.range_succ_eq_map]; rfl
    rw [this]; rfl
  refine ⟨hN c hp, ?_⟩
  unfold undetectableErrors undetectableWith
  rw [hN c hp]; rfl

/-- **C64**, the part that holds once the two missing methods are supplied (`_commute` by `inner_prod`, the conversion by
`binary_rep_to_pauli_str`): `normalizer` lists, without repetition, exactly the 0/1 rows whose operator commutes with
every generator, and `undetectable_errors` exactly the Pauli strings with this property.  What is missing: the documented
set `N(S) - S` leaves out the stabilizer group, see `C64_contains_group`. -/
theorem C64_repaired_partial (s : StabInput) (n k : ℕ) (lo : Option (Arr ℤ × Arr ℤ)) (c : StabCode)
    (h : stabInit s n k lo = .ok c) :
    ∃ L strs, normalizerWith commuteByInnerProd c = .ok L ∧
      undetectableWith commuteByInnerProd binaryRepToPauliStr c = .ok strs ∧
      L.Nodup ∧ strs.Nodup ∧
      (∀ b, b ∈ L ↔ b.length = 2 * n ∧ IsBinary b ∧
        ∀ i < c.stab.rows, symp (rowPauli n (c.stab.row i)) (rowPauli n b) = 0) ∧
      ∀ e, e ∈ strs ↔ e.length = n ∧ IsPauliString e ∧
        ∀ i < c.stab.rows, symp (rowPauli n (c.stab.row i)) (rowPauli n (stringRow e)) = 0 := by
  obtain ⟨hA, -, -, -, hn, -⟩ := stabInit_ok h
  have hcols := initArray_cols hA
  classical
  set good : List ℤ → Bool := fun b => decide (∀ i < c.stab.rows, symp (rowPauli n (c.stab.row i)) (rowPauli n b) = 0)
    with hgood
  have hcomm : ∀ i, ∀ b : List ℤ, b.length = 2 * n → commuteByInnerProd (c.stab.row i) b =
      .ok (decide (symp (rowPauli n (c.stab.row i)) (rowPauli n b) = 0)) := by
    intro i b hb
    obtain ⟨v, hv, h01, hs⟩ := innerProd_spec (n := n) (p := c.stab.row i) (q := b) (by simp [Arr.row, hcols]) hb
    unfold commuteByInnerProd
    rw [hv, ← hs]
    rcases h01 with rfl | rfl <;> simp
  have hN : normalizerWith commuteByInnerProd c = .ok ((productBits (2 * n)).filter good) := by
    unfold normalizerWith
    rw [hn]
    have := foldlM_filter (l := productBits (2 * n))
      (f := commutesAll commuteByInnerProd ((List.range c.stab.rows).map c.stab.row)) (g := good) ?_ []
    · simpa using this
    · intro b hb
      have hl := (mem_productBits.mp hb).1
      unfold commutesAll
      rw [allM_ok (g := fun r => decide (symp (rowPauli n r) (rowPauli n b) = 0))]
      · congr 1
        rw [Bool.eq_iff_iff]
        simp [hgood]
      · intro r hr
        obtain ⟨i, -, rfl⟩ := List.mem_map.mp hr
        exact hcomm i b hl
  have hmem : ∀ b, b ∈ (productBits (2 * n)).filter good ↔ b.length = 2 * n ∧ IsBinary b ∧
      ∀ i < c.stab.rows, symp (rowPauli n (c.stab.row i)) (rowPauli n b) = 0 := by
    intro b
    rw [List.mem_filter, mem_productBits]
    simp [hgood, and_assoc]
  -- conversion of each row
  have hconv : ∀ b ∈ (productBits (2 * n)).filter good, ∃ e, binaryRepToPauliStr b = .ok e ∧ e.length = n ∧
      IsPauliString e ∧ stringRow e = b := by
    intro b hb
    obtain ⟨h1, h2, -⟩ := (hmem b).mp hb
    obtain ⟨e, x1, x2, x3, x4⟩ := C01_binary_roundtrip n b h1 h2
    refine ⟨e, x1, x2, x3, ?_⟩
    rw [pauliStr_rows (n := n) (by simp) (by simpa using x2) (by simpa using x3)] at x4
    simpa using x4
  choose! f hf using hconv
  have hU : undetectableWith commuteByInnerProd binaryRepToPauliStr c =
      .ok (((productBits (2 * n)).filter good).map f) := by
    unfold undetectableWith
    rw [hN]
    exact mapM_ok_of fun b hb => (hf b hb).1
  have hnd : ((productBits (2 * n)).filter good).Nodup := (nodup_productBits _).filter _
  refine ⟨_, _, hN, hU, hnd, ?_, hmem, ?_⟩
  · refine hnd.map_on ?_
    intro a ha b hb hab
    rw [← (hf a ha).2.2.2, ← (hf b hb).2.2.2, hab]
  · intro e
    rw [List.mem_map]
    constructor
    · rintro ⟨b, hb, rfl⟩
      obtain ⟨-, x2, x3, x4⟩ := hf b hb
      refine ⟨x2, x3, ?_⟩
      rw [x4]; exact ((hmem b).mp hb).2.2
    · rintro ⟨x2, x3, x4⟩
      have hl : (stringRow e).length = 2 * n := by simp [stringRow, x2]; omega
      have hbin : IsBinary (stringRow e) := by
        intro v hv
        unfold stringRow at hv
        rcases List.mem_append.mp hv with hv | hv <;> obtain ⟨ch, -, rfl⟩ := List.mem_map.mp hv <;>
          (unfold bits; split_ifs <;> simp)
      have hb := (hmem _).mpr ⟨hl, hbin, x4⟩
      refine ⟨stringRow e, hb, ?_⟩
      obtain ⟨y1, y2, y3, y4⟩ := hf _ hb
      obtain ⟨rows, z1, -, -, z4⟩ := C01_string_roundtrip n [e] (by simp) (by simpa using x2) (by simpa using x3)
      rw [pauliStr_rows (n := n) (by simp) (by simpa using x2) (by simpa using x3)] at z1
      cases z1
      rw [List.map_singleton, mapM_cons_except, y1] at z4
      have z5 : (Except.ok [f (stringRow e)] : Except PyErr _) = .ok [e] := z4
      simpa using z5

/-- **C64**, what the repaired function still gets wrong: its list contains every 0/1 row of the stabilizer group, the
identity among them, and not only the undetectable errors `N(S) - S`. -/
theorem C64_contains_group (s : StabInput) (n k : ℕ) (lo : Option (Arr ℤ × Arr ℤ)) (c : StabCode)
    (h : stabInit s n k lo = .ok c) (b : List ℤ) (hl : b.length = 2 * n) (hb : IsBinary b)
    (hg : (rowPauli n b).vec ∈ rowSpan n c.stab) :
    ∃ L, normalizerWith commuteByInnerProd c = .ok L ∧ b ∈ L := by
  obtain ⟨L, -, hL, -, -, -, hm, -⟩ := C64_repaired_partial s n k lo c h
  refine ⟨L, hL, (hm b).mpr ⟨hl, hb, fun i hi => ?_⟩⟩
  obtain ⟨hA, hcom, -⟩ := stabInit_ok h
  rw [← sympV_vec, rowPauli_row (initArray_cols hA)]
  generalize (rowPauli n b).vec = v at hg
  unfold rowSpan at hg
  induction hg using Submodule.span_induction with
  | zero => exact sympV_zero_right _
  | add u w _ _ h1 h2 => rw [sympV_add_right, h1, h2, add_zero]
  | smul a u _ h1 => rw [sympV_smul_right, h1, mul_zero]
  | mem u hu => obtain ⟨j, rfl⟩ := hu; exact hcom i hi j j.2

/-- The row of a vector. -/
def vecRow {n : ℕ} (v : BVec n) : List ℤ := bitsList v.1 ++ bitsList v.2

theorem vecRow_length {n : ℕ} (v : BVec n) : (vecRow v).length = 2 * n := by simp [vecRow, bitsList]; omega

theorem vecRow_binary {n : ℕ} (v : BVec n) : IsBinary (vecRow v) := by
  have key : ∀ a : ZMod 2, ((a.val : ℕ) : ℤ) = 0 ∨ ((a.val : ℕ) : ℤ) = 1 := by decide
  intro w hw
  unfold vecRow bitsList at hw
  rcases List.mem_append.mp hw with hw | hw <;> obtain ⟨i, rfl⟩ := (List.mem_ofFn' _ _).mp hw <;> exact key _

theorem rowPauli_vecRow {n : ℕ} (v : BVec n) : (rowPauli n (vecRow v)).vec = v := by
  have h1 : ∀ j : Fin n, (vecRow v).getD j 0 = (((v.1 j).val : ℕ) : ℤ) := by
    intro j
    unfold vecRow
    rw [List.getD_append _ _ _ _ (by simp [bitsList])]
    simp [bitsList]
  have h2 : ∀ j : Fin n, (vecRow v).getD (n + j) 0 = (((v.2 j).val : ℕ) : ℤ) := by
    intro j
    unfold vecRow
    rw [List.getD_append_right _ _ _ _ (by simp [bitsList])]
    simp [bitsList]
  refine Prod.ext (funext fun j => ?_) (funext fun j => ?_)
  · change (((vecRow v).getD j 0 : ℤ) : ZMod 2) = _
    rw [h1]; simp
  · change (((vecRow v).getD (n + j) 0 : ℤ) : ZMod 2) = _
    rw [h2]; simp

theorem binary_inj {a b : ℤ} (ha : a = 0 ∨ a = 1) (hb : b = 0 ∨ b = 1) (h : (a : ZMod 2) = b) : a = b := by
  rcases ha with rfl | rfl <;> rcases hb with rfl | rfl <;> simp_all

theorem rowPauli_inj {n : ℕ} {a b : List ℤ} (ha : a.length = 2 * n) (hb : b.length = 2 * n) (ha' : IsBinary a)
    (hb' : IsBinary b) (h : (rowPauli n a).vec = (rowPauli n b).vec) : a = b := by
  have key : ∀ j (hj : j < 2 * n), ((a[j] : ℤ) : ZMod 2) = (b[j] : ℤ) := by
    intro j hj
    by_cases hjn : j < n
    · have := congrFun (congrArg Prod.fst h) ⟨j, hjn⟩
      simp only [rowPauli, Pauli.vec] at this
      rwa [List.getD_eq_getElem _ _ (ha ▸ hj : j < a.length), List.getD_eq_getElem _ _ (hb ▸ hj : j < b.length)] at this
    · have := congrFun (congrArg Prod.snd h) ⟨j - n, by omega⟩
      have e : n + (j - n) = j := by omega
      simp only [rowPauli, Pauli.vec, e] at this
      rwa [List.getD_eq_getElem _ _ (ha ▸ hj : j < a.length), List.getD_eq_getElem _ _ (hb ▸ hj : j < b.length)] at this
  refine List.ext_getElem (by omega) fun j h1 h2 => ?_
  exact binary_inj (ha' _ (List.getElem_mem h1)) (hb' _ (List.getElem_mem h2)) (key j (by omega))

/-- **C64**, size.  With independent generators the repaired `normalizer` lists `2^(n+k)` rows: of these `2^(n-k)` belong
to the stabilizer group. -/
theorem C64_count (s : StabInput) (n k : ℕ) (c : StabCode) (h : stabInit s n k none = .ok c)
    (hb : BinaryArr c.stab) (hind : Independent n c.stab) :
    ∃ L, normalizerWith commuteByInnerProd c = .ok L ∧ L.length = 2 ^ (n + k) ∧
      ∀ dec : DecidablePred fun b : List ℤ => (rowPauli n b).vec ∈ rowSpan n c.stab,
      (L.filter fun b => (rowPauli n b).vec ∈ rowSpan n c.stab).length = 2 ^ (n - k) := by
  obtain ⟨L, -, hL, -, hnd, -, hm, -⟩ := C64_repaired_partial s n k none c h
  obtain ⟨hA, hcom, -⟩ := stabInit_ok h
  have hr := rowPauli_row (n := n) (initArray_cols hA)
  have hrows : c.stab.rows + k = n := by
    obtain ⟨-, -, hst, hsh, -⟩ := accepted_facts h hb hind
    rw [hst]; exact hsh.rows
  classical
  have count : ∀ (W : Submodule (ZMod 2) (BVec n)) (M : List (List ℤ)), M.Nodup →
      (∀ b, b ∈ M ↔ b.length = 2 * n ∧ IsBinary b ∧ (rowPauli n b).vec ∈ W) → M.length = 2 ^ finrank (ZMod 2) W := by
    intro W M hM hW
    have hcard : Fintype.card W = 2 ^ finrank (ZMod 2) W := by
      rw [Module.card_eq_pow_finrank (K := ZMod 2) (V := W)]; simp
    rw [← hcard, ← List.toFinset_card_of_nodup hM, ← Finset.card_univ]
    refine Finset.card_bij' (s := M.toFinset) (t := (Finset.univ : Finset W))
      (fun b hb => ⟨(rowPauli n b).vec, ((hW b).mp (List.mem_toFinset.mp hb)).2.2⟩) (fun v _ => vecRow v.1) ?_ ?_ ?_ ?_
    · intros; simp
    · intro v _
      rw [List.mem_toFinset, hW]
      exact ⟨vecRow_length _, vecRow_binary _, by rw [rowPauli_vecRow]; exact v.2⟩
    · intro b hb
      obtain ⟨x1, x2, -⟩ := (hW b).mp (List.mem_toFinset.mp hb)
      exact rowPauli_inj (vecRow_length _) x1 (vecRow_binary _) x2 (rowPauli_vecRow _)
    · intro v _
      exact Subtype.ext (rowPauli_vecRow _)
  have hS : finrank (ZMod 2) (rowSpan n c.stab) = c.stab.rows := by
    unfold rowSpan
    rw [finrank_span_eq_card hind]; simp
  have hO := LinearMap.BilinForm.finrank_orthogonal (sympB_nondeg (n := n)) (rowSpan n c.stab)
  have hV : finrank (ZMod 2) (BVec n) = n + n := by rw [Module.finrank_prod]; simp
  rw [hV, hS] at hO
  have hmemO : ∀ v : BVec n, v ∈ (sympB n).orthogonal (rowSpan n c.stab) ↔
      ∀ i < c.stab.rows, sympV (rowVec n c.stab i) v = 0 := by
    intro v
    rw [LinearMap.BilinForm.mem_orthogonal_iff]
    constructor
    · intro hv i hi
      exact hv _ (Submodule.subset_span ⟨⟨i, hi⟩, rfl⟩)
    · intro hv w hw
      rw [sympB_apply]
      unfold rowSpan at hw
      induction hw using Submodule.span_induction with
      | zero => exact sympV_zero_left _
      | add a b _ _ ha hb => rw [sympV_add_left, ha, hb, add_zero]
      | smul c a _ ha => rw [sympV_smul_left, ha, mul_zero]
      | mem a ha => obtain ⟨j, rfl⟩ := ha; exact hv j j.2
  refine ⟨L, hL, ?_, fun dec => ?_⟩
  · rw [count ((sympB n).orthogonal (rowSpan n c.stab)) L hnd, hO, show n + n - c.stab.rows = n + k by omega]
    intro b
    rw [hm, hmemO]
    simp only [← sympV_vec, hr]
  · rw [count (rowSpan n c.stab) _ (hnd.filter _), hS, show c.stab.rows = n - k by omega]
    intro b
    rw [List.mem_filter, hm]
    simp only [decide_eq_true_eq]
    constructor
    · rintro ⟨⟨x1, x2, -⟩, x3⟩; exact ⟨x1, x2, x3⟩
    · rintro ⟨x1, x2, x3⟩
      refine ⟨⟨x1, x2, fun i hi => ?_⟩, x3⟩
      obtain ⟨L', hL', hb'⟩ := C64_contains_group s n k none c h b x1 x2 x3
      rw [hL] at hL'
      cases hL'
      exact ((hm b).mp hb').2.2 i hi

/-- The hypotheses of the theorems above are met by the [[4, 2]] code: the repaired list has 64 rows, 4 of them in the
stabilizer group. -/
example : ∃ c L, stabInit (.rows [[1, 1, 1, 1, 0, 0, 0, 0], [0, 0, 0, 0, 1, 1, 1, 1]]) 4 2 none = .ok c ∧
    normalizerWith commuteByInnerProd c = .ok L ∧ L.length = 64 ∧ [1, 1, 0, 0, 0, 0, 0, 0] ∈ L ∧
    normalizer c = .error .attribute := by
  obtain ⟨c, hc, hb, hi, -, hs, h0, h1', -⟩ := code422
  obtain ⟨L, hL, h1, -⟩ := C64_count _ _ _ c hc hb hi
  obtain ⟨L', -, hL', -, -, -, hm, -⟩ := C64_repaired_partial _ _ _ _ c hc
  rw [hL] at hL'
  cases hL'
  refine ⟨c, L, hc, hL, by rw [h1]; norm_num, (hm _).mpr ⟨rfl, ?_, ?_⟩, (C64_normalizer_refuted _ _ _ _ c hc).1⟩
  · intro v hv
    fin_cases hv <;> simp
  · rw [hs]
    intro i hi
    interval_cases i
    · rw [h0]; decide
    · rw [h1']; decide

/-! ## Generators of the Pauli group -/

theorem foldl_bumpDiag (m : ℕ) (A : Arr ℤ) :
    ((List.range m).foldl bumpDiag A).rows = A.rows ∧ ((List.range m).foldl bumpDiag A).cols = A.cols ∧
    ∀ r c, ((List.range m).foldl bumpDiag A).get r c = if r = c ∧ r < m then A.get r c + 1 else A.get r c := by
  induction m with
  | zero => simp
  | succ m ih =>
    rw [List.range_succ, List.foldl_append]
    obtain ⟨h1, h2, h3⟩ := ih
    refine ⟨h1, h2, fun r c => ?_⟩
    simp only [List.foldl_cons, List.foldl_nil, bumpDiag, h3]
    by_cases hrc : r = c
    · subst hrc
      by_cases hm : r = m
      · subst hm; simp
      · have : r < m ↔ r < m + 1 := by omega
        simp [hm, this]
    · have : ¬ (r = m ∧ c = m) := fun h => hrc (h.1.trans h.2.symm)
      simp [hrc, this]

/-- **C65**.  `generator_set_pauli_elements` returns the `2n × 2n` identity: its rows are the single-qubit X operators
followed by the single-qubit Z operators, and every Pauli operator is, up to phase, the product of exactly one subset of
them. -/
theorem C65_generators (c : StabCode) :
    (generatorSetPauliElements c).Same (Arr.eye (2 * c.n)) ∧
    (∀ i : Fin c.n, (rowPauli c.n ((generatorSetPauliElements c).row i)).vec = (Pi.single i 1, 0) ∧
      (rowPauli c.n ((generatorSetPauliElements c).row (c.n + i))).vec = (0, Pi.single i 1)) ∧
    ∀ p : Pauli c.n, ∃! a : Fin (2 * c.n) → ZMod 2,
      p.vec = ∑ i, a i • (rowPauli c.n ((generatorSetPauliElements c).row i)).vec := by
  obtain ⟨f1, f2, f3⟩ := foldl_bumpDiag c.n (Arr.zeros c.n c.n)
  have hsame : (generatorSetPauliElements c).Same (Arr.eye (2 * c.n)) := by
    unfold generatorSetPauliElements
    simp only
    generalize (List.range c.n).foldl bumpDiag (Arr.zeros c.n c.n) = X at f1 f2 f3
    simp only [Arr.zeros] at f1 f2 f3
    refine ⟨?_, ?_, ?_⟩
    · simp [Arr.vstack, Arr.hstack, Arr.eye, Arr.zeros, f1]; omega
    · simp [Arr.vstack, Arr.hstack, Arr.eye, Arr.zeros, f2]; omega
    · intro i hi j hj
      simp only [Arr.vstack, Arr.hstack, Arr.eye, f1, f2, f3, Arr.zeros] at hi hj ⊢
      split_ifs <;> first | rfl | omega
  obtain ⟨s1, s2, s3⟩ := hsame
  have hrow : ∀ i < 2 * c.n, (generatorSetPauliElements c).row i = (Arr.eye (α := ℤ) (2 * c.n)).row i := by
    intro i hi
    unfold Arr.row
    rw [s2]
    refine List.map_congr_left fun j hj => s3 i ?_ j ?_
    · rw [s1]; exact hi
    · rw [s2]; exact List.mem_range.mp hj
  have hx : ∀ i : Fin c.n, (rowPauli c.n ((generatorSetPauliElements c).row i)).vec = (Pi.single i 1, 0) := by
    intro i
    rw [hrow i (by omega), rowPauli_row rfl]
    refine Prod.ext (funext fun j => ?_) (funext fun j => ?_)
    · simp [rowVec, Arr.eye, Pi.single_apply, Fin.ext_iff, eq_comm]
    · have : (i : ℕ) ≠ c.n + j := by omega
      simp [rowVec, Arr.eye, this]
  have hz : ∀ i : Fin c.n, (rowPauli c.n ((generatorSetPauliElements c).row (c.n + i))).vec = (0, Pi.single i 1) := by
    intro i
    rw [hrow _ (by omega), rowPauli_row rfl]
    refine Prod.ext (funext fun j => ?_) (funext fun j => ?_)
    · have : c.n + (i : ℕ) ≠ j := by omega
      simp [rowVec, Arr.eye, this]
    · simp [rowVec, Arr.eye, Pi.single_apply, Fin.ext_iff, eq_comm]
  refine ⟨⟨s1, s2, s3⟩, fun i => ⟨hx i, hz i⟩, fun p => ?_⟩
  have hsum : ∀ a : Fin (2 * c.n) → ZMod 2,
      ∑ i, a i • (rowPauli c.n ((generatorSetPauliElements c).row i)).vec =
        (fun j : Fin c.n => a ⟨j, by omega⟩, fun j : Fin c.n => a ⟨c.n + j, by omega⟩) := by
    intro a
    have e := Fin.sum_univ_add (a := c.n) (b := c.n) fun i : Fin (c.n + c.n) =>
      a ⟨i, by omega⟩ • (rowPauli c.n ((generatorSetPauliElements c).row i)).vec
    have e' : ∑ i : Fin (2 * c.n), a i • (rowPauli c.n ((generatorSetPauliElements c).row i)).vec =
        ∑ i : Fin (c.n + c.n), a ⟨i, by omega⟩ • (rowPauli c.n ((generatorSetPauliElements c).row i)).vec :=
      Fintype.sum_equiv (finCongr (by omega)) _ _ fun i => rfl
    rw [e', e]
    simp only [Fin.val_castAdd, Fin.val_natAdd, hx, hz]
    refine Prod.ext (funext fun j => ?_) (funext fun j => ?_)
    · simp [Prod.fst_sum, Finset.sum_apply, Pi.single_apply]
    · simp [Prod.snd_sum, Finset.sum_apply, Pi.single_apply]
  refine ⟨fun i => if h : (i : ℕ) < c.n then p.x ⟨i, h⟩ else p.z ⟨i - c.n, by omega⟩, ?_, ?_⟩
  · simp only [hsum]
    refine Prod.ext (funext fun j => ?_) (funext fun j => ?_)
    · simp [Pauli.vec]
    · simp [Pauli.vec]
  · intro a ha
    simp only [hsum] at ha
    funext i
    by_cases hi : (i : ℕ) < c.n
    · simp only [hi, dite_true]
      exact (congrFun (congrArg Prod.fst ha) ⟨i, hi⟩).symm
    · simp only [hi, dite_false]
      have := (congrFun (congrArg Prod.snd ha) ⟨i - c.n, by omega⟩).symm
      have e : c.n + ((i : ℕ) - c.n) = i := by omega
      simpa [e, Pauli.vec] using this

end PyQ
