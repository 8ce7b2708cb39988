import Verif.Spec.FailureRate
import Verif.Props.Rounds
import Mathlib.Analysis.SpecificLimits.Basic

/-! C135: how often rounds of error correction succeed. -/

namespace PyQ

open Spec

section

variable {s : StabInput} {k : ℕ} {c : StabCode}

theorem ofReal_sgn (a : ZMod 2) : (((sgn a : ℝ)) : ℂ) = sgn a := by
  unfold sgn
  split_ifs <;> simp

theorem sum_sgn_real {n : ℕ} (x : Fin n → ZMod 2) : ∑ a : Fin n → ZMod 2, (sgn (dotp a x) : ℝ) = if x = 0 then 2 ^ n else 0 := by
  have := sum_sgn_dotp x
  apply Complex.ofReal_injective
  push_cast
  simp only [ofReal_sgn]
  rw [this]
  split_ifs <;> simp

theorem sgn_eq (a : ZMod 2) : (sgn a : ℝ) = 1 - 2 * if a = 1 then 1 else 0 := by
  have h : a = 0 ∨ a = 1 := by revert a; decide
  rcases h with rfl | rfl
  · simp
  · simp only [sgn_one, if_true]; norm_num

theorem sympV_list_sum {n : ℕ} (L : BVec n) (l : List (BVec n)) : sympV L l.sum = (l.map (sympV L)).sum := by
  induction l with
  | nil => simp [sympV, dotp]
  | cons v l ih => rw [List.sum_cons, sympV_add_right, ih, List.map_cons, List.sum_cons]

theorem sgn_list_sum (l : List (ZMod 2)) : (sgn l.sum : ℝ) = (l.map sgn).prod := by
  induction l with
  | nil => simp
  | cons a l ih => rw [List.sum_cons, sgn_add, ih, List.map_cons, List.prod_cons]

theorem sympV_logicalVec (a b : Fin k → ZMod 2) (v : BVec c.n) :
    sympV (logicalVec c a b) v = dotp a (fun i => sympV (rowPauli c.n (c.logicalX.row i)).vec v) +
      dotp b (fun i => sympV (rowPauli c.n (c.logicalZ.row i)).vec v) := by
  have key : ∀ (a : Fin k → ZMod 2) (f : Fin k → BVec c.n), sympV (∑ i, a i • f i) v = dotp a fun i => sympV (f i) v := by
    intro a f
    rw [sympV_comm]
    have hs : ∀ (t : Finset (Fin k)), sympV v (∑ i ∈ t, a i • f i) = ∑ i ∈ t, a i * sympV (f i) v := by
      intro t
      classical
      induction t using Finset.induction_on with
      | empty => simp [sympV, dotp]
      | insert i t hi ih =>
        rw [Finset.sum_insert hi, Finset.sum_insert hi, sympV_add_right, ih]
        congr 1
        have h01 : a i = 0 ∨ a i = 1 := by generalize a i = x; revert x; decide
        rcases h01 with h | h
        · rw [h]; simp [sympV, dotp]
        · rw [h, one_smul, one_mul, sympV_comm]
    exact hs Finset.univ
  unfold logicalVec
  rw [sympV_add_left, key, key]

/-- Being in the group is read off the signs of the logical operators. -/
theorem mem_group_avg (h : stabInit s c.n k none = .ok c) (hb : BinaryArr c.stab) (hind : Independent c.n c.stab)
    {v : BVec c.n} (hv : signs c.n c.iter v = signs c.n c.iter 0) [Decidable (v ∈ groupOf c.n c.iter)] :
    ∑ a : Fin k → ZMod 2, ∑ b : Fin k → ZMod 2, (sgn (sympV (logicalVec c a b) v) : ℝ) =
      if v ∈ groupOf c.n c.iter then 4 ^ k else 0 := by
  have hcom : ∀ g ∈ c.iter, symp (ofVec v) (rowPauli c.n g) = 0 := by
    intro g hg
    have h1 := (List.map_inj_left.mp hv) g hg
    have h0 : sympV (rowPauli c.n g).vec (0 : BVec c.n) = 0 := by simp [sympV, dotp]
    rw [h0] at h1
    rw [symp_comm]
    exact h1
  obtain ⟨hex, hun⟩ := C59_normalizer s c.n k c h hb hind (ofVec v)
  set x : Fin k → ZMod 2 := fun i => sympV (rowPauli c.n (c.logicalX.row i)).vec v with hx
  set z : Fin k → ZMod 2 := fun i => sympV (rowPauli c.n (c.logicalZ.row i)).vec v with hz
  have hmem : v ∈ groupOf c.n c.iter ↔ x = 0 ∧ z = 0 := by
    constructor
    · intro hm
      have := hun 0 0 (by simpa [show (ofVec v).vec = v from rfl] using hm)
      constructor
      · funext i
        have h2 := this.2 i
        rw [symp_comm] at h2
        exact h2.symm
      · funext i
        have h2 := this.1 i
        rw [symp_comm] at h2
        exact h2.symm
    · rintro ⟨hx0, hz0⟩
      obtain ⟨a, b, hab⟩ := hex.mp hcom
      obtain ⟨h1, h2⟩ := hun a b hab
      have ha : a = 0 := by
        funext i
        rw [h1 i, symp_comm]
        exact congrFun hz0 i
      have hb : b = 0 := by
        funext i
        rw [h2 i, symp_comm]
        exact congrFun hx0 i
      rw [ha, hb] at hab
      simpa [show (ofVec v).vec = v from rfl] using hab
  have hsum : ∑ a : Fin k → ZMod 2, ∑ b : Fin k → ZMod 2, (sgn (sympV (logicalVec c a b) v) : ℝ) =
      (∑ a : Fin k → ZMod 2, (sgn (dotp a x) : ℝ)) * ∑ b : Fin k → ZMod 2, (sgn (dotp b z) : ℝ) := by
    rw [Finset.sum_mul_sum]
    refine Finset.sum_congr rfl fun a _ => Finset.sum_congr rfl fun b _ => ?_
    rw [sympV_logicalVec, sgn_add]
  rw [hsum, sum_sgn_real, sum_sgn_real]
  by_cases h1 : x = 0 <;> by_cases h2 : z = 0
  · rw [if_pos h1, if_pos h2, if_pos (hmem.mpr ⟨h1, h2⟩), ← mul_pow]; norm_num
  · rw [if_neg h2, if_neg fun hh => h2 (hmem.mp hh).2, mul_zero]
  · rw [if_neg h1, if_neg fun hh => h1 (hmem.mp hh).1, zero_mul]
  · rw [if_neg h1, if_neg fun hh => h1 (hmem.mp hh).1, zero_mul]

/-- What a single round leaves. -/
def net (c : StabCode) (table : List (ZMod 2) → List ℤ) (p : Pauli c.n) : BVec c.n :=
  p.vec + (rowPauli c.n (table (signs c.n c.iter p.vec))).vec

theorem sum_sgn_net (q : Pauli c.n → ℝ) (table : List (ZMod 2) → List ℤ) (L : BVec c.n) :
    ∑ p, q p * (sgn (sympV L (net c table p)) : ℝ) = (∑ p, q p) - 2 * flipProb c q table L := by
  unfold flipProb
  rw [Finset.mul_sum, ← Finset.sum_sub_distrib]
  refine Finset.sum_congr rfl fun p _ => ?_
  rw [sgn_eq]
  show _ = q p - 2 * if sympV L (net c table p) = 1 then q p else 0
  split_ifs <;> ring

theorem signs_sum {n : ℕ} (rows : List (List ℤ)) (l : List (BVec n)) (hl : ∀ v ∈ l, signs n rows v = signs n rows 0) :
    signs n rows l.sum = signs n rows 0 := by
  induction l with
  | nil => rfl
  | cons v l ih =>
    rw [List.sum_cons, signs_add n rows (hl v List.mem_cons_self)]
    exact ih fun w hw => hl w (List.mem_cons_of_mem _ hw)

/-- **C135, exactly**.  For a code as in C131 and a table whose entries give the results they are listed under: the probability that
`m` rounds with independent errors give back what was encoded is the average, over the `4 ^ k` products `L` of logical operators, of
`(1 - 2 f) ^ m`, where `f` is the probability that a single round changes the sign of `L`. -/
theorem C135_rate (h : stabInit s c.n k none = .ok c) (hb : BinaryArr c.stab) (hind : Independent c.n c.stab)
    (hY : ∀ a < c.stab.rows, parityY (rowPauli c.n (c.stab.row a)) = 0)
    (table : List (ZMod 2) → List ℤ) (ht : TableFor c.n table)
    (hc : ∀ v : BVec c.n, signs c.n c.iter (rowPauli c.n (table (signs c.n c.iter v))).vec = signs c.n c.iter v)
    (q : Pauli c.n → ℝ) (hq : ∑ p, q p = 1) (m : ℕ) :
    restoredProb c k q table m =
      (∑ a : Fin k → ZMod 2, ∑ b : Fin k → ZMod 2, (1 - 2 * flipProb c q table (logicalVec c a b)) ^ m) / 4 ^ k := by
  classical
  have h4 : (4 : ℝ) ^ k ≠ 0 := by positivity
  rw [eq_div_iff h4]
  have hnet : ∀ p : Pauli c.n, signs c.n c.iter (net c table p) = signs c.n c.iter 0 := by
    intro p
    have h1 := hc p.vec
    unfold net signs at *
    rw [List.map_inj_left] at h1 ⊢
    intro g hg
    rw [sympV_add_right, h1 g hg, show sympV (rowPauli c.n g).vec (0 : BVec c.n) = 0 by simp [sympV, dotp]]
    exact CharTwo.add_self_eq_zero _
  have hres : ∀ es : Fin m → Pauli c.n, Restored c k table ((List.ofFn es).map pauliRow) ↔
      ((List.ofFn es).map (net c table)).sum ∈ groupOf c.n c.iter := by
    intro es
    unfold Restored
    rw [C131_independent h hb hind hY table ht hc, List.map_map]
    have : ((fun e => (rowPauli c.n e).vec + (rowPauli c.n (table (signs c.n c.iter (rowPauli c.n e).vec))).vec) ∘ pauliRow)
        = net c table := by
      funext p
      simp only [Function.comp, net, (pauliRow_spec p).2.2]
    rw [this]
  unfold restoredProb
  rw [Finset.sum_mul]
  have hterm : ∀ es : Fin m → Pauli c.n,
      (if Restored c k table ((List.ofFn es).map pauliRow) then ∏ i, q (es i) else 0) * 4 ^ k =
        ∑ a : Fin k → ZMod 2, ∑ b : Fin k → ZMod 2, ∏ i, q (es i) * (sgn (sympV (logicalVec c a b) (net c table (es i))) : ℝ) := by
    intro es
    have h1 := mem_group_avg h hb hind (signs_sum c.iter ((List.ofFn es).map (net c table)) (by
      intro v hv
      obtain ⟨p, -, rfl⟩ := List.mem_map.mp hv
      exact hnet p))
    have h2 : ∀ a b : Fin k → ZMod 2, ∏ i, q (es i) * (sgn (sympV (logicalVec c a b) (net c table (es i))) : ℝ) =
        (∏ i, q (es i)) * sgn (sympV (logicalVec c a b) ((List.ofFn es).map (net c table)).sum) := by
      intro a b
      rw [Finset.prod_mul_distrib, sympV_list_sum, sgn_list_sum, List.map_map, List.map_map, List.map_ofFn, List.prod_ofFn]
      rfl
    simp only [h2, ← Finset.mul_sum]
    rw [h1]
    by_cases hr : Restored c k table ((List.ofFn es).map pauliRow)
    · rw [if_pos hr, if_pos ((hres es).mp hr)]
    · rw [if_neg hr, if_neg fun hh => hr ((hres es).mpr hh), zero_mul, mul_zero]
  rw [Finset.sum_congr rfl fun es _ => hterm es, Finset.sum_comm]
  refine Finset.sum_congr rfl fun a _ => ?_
  rw [Finset.sum_comm]
  refine Finset.sum_congr rfl fun b _ => ?_
  rw [← hq, ← sum_sgn_net, Fintype.sum_pow]

theorem undoes_net (h : stabInit s c.n k none = .ok c) (hb : BinaryArr c.stab) (hind : Independent c.n c.stab)
    (hY : ∀ a < c.stab.rows, parityY (rowPauli c.n (c.stab.row a)) = 0)
    {table : List (ZMod 2) → List ℤ} (ht : TableFor c.n table) (p : Pauli c.n) :
    Undoes c k {pauliRow p} table ↔ net c table p ∈ groupOf c.n c.iter := by
  rw [C115_table h hb hind hY table ht]
  constructor
  · intro hh
    have := hh _ rfl
    rw [(pauliRow_spec p).2.2] at this
    exact this
  · rintro hh e rfl
    rw [(pauliRow_spec p).2.2]
    exact hh

/-- **C135, a single round** succeeds exactly with the probability of the errors the table undoes (`undoneProb` of C116). -/
theorem C135_one (h : stabInit s c.n k none = .ok c) (hb : BinaryArr c.stab) (hind : Independent c.n c.stab)
    (hY : ∀ a < c.stab.rows, parityY (rowPauli c.n (c.stab.row a)) = 0)
    (table : List (ZMod 2) → List ℤ) (ht : TableFor c.n table) (q : Pauli c.n → ℝ) :
    restoredProb c k q table 1 = undoneProb c k q table := by
  classical
  unfold restoredProb undoneProb
  rw [← (Equiv.funUnique (Fin 1) (Pauli c.n)).symm.sum_comp]
  refine Finset.sum_congr rfl fun p _ => ?_
  have h1 : Restored c k table ((List.ofFn ((Equiv.funUnique (Fin 1) (Pauli c.n)).symm p)).map pauliRow) ↔
      Undoes c k {pauliRow p} table := by
    rw [undoes_net h hb hind hY ht]
    unfold Restored
    rw [C131_restored_iff h hb hind hY table ht]
    have : (List.ofFn ((Equiv.funUnique (Fin 1) (Pauli c.n)).symm p)).map pauliRow = [pauliRow p] := by
      simp [List.ofFn_succ]
    rw [this]
    simp only [leftover, zero_add, (pauliRow_spec p).2.2]
    rfl
  by_cases hu : Undoes c k {pauliRow p} table
  · rw [if_pos hu, if_pos (h1.mpr hu)]
    simp
  · rw [if_neg hu, if_neg fun hh => hu (h1.mp hh)]

/-- **C135, a bound** for every table: if a single round fails with probability `ε`, then `m` rounds fail with probability at
most `1 - (1 - ε) ^ m`, and at most `m ε`. -/
theorem C135_bound (h : stabInit s c.n k none = .ok c) (hb : BinaryArr c.stab) (hind : Independent c.n c.stab)
    (hY : ∀ a < c.stab.rows, parityY (rowPauli c.n (c.stab.row a)) = 0)
    (table : List (ZMod 2) → List ℤ) (ht : TableFor c.n table) (q : Pauli c.n → ℝ) (hq0 : ∀ p, 0 ≤ q p) (m : ℕ) :
    undoneProb c k q table ^ m ≤ restoredProb c k q table m ∧
      1 - m * (1 - undoneProb c k q table) ≤ restoredProb c k q table m := by
  classical
  have hu0 : 0 ≤ undoneProb c k q table := by
    unfold undoneProb
    refine Finset.sum_nonneg fun p _ => ?_
    split_ifs
    · exact hq0 p
    · exact le_refl _
  have h1 : undoneProb c k q table ^ m ≤ restoredProb c k q table m := by
    unfold undoneProb restoredProb
    rw [Fintype.sum_pow]
    refine Finset.sum_le_sum fun es _ => ?_
    by_cases hall : ∀ i, Undoes c k {pauliRow (es i)} table
    · rw [if_pos, Finset.prod_congr rfl fun i _ => if_pos (hall i)]
      unfold Restored
      rw [C131_restored_iff h hb hind hY table ht]
      refine leftover_mem h hb hind ?_ (Submodule.zero_mem _)
      intro e he
      obtain ⟨p, hp, rfl⟩ := List.mem_map.mp he
      obtain ⟨i, rfl⟩ := List.mem_ofFn.mp hp
      have := (undoes_net h hb hind hY ht (es i)).mp (hall i)
      rw [(pauliRow_spec (es i)).2.2]
      exact this
    · push Not at hall
      obtain ⟨i, hi⟩ := hall
      rw [Finset.prod_eq_zero (Finset.mem_univ i) (if_neg hi)]
      split_ifs
      · exact Finset.prod_nonneg fun i _ => hq0 _
      · exact le_refl _
  refine ⟨h1, le_trans ?_ h1⟩
  have := one_add_mul_le_pow (a := undoneProb c k q table - 1) (by linarith) m
  rw [show 1 + (undoneProb c k q table - 1) = undoneProb c k q table by ring] at this
  linarith

/-- **C135, in the long run**.  If every logical operator is sometimes flipped and sometimes not, what was encoded is given back
after many rounds as rarely as if it had been replaced by chance: with probability `1 / 4 ^ k`. -/
theorem C135_limit (h : stabInit s c.n k none = .ok c) (hb : BinaryArr c.stab) (hind : Independent c.n c.stab)
    (hY : ∀ a < c.stab.rows, parityY (rowPauli c.n (c.stab.row a)) = 0)
    (table : List (ZMod 2) → List ℤ) (ht : TableFor c.n table)
    (hc : ∀ v : BVec c.n, signs c.n c.iter (rowPauli c.n (table (signs c.n c.iter v))).vec = signs c.n c.iter v)
    (q : Pauli c.n → ℝ) (hq : ∑ p, q p = 1)
    (hflip : ∀ a b : Fin k → ZMod 2, ¬ (a = 0 ∧ b = 0) →
      0 < flipProb c q table (logicalVec c a b) ∧ flipProb c q table (logicalVec c a b) < 1) :
    Filter.Tendsto (restoredProb c k q table) Filter.atTop (nhds (1 / 4 ^ k)) := by
  have hfun : restoredProb c k q table = fun m =>
      (∑ a : Fin k → ZMod 2, ∑ b : Fin k → ZMod 2, (1 - 2 * flipProb c q table (logicalVec c a b)) ^ m) / 4 ^ k := by
    funext m
    exact C135_rate h hb hind hY table ht hc q hq m
  rw [hfun]
  refine Filter.Tendsto.div_const ?_ _
  have hsum : (1 : ℝ) = ∑ a : Fin k → ZMod 2, ∑ b : Fin k → ZMod 2, if a = 0 ∧ b = 0 then (1 : ℝ) else 0 := by
    rw [Finset.sum_eq_single 0, Finset.sum_eq_single 0]
    · simp
    · intro b _ hb0
      rw [if_neg fun hh => hb0 hh.2]
    · intro hh; exact absurd (Finset.mem_univ _) hh
    · intro a _ ha0
      refine Finset.sum_eq_zero fun b _ => ?_
      rw [if_neg fun hh => ha0 hh.1]
    · intro hh; exact absurd (Finset.mem_univ _) hh
  suffices key : Filter.Tendsto
      (fun m : ℕ => ∑ a : Fin k → ZMod 2, ∑ b : Fin k → ZMod 2, (1 - 2 * flipProb c q table (logicalVec c a b)) ^ m) Filter.atTop
      (nhds (∑ a : Fin k → ZMod 2, ∑ b : Fin k → ZMod 2, if a = 0 ∧ b = 0 then (1 : ℝ) else 0)) by rwa [← hsum] at key
  refine tendsto_finsetSum _ fun a _ => tendsto_finsetSum _ fun b _ => ?_
  by_cases hab : a = 0 ∧ b = 0
  · rw [if_pos hab, hab.1, hab.2]
    have h0 : flipProb c q table (logicalVec c (0 : Fin k → ZMod 2) 0) = 0 := by
      unfold flipProb
      refine Finset.sum_eq_zero fun p _ => ?_
      rw [if_neg]
      rw [show logicalVec c (0 : Fin k → ZMod 2) 0 = 0 by simp [logicalVec], sympV_zero_left]
      decide
    have h1 : (fun m : ℕ => (1 - 2 * flipProb c q table (logicalVec c (0 : Fin k → ZMod 2) 0)) ^ m) = fun _ => 1 := by
      funext m
      rw [h0, mul_zero, sub_zero, one_pow]
    exact (Filter.tendsto_congr fun m => congrFun h1 m).mpr tendsto_const_nhds
  · rw [if_neg hab]
    obtain ⟨h1, h2⟩ := hflip a b hab
    exact tendsto_pow_atTop_nhds_zero_of_abs_lt_one (abs_lt.mpr ⟨by linarith, by linarith⟩)

theorem logical_other (h : stabInit s c.n k none = .ok c) (hb : BinaryArr c.stab) (hind : Independent c.n c.stab)
    {a b : Fin k → ZMod 2} (hab : ¬ (a = 0 ∧ b = 0)) :
    ∃ M : BVec c.n, (∀ g ∈ c.iter, sympV (rowPauli c.n g).vec M = 0) ∧ sympV (logicalVec c a b) M = 1 := by
  obtain ⟨-, -, -, -, -, -, hg, hp⟩ := C08_logical_operators s c.n k c h hb hind
  have hone : ∀ x : ZMod 2, x ≠ 0 → x = 1 := by decide
  by_cases ha : a = 0
  · have hb0 : b ≠ 0 := fun hh => hab ⟨ha, hh⟩
    obtain ⟨i, hi⟩ := Function.ne_iff.mp hb0
    refine ⟨(rowPauli c.n (c.logicalX.row i)).vec, fun g hgm => ?_, ?_⟩
    · rw [sympV_comm]
      exact (hg i i.2 g hgm).1
    · rw [sympV_logicalVec, ha]
      have h1 : (fun j : Fin k => sympV (rowPauli c.n (c.logicalZ.row j)).vec (rowPauli c.n (c.logicalX.row i)).vec)
          = Pi.single i 1 := by
        funext j
        rw [sympV_comm]
        refine ((hp i i.2 j j.2).1).trans ?_
        by_cases hij : i = j
        · subst hij; simp
        · rw [if_neg fun hh => hij (Fin.ext hh), Pi.single_eq_of_ne fun hh => hij hh.symm]
      rw [h1]
      simp only [dotp, Pi.zero_apply, zero_mul, Finset.sum_const_zero, zero_add]
      rw [Finset.sum_eq_single i]
      · simpa using hone _ hi
      · intro j _ hji; simp [Pi.single_eq_of_ne hji]
      · intro hh; exact absurd (Finset.mem_univ _) hh
  · obtain ⟨i, hi⟩ := Function.ne_iff.mp ha
    refine ⟨(rowPauli c.n (c.logicalZ.row i)).vec, fun g hgm => ?_, ?_⟩
    · rw [sympV_comm]
      exact (hg i i.2 g hgm).2
    · rw [sympV_logicalVec]
      have h1 : (fun j : Fin k => sympV (rowPauli c.n (c.logicalX.row j)).vec (rowPauli c.n (c.logicalZ.row i)).vec)
          = Pi.single i 1 := by
        funext j
        refine ((hp j j.2 i i.2).1).trans ?_
        by_cases hij : i = j
        · subst hij; simp
        · rw [if_neg fun hh => hij (Fin.ext hh).symm, Pi.single_eq_of_ne fun hh => hij hh.symm]
      have h2 : (fun j : Fin k => sympV (rowPauli c.n (c.logicalZ.row j)).vec (rowPauli c.n (c.logicalZ.row i)).vec) = 0 := by
        funext j
        exact (hp j j.2 i i.2).2.2
      rw [h1, h2]
      simp only [dotp, Pi.zero_apply, mul_zero, Finset.sum_const_zero, add_zero]
      rw [Finset.sum_eq_single i]
      · simpa using hone _ hi
      · intro j _ hji; simp [Pi.single_eq_of_ne hji]
      · intro hh; exact absurd (Finset.mem_univ _) hh

/-- **C135, completely random errors**.  When all Pauli errors are equally likely, every logical operator is flipped with probability
one half, and any number of rounds gives back what was encoded with probability `1 / 4 ^ k`. -/
theorem C135_uniform (h : stabInit s c.n k none = .ok c) (hb : BinaryArr c.stab) (hind : Independent c.n c.stab)
    (hY : ∀ a < c.stab.rows, parityY (rowPauli c.n (c.stab.row a)) = 0)
    (table : List (ZMod 2) → List ℤ) (ht : TableFor c.n table)
    (hc : ∀ v : BVec c.n, signs c.n c.iter (rowPauli c.n (table (signs c.n c.iter v))).vec = signs c.n c.iter v)
    (q : Pauli c.n → ℝ) (hq : ∑ p, q p = 1) (hu : ∀ p p', q p = q p') :
    (∀ a b : Fin k → ZMod 2, ¬ (a = 0 ∧ b = 0) → flipProb c q table (logicalVec c a b) = 1 / 2) ∧
    ∀ m, 1 ≤ m → restoredProb c k q table m = 1 / 4 ^ k := by
  have hflip : ∀ a b : Fin k → ZMod 2, ¬ (a = 0 ∧ b = 0) → flipProb c q table (logicalVec c a b) = 1 / 2 := by
    intro a b hab
    obtain ⟨M, hM, hLM⟩ := logical_other h hb hind hab
    let e : Pauli c.n ≃ Pauli c.n := ⟨fun p => ofVec (M + p.vec), fun p => ofVec (M + p.vec), fun p => by
        show ofVec (M + (M + p.vec)) = p
        rw [← add_assoc, bvec_add_self, zero_add]; rfl, fun p => by
        show ofVec (M + (M + p.vec)) = p
        rw [← add_assoc, bvec_add_self, zero_add]; rfl⟩
    have hMs : signs c.n c.iter M = signs c.n c.iter 0 := by
      unfold signs
      rw [List.map_inj_left]
      intro g hg
      rw [hM g hg, show sympV (rowPauli c.n g).vec (0 : BVec c.n) = 0 by simp [sympV, dotp]]
    have hnet : ∀ p, sympV (logicalVec c a b) (net c table (e p)) = 1 + sympV (logicalVec c a b) (net c table p) := by
      intro p
      have : net c table (e p) = M + net c table p := by
        unfold net
        show (M + p.vec) + (rowPauli c.n (table (signs c.n c.iter (M + p.vec)))).vec = _
        rw [signs_add c.n c.iter hMs, add_assoc]
      rw [this, sympV_add_right, hLM]
    have h1 : flipProb c q table (logicalVec c a b) =
        ∑ p, if sympV (logicalVec c a b) (net c table p) = 0 then q p else 0 := by
      unfold flipProb
      rw [← e.sum_comp]
      refine Finset.sum_congr rfl fun p _ => ?_
      have h2 := hnet p
      show (if sympV (logicalVec c a b) (net c table (e p)) = 1 then q (e p) else 0) = _
      rw [h2, hu (e p) p]
      generalize sympV (logicalVec c a b) (net c table p) = x
      have : (1 + x = 1) = (x = 0) := by revert x; decide
      simp only [this]
    have h2 : flipProb c q table (logicalVec c a b) + flipProb c q table (logicalVec c a b) = 1 := by
      nth_rewrite 1 [h1]
      unfold flipProb
      rw [← Finset.sum_add_distrib, ← hq]
      refine Finset.sum_congr rfl fun p _ => ?_
      show (if sympV (logicalVec c a b) (net c table p) = 0 then q p else 0) +
        (if sympV (logicalVec c a b) (net c table p) = 1 then q p else 0) = q p
      generalize sympV (logicalVec c a b) (net c table p) = x
      have hx : x = 0 ∨ x = 1 := by revert x; decide
      rcases hx with rfl | rfl
      · rw [if_pos rfl, if_neg (by decide), add_zero]
      · rw [if_neg (by decide), if_pos rfl, zero_add]
    linarith
  refine ⟨hflip, fun m hm => ?_⟩
  rw [C135_rate h hb hind hY table ht hc q hq]
  congr 1
  rw [Finset.sum_eq_single 0, Finset.sum_eq_single 0]
  · have h0 : flipProb c q table (logicalVec c (0 : Fin k → ZMod 2) 0) = 0 := by
      unfold flipProb
      refine Finset.sum_eq_zero fun p _ => ?_
      rw [if_neg]
      rw [show logicalVec c (0 : Fin k → ZMod 2) 0 = 0 by simp [logicalVec], sympV_zero_left]
      decide
    rw [h0, mul_zero, sub_zero, one_pow]
  · intro b _ hb0
    rw [hflip 0 b fun hh => hb0 hh.2]
    norm_num
    omega
  · intro hh; exact absurd (Finset.mem_univ _) hh
  · intro a _ ha0
    refine Finset.sum_eq_zero fun b _ => ?_
    rw [hflip a b fun hh => ha0 hh.1]
    norm_num
    omega
  · intro hh; exact absurd (Finset.mem_univ _) hh

/-! ## Independent noise on the qubits -/

theorem sum_bits (f : ZMod 2 → ℝ) : ∑ x, f x = f 0 + f 1 := Fin.sum_univ_two f

theorem sum_local {n : ℕ} (f : Fin n → ZMod 2 → ZMod 2 → ℝ) :
    ∑ p : Pauli n, ∏ j, f j (p.x j) (p.z j) = ∏ j, ∑ x : ZMod 2, ∑ z : ZMod 2, f j x z := by
  have h1 : ∀ j, ∑ x : ZMod 2, ∑ z : ZMod 2, f j x z = ∑ t : ZMod 2 × ZMod 2, f j t.1 t.2 := fun j =>
    (Fintype.sum_prod_type fun t : ZMod 2 × ZMod 2 => f j t.1 t.2).symm
  simp only [h1]
  rw [Finset.prod_univ_sum, Fintype.piFinset_univ]
  exact Fintype.sum_equiv
    ⟨fun p j => (p.x j, p.z j), fun g => ⟨fun j => (g j).1, fun j => (g j).2⟩, fun _ => rfl, fun _ => rfl⟩ _ _ fun _ => rfl

theorem noise_total {n : ℕ} {u : ZMod 2 → ZMod 2 → ℝ} (hu : ∑ x, ∑ z, u x z = 1) : ∑ p : Pauli n, independentNoise u p = 1 := by
  unfold independentNoise
  rw [sum_local fun _ => u]
  simp [hu]

/-- The probability of the errors with a given support. -/
theorem noise_support {n : ℕ} {u : ZMod 2 → ZMod 2 → ℝ} (hu : ∑ x, ∑ z, u x z = 1) (T : Finset (Fin n)) :
    ∑ p : Pauli n, (if (Finset.univ.filter fun j => p.x j ≠ 0 ∨ p.z j ≠ 0) = T then independentNoise u p else 0) =
      (1 - u 0 0) ^ T.card * u 0 0 ^ (n - T.card) := by
  have h1 : ∀ p : Pauli n, (if (Finset.univ.filter fun j => p.x j ≠ 0 ∨ p.z j ≠ 0) = T then independentNoise u p else 0) =
      ∏ j, if (j ∈ T ↔ p.x j ≠ 0 ∨ p.z j ≠ 0) then u (p.x j) (p.z j) else 0 := by
    intro p
    by_cases hT : (Finset.univ.filter fun j => p.x j ≠ 0 ∨ p.z j ≠ 0) = T
    · rw [if_pos hT]
      unfold independentNoise
      refine Finset.prod_congr rfl fun j _ => ?_
      rw [if_pos]
      rw [← hT]
      simp
    · rw [if_neg hT]
      have : ∃ j, ¬ (j ∈ T ↔ p.x j ≠ 0 ∨ p.z j ≠ 0) := by
        by_contra hno
        push Not at hno
        apply hT
        ext j
        rw [Finset.mem_filter]
        exact ⟨fun hh => (hno j).mpr hh.2, fun hh => ⟨Finset.mem_univ _, (hno j).mp hh⟩⟩
      obtain ⟨j, hj⟩ := this
      rw [Finset.prod_eq_zero (Finset.mem_univ j) (if_neg hj)]
  simp only [h1]
  rw [sum_local fun j x z => if (j ∈ T ↔ x ≠ 0 ∨ z ≠ 0) then u x z else 0]
  have h2 : ∀ j : Fin n, (∑ x : ZMod 2, ∑ z : ZMod 2, if (j ∈ T ↔ x ≠ 0 ∨ z ≠ 0) then u x z else 0) =
      if j ∈ T then 1 - u 0 0 else u 0 0 := by
    intro j
    have hu' : u 0 0 + u 0 1 + (u 1 0 + u 1 1) = 1 := by
      rw [← hu]
      simp only [sum_bits]
    have e00 : ¬ ((0 : ZMod 2) ≠ 0 ∨ (0 : ZMod 2) ≠ 0) := by decide
    have e01 : ((0 : ZMod 2) ≠ 0 ∨ (1 : ZMod 2) ≠ 0) := by decide
    have e10 : ((1 : ZMod 2) ≠ 0 ∨ (0 : ZMod 2) ≠ 0) := by decide
    have e11 : ((1 : ZMod 2) ≠ 0 ∨ (1 : ZMod 2) ≠ 0) := by decide
    simp only [sum_bits]
    by_cases hj : j ∈ T
    · rw [if_neg (fun hh => e00 (hh.mp hj)), if_pos (iff_of_true hj e01),
        if_pos (iff_of_true hj e10), if_pos (iff_of_true hj e11), if_pos hj]
      linarith
    · rw [if_pos (iff_of_false hj e00), if_neg (fun hh => hj (hh.mpr e01)), if_neg (fun hh => hj (hh.mpr e10)),
        if_neg (fun hh => hj (hh.mpr e11)), if_neg hj]
      ring
  simp only [h2]
  rw [Finset.prod_ite, Finset.prod_const, Finset.prod_const]
  congr 2
  · simp
  · rw [Finset.filter_not, Finset.card_sdiff_of_subset (Finset.filter_subset _ _)]
    simp

/-- The probability that at most `t` qubits are hit. -/
theorem noise_weight {n : ℕ} {u : ZMod 2 → ZMod 2 → ℝ} (hu : ∑ x, ∑ z, u x z = 1) (t : ℕ) :
    ∑ p : Pauli n, (if weight p ≤ t then independentNoise u p else 0) =
      ∑ j ∈ Finset.range (t + 1), (n.choose j : ℝ) * (1 - u 0 0) ^ j * u 0 0 ^ (n - j) := by
  classical
  have h1 : ∀ p : Pauli n, (if weight p ≤ t then independentNoise u p else 0) =
      ∑ T ∈ (Finset.univ : Finset (Finset (Fin n))).filter (fun T => T.card ≤ t),
        if (Finset.univ.filter fun j => p.x j ≠ 0 ∨ p.z j ≠ 0) = T then independentNoise u p else 0 := by
    intro p
    rw [Finset.sum_ite_eq]
    simp [weight]
  simp only [h1]
  rw [Finset.sum_comm]
  simp only [noise_support hu]
  have h2 : (Finset.univ : Finset (Finset (Fin n))).filter (fun T => T.card ≤ t) =
      (Finset.range (t + 1)).biUnion fun j => Finset.powersetCard j Finset.univ := by
    ext T
    simp [Finset.mem_powersetCard]
  rw [h2, Finset.sum_biUnion]
  · refine Finset.sum_congr rfl fun j _ => ?_
    rw [Finset.sum_congr rfl fun T hT => by rw [(Finset.mem_powersetCard.mp hT).2], Finset.sum_const, Finset.card_powersetCard]
    simp [mul_assoc]
  · intro i _ j _ hij
    refine Finset.disjoint_left.mpr fun T h1 h2 => hij ?_
    rw [← (Finset.mem_powersetCard.mp h1).2, (Finset.mem_powersetCard.mp h2).2]

/-- **C135, distance**.  If the distance is at least `2 t + 1`, some table makes `m` rounds fail with probability at most `m` times
the probability that more than `t` qubits are hit in a round, for all independent noise on the qubits. -/
theorem C135_distance (h : stabInit s c.n k none = .ok c) (hb : BinaryArr c.stab) (hind : Independent c.n c.stab)
    (hY : ∀ a < c.stab.rows, parityY (rowPauli c.n (c.stab.row a)) = 0) (t : ℕ) (hD : DistanceAtLeast c.n c.iter (2 * t + 1)) :
    ∃ table, TableFor c.n table ∧ ∀ u : ZMod 2 → ZMod 2 → ℝ, (∀ x z, 0 ≤ u x z) → ∑ x, ∑ z, u x z = 1 → ∀ m : ℕ,
      1 - m * (1 - ∑ j ∈ Finset.range (t + 1), (c.n.choose j : ℝ) * (1 - u 0 0) ^ j * u 0 0 ^ (c.n - j)) ≤
        restoredProb c k (independentNoise u) table m := by
  classical
  obtain ⟨table, ht, hU⟩ := C73_distance s k c h hb hind hY t (by
    intro p hp hcom
    by_contra hno
    have := hD p hcom hno
    omega)
  refine ⟨table, ht, fun u hu0 hu m => ?_⟩
  have hq0 : ∀ p : Pauli c.n, 0 ≤ independentNoise u p := fun p => Finset.prod_nonneg fun j _ => hu0 _ _
  refine le_trans ?_ (C135_bound h hb hind hY table ht (independentNoise u) hq0 m).2
  rw [← noise_weight hu]
  have : ∑ p : Pauli c.n, (if weight p ≤ t then independentNoise u p else 0) ≤ undoneProb c k (independentNoise u) table := by
    unfold undoneProb
    refine Finset.sum_le_sum fun p _ => ?_
    by_cases hw : weight p ≤ t
    · rw [if_pos hw, if_pos]
      obtain ⟨enc, dec, h1, h2, h3⟩ := hU
      refine ⟨enc, dec, h1, h2, ?_⟩
      rintro e rfl
      refine h3 _ ⟨(pauliRow_spec p).1, (pauliRow_spec p).2.1, ?_⟩
      rw [(pauliRow_spec p).2.2]
      exact hw
    · rw [if_neg hw]
      split_ifs
      · exact hq0 p
      · exact le_refl _
  have hm : (0 : ℝ) ≤ m := Nat.cast_nonneg m
  nlinarith [mul_le_mul_of_nonneg_left this hm]

end

/-- The four-qubit code with `firstTable` meets the hypotheses of all the theorems with a table. -/
theorem first422 : ∃ c, stabInit (.rows [[1, 1, 1, 1, 0, 0, 0, 0], [0, 0, 0, 0, 1, 1, 1, 1]]) c.n 2 none = .ok c ∧ c.n = 4 ∧
    BinaryArr c.stab ∧ Independent c.n c.stab ∧ (∀ a < c.stab.rows, parityY (rowPauli c.n (c.stab.row a)) = 0) ∧
    TableFor c.n firstTable ∧
    ∀ v : BVec c.n, signs c.n c.iter (rowPauli c.n (firstTable (signs c.n c.iter v))).vec = signs c.n c.iter v := by
  obtain ⟨c, h, hb, hind, -, hr, hs0, hs1, hn0, hn1, hn2⟩ := code422
  obtain ⟨hn, -⟩ := accepted_facts h hb hind
  have hit := iter422 hn0 hn1 hn2
  rw [← hn] at h hind
  refine ⟨c, h, hn, hb, hind, ?_, by rw [hn]; exact firstTable_for, ?_⟩
  · rw [hr, hn]
    intro a ha
    have : a = 0 ∨ a = 1 := by omega
    rcases this with rfl | rfl
    · rw [hs0]; decide
    · rw [hs1]; decide
  · rw [hit, hn]
    intro v
    have hs : signs 4 [[1, 1, 1, 1, 0, 0, 0, 0], [0, 0, 0, 0, 1, 1, 1, 1]] v =
        [sympV (rowPauli 4 [1, 1, 1, 1, 0, 0, 0, 0]).vec v, sympV (rowPauli 4 [0, 0, 0, 0, 1, 1, 1, 1]).vec v] := rfl
    rw [hs]
    rcases zmod2_cases (sympV (rowPauli 4 [1, 1, 1, 1, 0, 0, 0, 0]).vec v) with e | e <;>
      rcases zmod2_cases (sympV (rowPauli 4 [0, 0, 0, 0, 1, 1, 1, 1]).vec v) with e' | e' <;> rw [e, e'] <;> decide

/-- For the four-qubit code: completely random errors leave what was encoded with probability 1/16, after one round and in the limit. -/
example : ∃ c, c.n = 4 ∧ ∃ q : Pauli c.n → ℝ, ∑ p, q p = 1 ∧ (∀ m, 1 ≤ m → restoredProb c 2 q firstTable m = 1 / 16) ∧
    Filter.Tendsto (restoredProb c 2 q firstTable) Filter.atTop (nhds (1 / 4 ^ 2)) := by
  obtain ⟨c, h, hn, hb, hind, hY, ht, hc⟩ := first422
  have hcard : (0 : ℝ) < (Finset.univ : Finset (Pauli c.n)).card := by
    exact_mod_cast Finset.card_pos.mpr ⟨(⟨0, 0⟩ : Pauli c.n), Finset.mem_univ _⟩
  have hq : ∑ _p : Pauli c.n, (1 : ℝ) / (Finset.univ : Finset (Pauli c.n)).card = 1 := by
    rw [Finset.sum_const, nsmul_eq_mul]
    field_simp
  obtain ⟨h1, h2⟩ := C135_uniform h hb hind hY firstTable ht hc _ hq fun _ _ => rfl
  refine ⟨c, hn, _, hq, fun m hm => ?_, C135_limit h hb hind hY firstTable ht hc _ hq fun a b hab => ?_⟩
  · rw [h2 m hm]; norm_num
  · rw [h1 a b hab]; norm_num

/-- The five-qubit code: `m` rounds under independent noise that hits a qubit with probability `ε` fail with probability at most
`m (1 - (1 - ε)^5 - 5 ε (1 - ε)^4)`. -/
theorem C135_five_qubits : ∃ c, stabInit (.rows fiveRows) c.n 1 none = .ok c ∧ c.n = 5 ∧ ∃ table, TableFor c.n table ∧
    ∀ u : ZMod 2 → ZMod 2 → ℝ, (∀ x z, 0 ≤ u x z) → ∑ x, ∑ z, u x z = 1 → ∀ m : ℕ,
      1 - m * (1 - (u 0 0 ^ 5 + 5 * (1 - u 0 0) * u 0 0 ^ 4)) ≤ restoredProb c 1 (independentNoise u) table m := by
  obtain ⟨c, h1, h2, h3, h4, h5⟩ := five_code
  have hn : c.n = 5 := (accepted_facts h1 h2 h3).1
  have hd := five_distance h5
  rw [← hn] at h1 h3 h4
  obtain ⟨table, ht, hall⟩ := C135_distance h1 h2 h3 h4 1 (by
    rw [hn]
    intro p hcom hno
    by_contra hlt
    exact hno (hd p (by omega) hcom))
  refine ⟨c, h1, hn, table, ht, fun u hu0 hu m => ?_⟩
  have := hall u hu0 hu m
  have e : ∑ j ∈ Finset.range (1 + 1), (c.n.choose j : ℝ) * (1 - u 0 0) ^ j * u 0 0 ^ (c.n - j) =
      u 0 0 ^ 5 + 5 * (1 - u 0 0) * u 0 0 ^ 4 := by
    rw [hn, Finset.sum_range_succ, Finset.sum_range_one]
    norm_num [Nat.choose]
  rw [e] at this
  exact this

end PyQ
