import Verif.Lemmas.CodeInfo
import Verif.Lemmas.OpsArr
import Verif.Props.Effective
import Verif.Props.DataProcessing

/-! # C102: the coherent information of Pauli noise on a code -/

namespace PyQ

open Spec Matrix
open scoped ComplexOrder

/-! ### What the syndrome leaves open -/

section
variable {ι : Type} [Fintype ι] {q : ι → ℝ} {R S : ι → ι → Prop}

theorem probOf_ge (hq : ∀ i, 0 ≤ q i) (hr : ∀ i, R i i) (i : ι) : q i ≤ probOf q R i := by
  classical
  unfold probOf
  have h := Finset.single_le_sum (f := fun j => if R i j then q j else 0) (fun j _ => by
    show 0 ≤ if R i j then q j else 0
    split_ifs <;> [exact hq j; exact le_rfl]) (Finset.mem_univ i)
  simpa only [if_pos (hr i)] using h

theorem probOf_mono (hq : ∀ i, 0 ≤ q i) (h : ∀ i j, R i j → S i j) (i : ι) : probOf q R i ≤ probOf q S i := by
  classical
  unfold probOf
  refine Finset.sum_le_sum fun j _ => ?_
  by_cases hR : R i j
  · rw [if_pos hR, if_pos (h i j hR)]
  · rw [if_neg hR]
    split_ifs <;> [exact hq j; exact le_rfl]

theorem probOf_eq_iff (hq : ∀ i, 0 ≤ q i) (h : ∀ i j, R i j → S i j) (i : ι) :
    probOf q R i = probOf q S i ↔ ∀ j, 0 < q j → S i j → R i j := by
  classical
  unfold probOf
  rw [Finset.sum_eq_sum_iff_of_le fun j _ => by
    by_cases hR : R i j
    · rw [if_pos hR, if_pos (h i j hR)]
    · rw [if_neg hR]
      split_ifs <;> [exact hq j; exact le_rfl]]
  refine ⟨fun hj j hpos hS => ?_, fun hj j _ => ?_⟩
  · by_contra hR
    have := hj j (Finset.mem_univ j)
    rw [if_neg hR, if_pos hS] at this
    exact hpos.ne this
  · by_cases hR : R i j
    · rw [if_pos hR, if_pos (h i j hR)]
    · rw [if_neg hR]
      split_ifs with hS
      · exact ((hq j).antisymm (not_lt.mp fun hpos => hR (hj j hpos hS)))
      · rfl

theorem log_ratio (hq : ∀ i, 0 ≤ q i) (hr : ∀ i, R i i) (h : ∀ i j, R i j → S i j) :
    0 ≤ ∑ i, q i * Real.logb 2 (probOf q S i / probOf q R i) ∧
    (∑ i, q i * Real.logb 2 (probOf q S i / probOf q R i) = 0 ↔ ∀ i j, 0 < q i → 0 < q j → S i j → R i j) := by
  have hone : ∀ i, 0 < q i → 1 ≤ probOf q S i / probOf q R i := by
    intro i hi
    have h0 : 0 < probOf q R i := hi.trans_le (probOf_ge hq hr i)
    rw [le_div_iff₀ h0, one_mul]
    exact probOf_mono hq h i
  have hterm : ∀ i, 0 ≤ q i * Real.logb 2 (probOf q S i / probOf q R i) := by
    intro i
    rcases (hq i).eq_or_lt with h0 | h0
    · rw [← h0, zero_mul]
    · exact mul_nonneg (hq i) (Real.logb_nonneg one_lt_two (hone i h0))
  refine ⟨Finset.sum_nonneg fun i _ => hterm i, ?_⟩
  rw [Finset.sum_eq_zero_iff_of_nonneg fun i _ => hterm i]
  refine ⟨fun hz i j hi hj => ?_, fun hz i _ => ?_⟩
  · have h0 : 0 < probOf q R i := hi.trans_le (probOf_ge hq hr i)
    have hl : Real.logb 2 (probOf q S i / probOf q R i) = 0 := (mul_eq_zero.mp (hz i (Finset.mem_univ i))).resolve_left hi.ne'
    have h1 : probOf q S i / probOf q R i = 1 := by
      rcases Real.logb_eq_zero.mp hl with h | h | h | h | h | h
      · norm_num at h
      · norm_num at h
      · norm_num at h
      · linarith [hone i hi]
      · exact h
      · linarith [hone i hi]
    rw [div_eq_one_iff_eq h0.ne'] at h1
    exact (probOf_eq_iff hq h i).mp h1.symm j hj
  · rcases (hq i).eq_or_lt with h0 | h0
    · rw [← h0, zero_mul]
    · have h1 := (probOf_eq_iff hq h i).mpr fun j hj => hz i j h0 hj
      rw [← h1, div_self (h0.trans_le (probOf_ge hq hr i)).ne', Real.logb_one, mul_zero]

end

theorem groupOf_rowList (n : ℕ) (A : Arr ℤ) :
    groupOf n A.rowList = Submodule.span (ZMod 2) (Set.range fun i : Fin A.rows => (rowPauli n (A.row i)).vec) := by
  unfold groupOf Arr.rowList
  congr 1
  ext v
  constructor
  · rintro ⟨r, hr, rfl⟩
    obtain ⟨i, hi, rfl⟩ := List.mem_map.mp hr
    exact ⟨⟨i, List.mem_range.mp hi⟩, rfl⟩
  · rintro ⟨i, rfl⟩
    exact ⟨_, List.mem_map.mpr ⟨i, List.mem_range.mpr i.2, rfl⟩, rfl⟩

theorem sameSyndrome_rowList (n : ℕ) (A : Arr ℤ) (p p' : Pauli n) : SameSyndrome A.rowList p p' ↔
    ∀ i : Fin A.rows, symp (rowPauli n (A.row i)) p = symp (rowPauli n (A.row i)) p' := by
  unfold SameSyndrome Arr.rowList
  constructor
  · intro h i
    exact h _ (List.mem_map.mpr ⟨i, List.mem_range.mpr i.2, rfl⟩)
  · intro h g hg
    obtain ⟨i, hi, rfl⟩ := List.mem_map.mp hg
    exact h ⟨i, List.mem_range.mp hi⟩

section
variable {eigh : Eigh} {s : StabInput} {n k : ℕ} {c : StabCode}

/-- The encoder the library returns. -/
theorem encoder_codeEnc (hE : eigh.Correct) (h : stabInit s n k none = .ok c) (hn : 0 < n) (hb : BinaryArr c.stab)
    (hY : ∀ i < c.stab.rows, parityY (rowPauli n (c.stab.row i)) = 0) (hind : Independent n c.stab) {V : Arr ℂ}
    (hV : encodeKraus eigh c = .ok V) :
    CodeEnc (fun i : Fin c.stab.rows => rowPauli n (c.stab.row i)) (V.mat (2 ^ n) (2 ^ k)) := by
  obtain ⟨V', v1, v2, v3⟩ := C19_dimension eigh hE s n k c h hn hb hY hind
  obtain ⟨V'', m, w1, w2, w3, w4, w5, -⟩ := C19_encoder_isometry eigh hE s n k none c h hn hb hY
  rw [hV] at v1 w1
  injection v1 with v1
  injection w1 with w1
  subst v1 w1
  obtain rfl : m = 2 ^ k := w3.symm.trans v3
  refine ⟨w4, fun i => generator_encoder (V := V.mat (2 ^ n) (2 ^ k)) rfl w5 i i.2, fun x hx => ?_, fun i => hY i i.2⟩
  have hx' : (fun a => x ((bitsEquiv n).symm (bitsEquiv n a))) = x := by
    funext a; rw [Equiv.symm_apply_apply]
  obtain ⟨y, hy⟩ := (w5 fun b => x ((bitsEquiv n).symm b)).mp fun i hi => by
    have := hx ⟨i, hi⟩
    have e := pauliN_mulVec (rowPauli n (c.stab.row i)) (fun b => x ((bitsEquiv n).symm b))
    rw [hx'] at e
    funext b
    have h3 := congrFun (e.symm.trans this) ((bitsEquiv n).symm b)
    simp only [Equiv.apply_symm_apply] at h3
    exact h3
  refine ⟨y, ?_⟩
  funext a
  have := hy a
  rw [← bitsEquiv_apply, Equiv.symm_apply_apply] at this
  exact this

/-- Errors of the same class have the same syndrome. -/
theorem sameClass_sameSyndrome (h : stabInit s n k none = .ok c) {p p' : Pauli n} (hc : SameClass c.stab.rowList p p') :
    SameSyndrome c.stab.rowList p p' := by
  obtain ⟨hA, hcom, -⟩ := stabInit_ok h
  have hrow := rowPauli_row (n := n) (initArray_cols hA)
  rw [sameSyndrome_rowList]
  intro i
  unfold SameClass at hc
  rw [groupOf_rowList] at hc
  have : ∀ v ∈ Submodule.span (ZMod 2) (Set.range fun i : Fin c.stab.rows => (rowPauli n (c.stab.row i)).vec),
      sympV (rowPauli n (c.stab.row i)).vec v = 0 := by
    intro v hv
    induction hv using Submodule.span_induction with
    | mem x hx =>
      obtain ⟨j, rfl⟩ := hx
      show sympV _ (rowPauli n (c.stab.row j)).vec = 0
      rw [hrow, hrow]
      exact hcom i i.2 j j.2
    | zero => exact sympV_zero_right _
    | add x y _ _ hx hy => rw [sympV_add_right, hx, hy, add_zero]
    | smul a x _ hx => rw [sympV_smul_right, hx, mul_zero]
  have h1 := this _ hc
  rw [sympV_add_right, sympV_vec, sympV_vec] at h1
  exact (by decide : ∀ x y : ZMod 2, x + y = 0 → x = y) _ _ h1

/-- C102.  For an accepted code the bits left open are never negative, and they are zero exactly when any two errors that can occur
and have the same syndrome are in the same class. -/
theorem C102_open_bits (h : stabInit s n k none = .ok c) {ι : Type} [Fintype ι] {q : ι → ℝ} (hq : ∀ i, 0 ≤ q i) (p : ι → Pauli n) :
    0 ≤ openBits c.stab.rowList q p ∧
    (openBits c.stab.rowList q p = 0 ↔
      ∀ i j, 0 < q i → 0 < q j → SameSyndrome c.stab.rowList (p i) (p j) → SameClass c.stab.rowList (p i) (p j)) := by
  refine log_ratio hq (fun i => ?_) fun i j hc => sameClass_sameSyndrome h hc
  show (p i).vec + (p i).vec ∈ _
  have : (p i).vec + (p i).vec = 0 := by
    ext t <;> exact (by decide : ∀ x : ZMod 2, x + x = 0) _
  rw [this]
  exact Submodule.zero_mem _

/-- An encoder followed by Pauli errors is trace preserving. -/
theorem encoded_tp {M : ℕ} {V : Matrix (Fin (2 ^ n)) (Fin M) ℂ} (hV : Vᴴ * V = 1) {ι : Type} [Fintype ι] {a : ι → ℂ} (p : ι → Pauli n)
    (ha : ∑ i, Complex.normSq (a i) = 1) : ∑ i, (a i • (pauliN (p i) * V))ᴴ * (a i • (pauliN (p i) * V)) = 1 := by
  have h1 : ∀ i, (a i • (pauliN (p i) * V))ᴴ * (a i • (pauliN (p i) * V)) = ((Complex.normSq (a i) : ℝ) : ℂ) • 1 := by
    intro i
    rw [conjTranspose_smul, Matrix.smul_mul, Matrix.mul_smul, smul_smul, conjTranspose_mul, Matrix.mul_assoc,
      ← Matrix.mul_assoc (pauliN (p i))ᴴ, pauliN_unitary, Matrix.one_mul, hV, Complex.normSq_eq_conj_mul_self]
    rfl
  rw [Finset.sum_congr rfl fun i _ => h1 i, ← Finset.sum_smul, ← Complex.ofReal_sum, ha, Complex.ofReal_one, one_smul]

variable {eig : Eigvalsh}

/-- C102.  A channel object whose Kraus operators are the encoder of an accepted code followed by Pauli errors: at the maximally mixed
state its coherent information is the number of logical qubits minus the bits the syndrome leaves open, up to the cut-off. -/
theorem C102_coherent (heig : eig.Correct) (hE : eigh.Correct) (h : stabInit s n k none = .ok c) (hn : 0 < n)
    (hb : BinaryArr c.stab) (hY : ∀ i < c.stab.rows, parityY (rowPauli n (c.stab.row i)) = 0) (hind : Independent n c.stab)
    {V : Arr ℂ} (hV : encodeKraus eigh c = .ok V) {sp : Bool} {ops : Arr3 ℂ} {orth : List ℕ} {o : KrausObj} {L : ℕ}
    (hL : ops.len = L) (a : Fin L → ℂ) (p : Fin L → Pauli n) (ha : ∑ i, Complex.normSq (a i) = 1)
    (hops : ∀ i, ops.ops L (2 ^ n) (2 ^ k) i = a i • (pauliN (p i) * V.mat (2 ^ n) (2 ^ k)))
    (ho : QChan.init sp ops k n 2 2 orth = .ok o) (hor : sp = true ∨ orth = []) (calls : List QChan.Call)
    (hsafe : SafeUses sp (calls.map QChan.Call.uses ++ [1])) (rho : Arr ℂ) (hr : rho.rows = 2 ^ k) (hc : rho.cols = 2 ^ k)
    (hmix : rho.mat (2 ^ k) (2 ^ k) = ((2 : ℂ) ^ k)⁻¹ • 1) (reg : Bool) :
    ∃ v, (QChan.coherentInformation eig (QChan.history o calls) rho 1 reg).1 = .ok v ∧
      v ≤ k - openBits c.stab.rowList (fun i => Complex.normSq (a i)) p + L * (4 / 10 ^ 9) ∧
      k - openBits c.stab.rowList (fun i => Complex.normSq (a i)) p - 2 ^ n * (4 / 10 ^ 9) ≤ v := by
  classical
  subst hL
  have henc := encoder_codeEnc hE h hn hb hY hind hV
  obtain ⟨out, W, -, x2, x3, x4, w2, w3, w4, hv⟩ := C45_coherent_value (eig := eig) ho hor calls 1 hsafe rho
    (by rw [pow_one]; exact hr) (by rw [pow_one]; exact hc) reg
  rw [tensorPow_one_eq] at x4 w4
  rw [pow_one (2 ^ k), pow_one (2 ^ n), pow_one ops.len, hmix, show ops.ops ops.len (2 ^ n) (2 ^ k) = _ from funext hops] at x4 w4
  rw [pow_one] at x2 x3 w2 w3
  have hMc : ((2 ^ k : ℕ) : ℂ) = 2 ^ k := by push_cast; rfl
  rw [← hMc] at x4 w4
  have hM0 : 0 < 2 ^ k := by positivity
  have hdens : IsDensity (((2 ^ k : ℕ) : ℂ)⁻¹ • (1 : Matrix (Fin (2 ^ k)) (Fin (2 ^ k)) ℂ)) := by
    refine ⟨PosSemidef.smul PosSemidef.one ?_, ?_⟩
    · rw [hMc]
      have : ((2 : ℂ) ^ k)⁻¹ = ((((2 : ℝ) ^ k)⁻¹ : ℝ) : ℂ) := by push_cast; rfl
      rw [this, Complex.zero_le_real]
      positivity
    · rw [trace_smul, trace_one, Fintype.card_fin, smul_eq_mul]
      exact inv_mul_cancel₀ (by exact_mod_cast hM0.ne')
  have htp := encoded_tp henc.iso p ha
  obtain ⟨d1, d2⟩ := kraus_densities _ _ htp hdens
  rw [← x4] at d1
  rw [← w4] at d2
  obtain ⟨s1, s2⟩ := entropyOne_cut heig x2 x3 d1
  obtain ⟨t1, t2⟩ := entropyOne_cut heig w2 w3 d2
  have hout := heig out _ x2 x3 d1.1.isHermitian
  have hW := heig W _ w2 w3 d2.1.isHermitian
  rw [x4] at hout
  rw [w4] at hW
  set q : Fin ops.len → ℝ := fun i => Complex.normSq (a i) with hq
  have hq0 : ∀ i, 0 ≤ q i := fun i => Complex.normSq_nonneg _
  -- the exchange matrix
  let S := Submodule.span (ZMod 2) (Set.range fun i : Fin c.stab.rows => (rowPauli n (c.stab.row i)).vec)
  let _ : Fintype (BVec n ⧸ S) := Fintype.ofFinite _
  let _ : DecidableEq (BVec n ⧸ S) := Classical.decEq _
  let cl : Fin ops.len → BVec n ⧸ S := fun i => S.mkQ (p i).vec
  have hneg : ∀ v : BVec n, -v = v := fun v => by
    ext t <;> exact (by decide : ∀ x : ZMod 2, -x = x) _
  have hcl : ∀ i j, cl i = cl j ↔ (p i).vec + (p j).vec ∈ S := by
    intro i j
    show S.mkQ _ = S.mkQ _ ↔ _
    rw [Submodule.mkQ_apply, Submodule.mkQ_apply, Submodule.Quotient.eq, sub_eq_add_neg, hneg]
  have hexch := henc.exchange hM0 a p cl hcl hW Real.negMulLog Real.negMulLog_zero
  rw [labelProb_entropy] at hexch
  have hcls : ∀ i, labelProb q cl (cl i) = probOf q (fun i j => SameClass c.stab.rowList (p i) (p j)) i :=
    labelProb_probOf fun i j => by
      unfold SameClass
      rw [groupOf_rowList, eq_comm]
      exact (hcl i j).symm
  -- the output
  have hoe := henc.output hM0 a p hout Real.negMulLog Real.negMulLog_zero
  set cs : Fin ops.len → Fin c.stab.rows → ZMod 2 := fun i t => symp (rowPauli n (c.stab.row t)) (p i) with hcs
  have hsyn : ∀ i, labelProb q cs (cs i) = probOf q (fun i j => SameSyndrome c.stab.rowList (p i) (p j)) i :=
    labelProb_probOf fun i j => by
      rw [sameSyndrome_rowList, hcs, eq_comm, funext_iff]
  have hMr : (0 : ℝ) < ((2 ^ k : ℕ) : ℝ) := by exact_mod_cast hM0
  have hoe' : ∑ i : Fin (2 ^ n), Real.negMulLog (eig out i) = -∑ i, q i * Real.log (labelProb q cs (cs i)) + k * Real.log 2 := by
    rw [hoe, Fintype.sum_prod_type]
    simp only [Finset.sum_const, Finset.card_univ, Fintype.card_fin, nsmul_eq_mul]
    have hterm : ∀ x, ((2 ^ k : ℕ) : ℝ) * Real.negMulLog (labelProb q cs x / ((2 ^ k : ℕ) : ℝ)) =
        Real.negMulLog (labelProb q cs x) + labelProb q cs x * (k * Real.log 2) := by
      intro x
      by_cases h0 : labelProb q cs x = 0
      · rw [h0, zero_div, Real.negMulLog_zero, mul_zero, zero_mul, add_zero]
      · rw [Real.negMulLog, Real.negMulLog, Real.log_div h0 hMr.ne']
        have : Real.log ((2 ^ k : ℕ) : ℝ) = k * Real.log 2 := by push_cast; rw [Real.log_pow]
        rw [this]
        field_simp
        ring
    rw [Finset.sum_congr rfl fun x _ => hterm x, Finset.sum_add_distrib, labelProb_entropy,
      labelProb_sum q cs fun _ => (k : ℝ) * Real.log 2, ← Finset.sum_mul, ha, one_mul]
  have hl2 : Real.log 2 ≠ 0 := (Real.log_pos one_lt_two).ne'
  have hopen : openBits c.stab.rowList q p =
      (∑ i, q i * Real.log (labelProb q cs (cs i)) - ∑ i, q i * Real.log (labelProb q cl (cl i))) / Real.log 2 := by
    unfold openBits
    rw [← Finset.sum_sub_distrib, Finset.sum_div]
    refine Finset.sum_congr rfl fun i _ => ?_
    rw [hsyn, hcls]
    rcases (hq0 i).eq_or_lt with h0 | h0
    · rw [← h0]; simp
    · have p1 : 0 < probOf q (fun i j => SameSyndrome c.stab.rowList (p i) (p j)) i :=
        h0.trans_le (probOf_ge hq0 (fun i _ _ => rfl) i)
      have p2 : 0 < probOf q (fun i j => SameClass c.stab.rowList (p i) (p j)) i := by
        refine h0.trans_le (probOf_ge hq0 (fun i => ?_) i)
        show (p i).vec + (p i).vec ∈ _
        rw [show (p i).vec + (p i).vec = 0 by
          ext t <;> exact (by decide : ∀ x : ZMod 2, x + x = 0) _]
        exact Submodule.zero_mem _
      rw [Real.logb, Real.log_div p1.ne' p2.ne']
      ring
  have hS : shannon (fun i : Fin (2 ^ n) => eig out i) - shannon (fun i : Fin ops.len => eig W i) =
      k - openBits c.stab.rowList q p := by
    rw [shannon_negMulLog, shannon_negMulLog, hoe', hexch, hopen]
    field_simp
    ring
  refine ⟨_, by rw [hv, Nat.cast_one, div_one, ite_self], ?_, ?_⟩
  · linarith
  · have : ((2 ^ n : ℕ) : ℝ) = 2 ^ n := by push_cast; rfl
    rw [this] at s2
    linarith

/-- C102.  Hence, at the maximally mixed state, the coherent information of a code under Pauli noise never exceeds the number of logical
qubits, and it reaches that number when errors that can occur and have the same syndrome are in the same class. -/
theorem C102_perfect (heig : eig.Correct) (hE : eigh.Correct) (h : stabInit s n k none = .ok c) (hn : 0 < n)
    (hb : BinaryArr c.stab) (hY : ∀ i < c.stab.rows, parityY (rowPauli n (c.stab.row i)) = 0) (hind : Independent n c.stab)
    {V : Arr ℂ} (hV : encodeKraus eigh c = .ok V) {sp : Bool} {ops : Arr3 ℂ} {orth : List ℕ} {o : KrausObj} {L : ℕ}
    (hL : ops.len = L) (a : Fin L → ℂ) (p : Fin L → Pauli n) (ha : ∑ i, Complex.normSq (a i) = 1)
    (hops : ∀ i, ops.ops L (2 ^ n) (2 ^ k) i = a i • (pauliN (p i) * V.mat (2 ^ n) (2 ^ k)))
    (ho : QChan.init sp ops k n 2 2 orth = .ok o) (hor : sp = true ∨ orth = []) (calls : List QChan.Call)
    (hsafe : SafeUses sp (calls.map QChan.Call.uses ++ [1])) (rho : Arr ℂ) (hr : rho.rows = 2 ^ k) (hc : rho.cols = 2 ^ k)
    (hmix : rho.mat (2 ^ k) (2 ^ k) = ((2 : ℂ) ^ k)⁻¹ • 1) (reg : Bool) :
    ∃ v, (QChan.coherentInformation eig (QChan.history o calls) rho 1 reg).1 = .ok v ∧ v ≤ k + L * (4 / 10 ^ 9) ∧
      ((∀ i j, a i ≠ 0 → a j ≠ 0 → SameSyndrome c.stab.rowList (p i) (p j) → SameClass c.stab.rowList (p i) (p j)) →
        k - 2 ^ n * (4 / 10 ^ 9) ≤ v) := by
  obtain ⟨v, v1, v2, v3⟩ := C102_coherent heig hE h hn hb hY hind hV hL a p ha hops ho hor calls hsafe rho hr hc hmix reg
  obtain ⟨h0, h1⟩ := C102_open_bits h (q := fun i => Complex.normSq (a i)) (fun i => Complex.normSq_nonneg _) p
  refine ⟨v, v1, by linarith, fun hcl => ?_⟩
  have := h1.mpr fun i j hi hj => hcl i j (Complex.normSq_pos.mp hi) (Complex.normSq_pos.mp hj)
  rw [this] at v3
  linarith

/-- The error operator on `n` qubits given by the numbers of the errors on the qubits. -/
def errorOf {m : ℕ} (e : Fin m → ZMod 2 × ZMod 2) (i : Fin (m ^ n)) : Pauli n :=
  ⟨fun t => (e (digit i t)).1, fun t => (e (digit i t)).2⟩

/-- A Pauli operator on one qubit. -/
theorem pauliN_single (u w : ZMod 2) (x y : Fin 2) : pauliN (n := 1) ⟨fun _ => u, fun _ => w⟩ x y =
    if ((x.val : ℕ) : ZMod 2) = ((y.val : ℕ) : ZMod 2) + u then sgn (w * ((y.val : ℕ) : ZMod 2)) else 0 := by
  show (if bitsOf 1 x = bitsOf 1 y + (fun _ => u) then (sgn (dotp (fun _ => w) (bitsOf 1 y)) : ℂ) else 0) = _
  have hbit : ∀ x : Fin 2, bitsOf 1 x = fun _ => ((x.val : ℕ) : ZMod 2) := by
    intro x
    funext t
    fin_cases x <;> fin_cases t <;> rfl
  rw [hbit, hbit]
  have h2 : dotp (n := 1) (fun _ => w) (fun _ => ((y.val : ℕ) : ZMod 2)) = w * ((y.val : ℕ) : ZMod 2) := by
    unfold dotp
    rw [Fin.sum_univ_one]
  have h3 : ((fun _ : Fin 1 => ((x.val : ℕ) : ZMod 2)) = (fun _ => ((y.val : ℕ) : ZMod 2)) + fun _ => u) ↔
      ((x.val : ℕ) : ZMod 2) = ((y.val : ℕ) : ZMod 2) + u :=
    ⟨fun h => congrFun h 0, fun h => funext fun _ => h⟩
  rw [h2]
  simp only [h3]

/-- C102.  The effective channel of a code with one logical qubit and single qubit errors that are multiples of Pauli operators: its
coherent information at the maximally mixed state is one minus the bits the syndrome leaves open about the errors on all qubits. -/
theorem C102_effective (heig : eig.Correct) (hE : eigh.Correct) (h : stabInit s n 1 none = .ok c) (hn : 0 < n)
    (hb : BinaryArr c.stab) (hY : ∀ i < c.stab.rows, parityY (rowPauli n (c.stab.row i)) = 0) (hind : Independent n c.stab)
    {errors : List (Arr ℂ)} (hsh : ∀ e ∈ errors, e.rows = 2 ∧ e.cols = 2) (a : Fin errors.length → ℂ)
    (e : Fin errors.length → ZMod 2 × ZMod 2) (he : ∀ i, errors[i].mat (2 ^ 1) (2 ^ 1) = a i • pauliN (n := 1) ⟨fun _ => (e i).1, fun _ => (e i).2⟩)
    (ha : ∑ i, Complex.normSq (a i) = 1) (rho : Arr ℂ) (hr : rho.rows = 2) (hc : rho.cols = 2)
    (hmix : rho.mat 2 2 = (2 : ℂ)⁻¹ • 1) (reg : Bool) :
    ∃ o v, effectiveKraus eigh s n 1 errors = .ok o ∧
      (QChan.coherentInformation eig o rho 1 reg).1 = .ok v ∧
      v ≤ 1 - openBits c.stab.rowList (fun i : Fin (errors.length ^ n) => ∏ t, Complex.normSq (a (digit i t))) (errorOf e) +
        errors.length ^ n * (4 / 10 ^ 9) ∧
      1 - openBits c.stab.rowList (fun i : Fin (errors.length ^ n) => ∏ t, Complex.normSq (a (digit i t))) (errorOf e) -
        2 ^ n * (4 / 10 ^ 9) ≤ v := by
  have htp : TracePreserving fun i : Fin errors.length => errors[i].mat 2 2 := by
    show ∑ i : Fin errors.length, (errors[i].mat (2 ^ 1) (2 ^ 1))ᴴ * errors[i].mat (2 ^ 1) (2 ^ 1) = 1
    have h1 : ∀ i : Fin errors.length, (errors[i].mat (2 ^ 1) (2 ^ 1))ᴴ * errors[i].mat (2 ^ 1) (2 ^ 1) =
        ((Complex.normSq (a i) : ℝ) : ℂ) • 1 := by
      intro i
      rw [he, conjTranspose_smul, Matrix.smul_mul, Matrix.mul_smul, smul_smul, pauliN_unitary, Complex.normSq_eq_conj_mul_self]
      rfl
    rw [Finset.sum_congr rfl fun i _ => h1 i, ← Finset.sum_smul, ← Complex.ofReal_sum, ha, Complex.ofReal_one, one_smul]
  obtain ⟨o, V, ops, e1, e2, e3, -, -, -, e4, e5, e6, -⟩ := C44_channel hE h hn hb hY hind hsh htp
  have hform : ∀ (i : Fin errors.length) (x y : Fin 2), errors[i].mat 2 2 x y = a i *
      (if ((x.val : ℕ) : ZMod 2) = ((y.val : ℕ) : ZMod 2) + (e i).1 then sgn ((e i).2 * ((y.val : ℕ) : ZMod 2)) else 0) := by
    intro i x y
    rw [← pauliN_single]
    exact congrFun (congrFun (he i) x) y
  have htens : ∀ i, tensorPow (fun i : Fin errors.length => errors[i].mat 2 2) n i = (∏ t, a (digit i t)) • pauliN (errorOf e i) :=
    fun i => tensorProd_pauli_of (E := fun t => errors[digit i t].mat 2 2) fun t => hform (digit i t)
  have hK : ∀ i, ∃ u : ZMod 2, ops.ops (errors.length ^ n) (2 ^ n) (2 ^ 1) i =
      ((sgn u : ℂ) * ∏ t, a (digit i t)) • (pauliN (errorOf e i) * V.mat (2 ^ n) (2 ^ 1)) := by
    intro i
    obtain ⟨K, k1, k2⟩ := e6 i
    rw [htens i] at k1
    obtain ⟨u, hu⟩ := corrected_encoder e4 k1
    exact ⟨u, by rw [k2, hu, Matrix.smul_mul, smul_smul]⟩
  choose u hu using hK
  have hsq : ∀ i, Complex.normSq ((sgn (u i) : ℂ) * ∏ t, a (digit i t)) = ∏ t, Complex.normSq (a (digit i t)) := by
    intro i
    rw [Complex.normSq_mul, sgn_normSq, one_mul, map_prod]
  have htot : ∑ i, Complex.normSq ((sgn (u i) : ℂ) * ∏ t, a (digit i t)) = 1 := by
    rw [Finset.sum_congr rfl fun i _ => hsq i, sum_digits fun g : Fin n → Fin errors.length => ∏ t, Complex.normSq (a (g t)),
      ← Fintype.piFinset_univ, ← Finset.prod_univ_sum (fun _ => Finset.univ) fun _ i => Complex.normSq (a i), ha,
      Finset.prod_const_one]
  obtain ⟨v, v1, v2, v3⟩ := C102_coherent heig hE h hn hb hY hind e3 e5 _ (errorOf e) htot hu e2 (Or.inl rfl) []
    ⟨by simp, by simp⟩ rho hr hc (by rw [pow_one (2 : ℂ)]; exact hmix) reg
  simp only [hsq] at v2 v3
  refine ⟨o, v, e1, v1, ?_, ?_⟩
  · rw [Nat.cast_one] at v2
    push_cast at v2
    exact v2
  · rw [Nat.cast_one] at v3
    exact v3

end

/-! ### Witnesses -/

theorem codePhase_facts : ∃ c, stabInit (.rows [[1, 1, 0, 0, 0, 0], [0, 1, 1, 0, 0, 0]]) 3 1 none = .ok c ∧ BinaryArr c.stab ∧
    Independent 3 c.stab ∧ (∀ i < c.stab.rows, parityY (rowPauli 3 (c.stab.row i)) = 0) ∧
    c.stab.rowList = [[1, 1, 0, 0, 0, 0], [0, 1, 1, 0, 0, 0]] := by
  obtain ⟨c, h1, h2, h3, h4, h5, h6⟩ := codePhase
  refine ⟨c, h1, h2, h3, ?_, ?_⟩
  · intro i hi
    rw [h4] at hi
    interval_cases i
    · rw [h5]; decide
    · rw [h6]; decide
  · unfold Arr.rowList
    rw [h4, show List.range 2 = [0, 1] from rfl, List.map_cons, List.map_cons, List.map_nil, h5, h6]

/-- The hypotheses of `C102_effective` hold for the phase flip code and a phase flip on every qubit. -/
example : ∃ eig eigh c o v, eig.Correct ∧ eigh.Correct ∧
    stabInit (.rows [[1, 1, 0, 0, 0, 0], [0, 1, 1, 0, 0, 0]]) 3 1 none = .ok c ∧
    effectiveKraus eigh (.rows [[1, 1, 0, 0, 0, 0], [0, 1, 1, 0, 0, 0]]) 3 1 phaseErrors = .ok o ∧
    (QChan.coherentInformation eig o ⟨2, 2, fun i j => if i = j then 1 / 2 else 0⟩ 1 false).1 = .ok v ∧
    v ≤ 1 - openBits c.stab.rowList (fun i : Fin (2 ^ 3) => ∏ t, Complex.normSq ((![3 / 5, 4 / 5] : Fin 2 → ℂ) (digit i t)))
      (errorOf ![(0, 0), (0, 1)]) + 2 ^ 3 * (4 / 10 ^ 9) := by
  obtain ⟨c, h1, h2, h3, h4, -⟩ := codePhase_facts
  obtain ⟨eig, heig⟩ := exists_eigvalsh
  obtain ⟨eigh, hE⟩ := exists_eigh
  obtain ⟨o, v, e1, e2, e3, -⟩ := C102_effective (errors := phaseErrors) heig hE h1 (by decide) h2 h4 h3 phaseErrors_shape ![3 / 5, 4 / 5]
    ![(0, 0), (0, 1)] (by
      intro i
      change Fin 2 at i
      ext x y
      rw [Matrix.smul_apply, pauliN_single]
      have h01 : ¬ (0 : ZMod 2) = 1 := by decide
      fin_cases i <;> fin_cases x <;> fin_cases y <;> simp [phaseErrors, Arr.mat, sgn, h01] <;> norm_num)
    (by
      show ∑ i : Fin 2, _ = _
      rw [Fin.sum_univ_two]
      simp [Complex.normSq_apply]
      norm_num)
    ⟨2, 2, fun i j => if i = j then 1 / 2 else 0⟩ rfl rfl (by
      ext x y
      fin_cases x <;> fin_cases y <;> simp [Arr.mat]) false
  refine ⟨eig, eigh, c, o, v, heig, hE, h1, e1, e2, ?_⟩
  have h5 : ((phaseErrors.length : ℕ) : ℝ) = 2 := by norm_num [phaseErrors]
  rw [h5] at e3
  exact e3

/-- The hypotheses of `C102_coherent` and `C102_perfect` hold for the phase flip code with no flip or one flip on one of the three
qubits, each with probability 1/4; the errors have different syndromes, and the coherent information is one. -/
theorem C102_phase_flip : ∃ eig eigh c V o v, eig.Correct ∧ eigh.Correct ∧
    stabInit (.rows [[1, 1, 0, 0, 0, 0], [0, 1, 1, 0, 0, 0]]) 3 1 none = .ok c ∧ encodeKraus eigh c = .ok V ∧
    QChan.init false (opsArr fun i : Fin 4 => (1 / 2 : ℂ) •
      (pauliN (![⟨0, 0⟩, ⟨0, ![1, 0, 0]⟩, ⟨0, ![0, 1, 0]⟩, ⟨0, ![0, 0, 1]⟩] i : Pauli 3) * V.mat (2 ^ 3) (2 ^ 1))) 1 3 2 2 [] = .ok o ∧
    (QChan.coherentInformation eig o ⟨2, 2, fun i j => if i = j then 1 / 2 else 0⟩ 1 false).1 = .ok v ∧
    |v - 1| ≤ 8 * (4 / 10 ^ 9) := by
  obtain ⟨c, h1, h2, h3, h4, h5⟩ := codePhase_facts
  obtain ⟨eig, heig⟩ := exists_eigvalsh
  obtain ⟨eigh, hE⟩ := exists_eigh
  obtain ⟨V, v1, -, -⟩ := C19_dimension eigh hE _ 3 1 c h1 (by decide) h2 h4 h3
  have henc := encoder_codeEnc hE h1 (by decide) h2 h4 h3 v1
  have ha : ∑ _i : Fin 4, Complex.normSq (1 / 2 : ℂ) = 1 := by
    rw [Finset.sum_const, Finset.card_univ, Fintype.card_fin, Complex.normSq_div]
    norm_num
  have htp := encoded_tp henc.iso ![⟨0, 0⟩, ⟨0, ![1, 0, 0]⟩, ⟨0, ![0, 1, 0]⟩, ⟨0, ![0, 0, 1]⟩] ha
  obtain ⟨o, ho⟩ := init_exact false (opsArr fun i : Fin 4 => (1 / 2 : ℂ) •
    (pauliN (![⟨0, 0⟩, ⟨0, ![1, 0, 0]⟩, ⟨0, ![0, 1, 0]⟩, ⟨0, ![0, 0, 1]⟩] i : Pauli 3) * V.mat (2 ^ 3) (2 ^ 1))) 1 3 2 2 []
    (by show 0 < 4; decide) rfl rfl (by
      show TracePreserving ((opsArr _).ops 4 (2 ^ 3) (2 ^ 1))
      rw [opsArr_ops]
      exact htp)
  obtain ⟨v, w1, w2, w3⟩ := C102_perfect heig hE h1 (by decide) h2 h4 h3 v1 (L := 4) rfl (fun _ => 1 / 2)
    ![⟨0, 0⟩, ⟨0, ![1, 0, 0]⟩, ⟨0, ![0, 1, 0]⟩, ⟨0, ![0, 0, 1]⟩] ha
    (fun i => by rw [opsArr_ops]) ho (Or.inr rfl) [] ⟨by simp, by simp⟩
    ⟨2, 2, fun i j => if i = j then 1 / 2 else 0⟩ rfl rfl (by
      ext x y
      fin_cases x <;> fin_cases y <;> simp [Arr.mat]) false
  refine ⟨eig, eigh, c, V, o, v, heig, hE, h1, v1, ho, w1, ?_⟩
  have h6 := w3 (by
    rw [h5]
    intro i j _ _ hs
    have hd : ∀ i j : Fin 4, (∀ g ∈ ([[1, 1, 0, 0, 0, 0], [0, 1, 1, 0, 0, 0]] : List (List ℤ)),
        symp (rowPauli 3 g) ((![⟨0, 0⟩, ⟨0, ![1, 0, 0]⟩, ⟨0, ![0, 1, 0]⟩, ⟨0, ![0, 0, 1]⟩] : Fin 4 → Pauli 3) i) =
          symp (rowPauli 3 g) ((![⟨0, 0⟩, ⟨0, ![1, 0, 0]⟩, ⟨0, ![0, 1, 0]⟩, ⟨0, ![0, 0, 1]⟩] : Fin 4 → Pauli 3) j)) → i = j := by decide
    obtain rfl := hd i j hs
    show Pauli.vec _ + Pauli.vec _ ∈ _
    generalize (![⟨0, 0⟩, ⟨0, ![1, 0, 0]⟩, ⟨0, ![0, 1, 0]⟩, ⟨0, ![0, 0, 1]⟩] : Fin 4 → Pauli 3) i = p
    rw [show p.vec + p.vec = 0 by ext t <;> exact (by decide : ∀ x : ZMod 2, x + x = 0) _]
    exact Submodule.zero_mem _)
  rw [abs_le]
  norm_num at w2 h6 ⊢
  constructor <;> linarith

end PyQ
