import Verif.Lemmas.LogicalCirc

/-! The decoding circuit, stage by stage. -/

namespace PyQ

open Spec

variable {N n m k : ℕ}

/-! ### Registers split in two -/

/-- The first `n` bits. -/
def leftB (b : Fin (n + m) → ZMod 2) : Fin n → ZMod 2 := fun j => b (Fin.castAdd m j)

/-- The last `m` bits. -/
def rightB (b : Fin (n + m) → ZMod 2) : Fin m → ZMod 2 := fun j => b (Fin.natAdd n j)

theorem tensor_apply (φ : Amp n) (χ : Amp m) (b : Fin (n + m) → ZMod 2) : tensor φ χ b = φ (leftB b) * χ (rightB b) := rfl

theorem bitAt_left (b : Fin (n + m) → ZMod 2) {q : ℕ} (hq : q < n) : bitAt b q = bitAt (leftB b) q := by
  rw [bitAt_of_lt b (by omega), bitAt_of_lt (leftB b) hq]; rfl

theorem bitAt_right (b : Fin (n + m) → ZMod 2) {q : ℕ} (hq : q < m) : bitAt b (n + q) = rightB b ⟨q, hq⟩ := by
  rw [bitAt_of_lt b (by omega)]; rfl

theorem leftB_add (a b : Fin (n + m) → ZMod 2) : leftB (a + b) = leftB a + leftB b := rfl
theorem rightB_add (a b : Fin (n + m) → ZMod 2) : rightB (a + b) = rightB a + rightB b := rfl

theorem strPauli_left (s : List Char) : (leftB (strPauli (n + m) s).x = (strPauli n s).x) ∧
    (leftB (strPauli (n + m) s).z = (strPauli n s).z) := ⟨rfl, rfl⟩

theorem strPauli_right (s : List Char) (hs : s.length ≤ n) :
    (rightB (strPauli (n + m) s).x = 0) ∧ (rightB (strPauli (n + m) s).z = 0) := by
  constructor <;> funext j <;> unfold rightB strPauli <;>
    simp only [Fin.val_natAdd] <;> rw [List.getD_eq_default _ _ (by omega)] <;> rfl

theorem dotp_split (u v : Fin (n + m) → ZMod 2) : dotp u v = dotp (leftB u) (leftB v) + dotp (rightB u) (rightB v) := by
  unfold dotp; rw [Fin.sum_univ_add]; rfl

theorem pauliAct_tensor (s : List Char) (hs : s.length ≤ n) (φ : Amp n) (χ : Amp m) :
    pauliAct (strPauli (n + m) s) (tensor φ χ) = tensor (pauliAct (strPauli n s) φ) χ := by
  funext b
  obtain ⟨h1, h2⟩ := strPauli_right (m := m) s hs
  obtain ⟨h3, h4⟩ := strPauli_left (n := n) (m := m) s
  rw [pauliAct_apply, tensor_apply, tensor_apply, pauliAct_apply, dotp_split, leftB_add, rightB_add, h1, h2, h3, h4]
  simp only [dotp_zero_left, add_zero]
  ring

theorem ctrlAct_tensor (s : List Char) (hs : s.length ≤ n) (φ : Amp n) (a : Fin m → ZMod 2) {i : ℕ} (hi : i < m) :
    ctrlAct (some (n + i)) (strPauli (n + m) s) (tensor φ (ket a)) =
      tensor (if a ⟨i, hi⟩ = 1 then pauliAct (strPauli n s) φ else φ) (ket a) := by
  funext b
  rw [ctrlAct_some, bitAt_right b hi, pauliAct_tensor s hs, tensor_apply, tensor_apply, tensor_apply]
  unfold ket
  by_cases h : rightB b = a
  · rw [if_pos h, ← h]
    split_ifs <;> rfl
  · rw [if_neg h]; simp

/-! ### Copying -/

theorem applyGate_CX (c q : ℕ) (hq : q < N) (ψ : Amp N) (b : Fin N → ZMod 2) :
    applyGate ⟨some c, .X, q⟩ ψ b = ψ (b + fun j => if j.val = q then bitAt b c else 0) := by
  rw [applyGate_pauli (some c) .X q hq (Or.inl rfl), ctrlAct_some, pauliAct_apply]
  have hz : (onePauli N q (opBits .X).1 (opBits .X).2).z = 0 := by funext j; simp [onePauli, opBits]
  have hx : (onePauli N q (opBits .X).1 (opBits .X).2).x = fun j => if j.val = q then 1 else 0 := by
    funext j; simp [onePauli, opBits]
  rw [hz, hx, dotp_zero_left, sgn_zero, one_mul]
  rcases zmod2_cases (bitAt b c) with h | h
  · rw [h, if_neg (by decide)]
    congr 1
    funext j; simp
  · rw [h, if_pos rfl]

/-- The gates towards one ancilla. -/
def copyG (q : ℕ) (vj : ℤ × ℕ) : List Gate := if vj.1 = 1 then [⟨some vj.2, .X, q⟩] else []

/-- The parity copied. -/
def copySum (z : List ℤ) (o : ℕ) (b : Fin N → ZMod 2) : ZMod 2 :=
  ((z.zipIdx o).map fun vj => ((vj.1 : ℤ) : ZMod 2) * bitAt b vj.2).sum

theorem run_copyG (z : List ℤ) (hz : IsBinary z) (o q : ℕ) (hq : q < N) (ho : o + z.length ≤ q) (ψ : Amp N)
    (b : Fin N → ZMod 2) :
    run ((z.zipIdx o).flatMap (copyG q)) ψ b = ψ (b + fun j => if j.val = q then copySum z o b else 0) := by
  induction z generalizing o ψ with
  | nil =>
    simp only [List.zipIdx_nil, List.flatMap_nil, run_nil, copySum, List.map_nil, List.sum_nil]
    congr 1
    funext j; simp
  | cons a z ih =>
    simp only [List.length_cons] at ho
    rw [List.zipIdx_cons, List.flatMap_cons, run_append, ih (fun v hv => hz v (by simp [hv])) (o + 1) (by omega)]
    have hs : copySum (a :: z) o b = ((a : ℤ) : ZMod 2) * bitAt b o + copySum z (o + 1) b := by
      unfold copySum; rw [List.zipIdx_cons, List.map_cons, List.sum_cons]
    have hstep : ∀ b' : Fin N → ZMod 2, run (copyG q (a, o)) ψ b' =
        ψ (b' + fun j => if j.val = q then ((a : ℤ) : ZMod 2) * bitAt b' o else 0) := by
      intro b'
      unfold copyG
      rcases hz a (by simp) with rfl | rfl
      · rw [if_neg (by simp), run_nil]
        congr 1
        funext j; simp
      · rw [if_pos rfl, run_cons, run_nil, applyGate_CX _ _ hq]
        simp
    rw [hstep, hs]
    congr 1
    have hbit : bitAt (b + fun j : Fin N => if j.val = q then copySum z (o + 1) b else 0) o = bitAt b o := by
      rw [bitAt_add, bitAt_of_lt (fun j : Fin N => if j.val = q then copySum z (o + 1) b else 0) (show o < N by omega)]
      rw [if_neg (show ¬ o = q by omega), add_zero]
    rw [hbit]
    funext j
    simp only [Pi.add_apply]
    split_ifs <;> ring

theorem copySum_eq (z : List ℤ) (o : ℕ) (b : Fin N → ZMod 2) :
    copySum z o b = ∑ t ∈ Finset.range z.length, ((z.getD t 0 : ℤ) : ZMod 2) * bitAt b (o + t) := by
  induction z generalizing o with
  | nil => rfl
  | cons a z ih =>
    have hs : copySum (a :: z) o b = ((a : ℤ) : ZMod 2) * bitAt b o + copySum z (o + 1) b := by
      unfold copySum; rw [List.zipIdx_cons, List.map_cons, List.sum_cons]
    rw [hs, ih, List.length_cons, Finset.sum_range_succ']
    simp only [List.getD_cons_succ, List.getD_cons_zero, Nat.add_zero]
    rw [add_comm]
    congr 1
    apply Finset.sum_congr rfl
    intro t _
    rw [show o + 1 + t = o + (t + 1) by omega]

/-- Copying a parity whose value is `t` on the state. -/
theorem run_copy_tensor {row : List ℤ} (hl : row.length = 2 * n) (hb : IsBinary row) {φ : Amp n} {t : ZMod 2}
    (hφ : ∀ b, φ b ≠ 0 → dotp (rowPauli n row).z b = t) (a : Fin m → ZMod 2) {i : ℕ} (hi : i < m) :
    run (((row.drop n).zipIdx 0).flatMap (copyG (n + i))) (tensor φ (ket a)) =
      tensor φ (ket fun j => a j + if j.val = i then t else 0) := by
  funext b
  have hlen : (row.drop n).length = n := by simp; omega
  rw [run_copyG _ (fun v hv => hb v (List.mem_of_mem_drop hv)) 0 (n + i) (by omega) (by omega), tensor_apply, tensor_apply]
  have hL : leftB (b + fun j : Fin (n + m) => if j.val = n + i then copySum (row.drop n) 0 b else 0) = leftB b := by
    funext j
    unfold leftB
    rw [Pi.add_apply, if_neg (by simp; omega), add_zero]
  rw [hL]
  by_cases h0 : φ (leftB b) = 0
  · rw [h0, zero_mul, zero_mul]
  · congr 1
    have hs : copySum (row.drop n) 0 b = t := by
      rw [← hφ _ h0, copySum_eq, hlen]
      unfold dotp
      rw [← Fin.sum_univ_eq_sum_range (fun t => (((row.drop n).getD t 0 : ℤ) : ZMod 2) * bitAt b (0 + t))]
      apply Finset.sum_congr rfl
      intro j _
      rw [Nat.zero_add, bitAt_left b j.2, bitAt_fin]
      congr 1
      unfold rowPauli
      simp only
      rw [List.getD_eq_getElem (row.drop n) _ (by omega), List.getD_eq_getElem row _ (by omega), List.getElem_drop]
    rw [hs]
    unfold ket
    congr 1
    rw [eq_iff_iff]
    have hR : rightB (b + fun j : Fin (n + m) => if j.val = n + i then t else 0) =
        rightB b + fun j : Fin m => if j.val = i then t else 0 := by
      funext j
      unfold rightB
      simp only [Pi.add_apply, Fin.val_natAdd, Nat.add_left_cancel_iff]
    rw [hR]
    have e : (fun j : Fin m => a j + if j.val = i then t else 0) = a + fun j : Fin m => if j.val = i then t else 0 := rfl
    rw [e]
    constructor
    · intro h; rw [← h, add_add_cancel_f]
    · intro h; rw [h, add_add_cancel_f]

/-! ### Linearity -/

theorem applyGate_add (g : Gate) (ψ φ : Amp N) : applyGate g (ψ + φ) = applyGate g ψ + applyGate g φ := by
  funext b
  rw [Pi.add_apply]
  unfold applyGate
  split_ifs
  · rw [← Finset.sum_add_distrib]
    exact Finset.sum_congr rfl fun v _ => by rw [Pi.add_apply]; ring
  · rfl

theorem applyGate_smul (g : Gate) (a : ℂ) (ψ : Amp N) : applyGate g (a • ψ) = a • applyGate g ψ := by
  funext b
  rw [Pi.smul_apply]
  unfold applyGate
  split_ifs
  · rw [smul_eq_mul, Finset.mul_sum]
    exact Finset.sum_congr rfl fun v _ => by rw [Pi.smul_apply, smul_eq_mul]; ring
  · rfl

theorem run_add (gs : List Gate) (ψ φ : Amp N) : run gs (ψ + φ) = run gs ψ + run gs φ := by
  induction gs generalizing ψ φ with
  | nil => rfl
  | cons g gs ih => rw [run_cons, run_cons, run_cons, applyGate_add, ih]

theorem run_smul (gs : List Gate) (a : ℂ) (ψ : Amp N) : run gs (a • ψ) = a • run gs ψ := by
  induction gs generalizing ψ with
  | nil => rfl
  | cons g gs ih => rw [run_cons, run_cons, applyGate_smul, ih]

theorem run_zero (gs : List Gate) : run gs (0 : Amp N) = 0 := by
  have := run_smul gs 0 (0 : Amp N)
  simpa using this

theorem run_sum {ι : Type} (s : Finset ι) (gs : List Gate) (f : ι → Amp N) : run gs (∑ i ∈ s, f i) = ∑ i ∈ s, run gs (f i) := by
  classical
  induction s using Finset.induction_on with
  | empty => rw [Finset.sum_empty, Finset.sum_empty, run_zero]
  | insert a s ha ih => rw [Finset.sum_insert ha, Finset.sum_insert ha, run_add, ih]

theorem tensor_add_left (φ φ' : Amp n) (χ : Amp m) : tensor (φ + φ') χ = tensor φ χ + tensor φ' χ := by
  funext b; simp only [tensor_apply, Pi.add_apply]; ring

theorem tensor_smul_right (φ : Amp n) (a : ℂ) (χ : Amp m) : tensor φ (a • χ) = a • tensor φ χ := by
  funext b; simp only [tensor_apply, Pi.smul_apply, smul_eq_mul]; ring

theorem tensor_smul_left (φ : Amp n) (a : ℂ) (χ : Amp m) : tensor (a • φ) χ = a • tensor φ χ := by
  funext b; simp only [tensor_apply, Pi.smul_apply, smul_eq_mul]; ring

theorem tensor_sum_right {ι : Type} (s : Finset ι) (φ : Amp n) (f : ι → Amp m) :
    tensor φ (∑ i ∈ s, f i) = ∑ i ∈ s, tensor φ (f i) := by
  funext b; simp only [tensor_apply, Finset.sum_apply, Finset.mul_sum]

theorem tensor_sum_left {ι : Type} (s : Finset ι) (f : ι → Amp n) (χ : Amp m) :
    tensor (∑ i ∈ s, f i) χ = ∑ i ∈ s, tensor (f i) χ := by
  funext b; simp only [tensor_apply, Finset.sum_apply, Finset.sum_mul]

/-! ### The whole circuit -/

/-- The labels in a codeword have the parities given by the logical Z operators. -/
theorem codeword_support {r : ℕ} {nf : Arr ℤ} (hsh : NormalShape n k r nf) {i : ℕ} (hi : i < k) (δ : ℕ → ZMod 2)
    (b : Fin n → ZMod 2) (hb : codeword n k r nf δ b ≠ 0) :
    dotp (rowPauli n ((logicalZOf n k r nf).row i)).z b = δ i := by
  have h := congrFun (lz_codeword hsh hi δ) b
  have hx : (rowPauli n ((logicalZOf n k r nf).row i)).x = 0 := by
    funext j
    rw [rowPauli_x (lz_shape hsh).2, lz_x j.2]; rfl
  rw [pauliAct_apply, hx, add_zero, Pi.smul_apply, smul_eq_mul] at h
  have h' := mul_right_cancel₀ hb h
  rcases zmod2_cases (dotp (rowPauli n ((logicalZOf n k r nf).row i)).z b) with e | e <;>
    rcases zmod2_cases (δ i) with e' | e' <;> rw [e, e'] at h' ⊢ <;> norm_num at h'

theorem decoding_ok {c : StabCode} (hn : c.n = n) (hk : c.k = k) (hsh : NormalShape n k c.rank c.normalForm)
    (hX : c.logicalX = logicalXOf n k c.rank c.normalForm) (hZ : c.logicalZ = logicalZOf n k c.rank c.normalForm)
    {len : ℕ} {add : Bool} (hla : (len = n ∧ add = true) ∨ (len = n + k ∧ add = false)) :
    ∃ gs, decodingCircuit c len add = .ok gs ∧ (∀ g ∈ gs, g.WF (n + k)) ∧
      ∀ δ : ℕ → ZMod 2, run gs (tensor (codeword n k c.rank c.normalForm δ) (ket 0)) =
        tensor (codeword n k c.rank c.normalForm fun j => if j < k then 0 else δ j) (ket fun i : Fin k => δ i) := by
  have hx := lx_shape hsh
  have hz := lz_shape hsh
  rw [← hX] at hx
  rw [← hZ] at hz
  have bx : ∀ i < k, IsBinary (c.logicalX.row i) := fun i hi => row_binary (by rw [hX]; exact lx_binary hsh) (by omega)
  have bz : ∀ i < k, IsBinary (c.logicalZ.row i) := fun i hi => row_binary (by rw [hZ]; exact lz_binary hsh) (by omega)
  have lx : ∀ i, (c.logicalX.row i).length = 2 * n := fun i => by rw [row_length]; omega
  have lz : ∀ i, (c.logicalZ.row i).length = 2 * n := fun i => by rw [row_length]; omega
  have hstr : ∀ i, ∃ s : List Char, i < k → binaryRepToPauliStr (c.logicalX.row i) = .ok s ∧ s.length = n ∧
      strPauli n s = rowPauli n (c.logicalX.row i) := by
    intro i
    by_cases hi : i < k
    · obtain ⟨s, h1, h2, h3⟩ := rowStr (lx i) (bx i hi)
      exact ⟨s, fun _ => ⟨h1, h2, h3⟩⟩
    · exact ⟨[], fun h => absurd h hi⟩
  choose str hstr using hstr
  have hbt : (if add then len else c.n) = n ∧ (if add then len + c.k else len) = n + k := by
    rcases hla with ⟨rfl, rfl⟩ | ⟨rfl, rfl⟩ <;> simp [hn, hk]
  have hlen : n ≤ len := by omega
  refine ⟨(List.range k).flatMap (fun i => ((c.logicalZ.row i).drop n).zipIdx.flatMap (copyG (n + i))) ++
    (List.range k).flatMap (fun i => strG (some (n + i)) 0 (str i)), ?_, ?_, ?_⟩
  · unfold decodingCircuit
    simp only
    rw [hbt.1, hbt.2, hk]
    rw [mapM_ok_of (g := fun i => ((c.logicalZ.row i).drop n).zipIdx.flatMap (copyG (n + i)))]
    · rw [ok_bind', mapM_ok_of (g := fun i => strG (some (n + i)) 0 (str i))]
      · rw [ok_bind', ← List.flatMap_def, ← List.flatMap_def]; rfl
      · intro i hi
        have hi := List.mem_range.mp hi
        obtain ⟨h1, h2, -⟩ := hstr i hi
        unfold uncomputeGates rowAt onWire
        rw [if_pos (by omega), ok_bind', if_pos (by omega), ok_bind', h1, ok_bind', pauliGates_ok (by omega)]
    · intro i hi
      have hi := List.mem_range.mp hi
      unfold copyGates rowAt
      rw [if_pos (by omega), ok_bind', hn]
      rw [mapM_ok_of (g := copyG (n + i))]
      · rw [ok_bind', ← List.flatMap_def]; rfl
      · rintro ⟨v, j⟩ hj
        have hj' := mem_zipIdx_lt hj
        have hj2 : j < n := by
          simp [lz] at hj'; omega
        unfold copyG
        by_cases hv : v = 1
        · simp only [hv, if_true]
          unfold onWire
          rw [if_pos (by omega), if_pos (by omega)]
          rfl
        · simp only [hv, if_false]
  · intro g hg
    rw [List.mem_append] at hg
    rcases hg with hg | hg
    · simp only [List.mem_flatMap, List.mem_range] at hg
      obtain ⟨i, hi, ⟨v, j⟩, hj, hg⟩ := hg
      have hj' := mem_zipIdx_lt hj
      have hj2 : j < n := by
        simp [lz] at hj'; omega
      unfold copyG at hg
      split_ifs at hg
      · rw [List.mem_singleton] at hg
        subst hg
        refine ⟨by simp; omega, ?_⟩
        intro q hq
        simp only [Option.mem_def, Option.some.injEq] at hq
        subst hq
        simp only
        omega
      · simp at hg
    · simp only [List.mem_flatMap, List.mem_range] at hg
      obtain ⟨i, hi, hg⟩ := hg
      refine strG_wf (s := str i) (c := some (n + i)) (by have := (hstr i hi).2.1; omega) ?_ g hg
      intro q hq
      simp only [Option.mem_def, Option.some.injEq] at hq
      subst hq
      have := (hstr i hi).2.1
      exact ⟨by omega, List.getD_eq_default _ _ (by omega)⟩
  · intro δ
    rw [run_append]
    have h1 : ∀ t ≤ k, run ((List.range t).flatMap (fun i => ((c.logicalZ.row i).drop n).zipIdx.flatMap (copyG (n + i))))
        (tensor (codeword n k c.rank c.normalForm δ) (ket (0 : Fin k → ZMod 2))) =
          tensor (codeword n k c.rank c.normalForm δ) (ket fun i : Fin k => if i.val < t then δ i else 0) := by
      intro t
      induction t with
      | zero => intro _; simp only [List.range_zero, List.flatMap_nil, run_nil]; rfl
      | succ t ih =>
        intro ht
        rw [List.range_succ, List.flatMap_append, run_append, ih (by omega), List.flatMap_cons, List.flatMap_nil,
          List.append_nil, run_copy_tensor (lz t) (bz t (by omega)) (t := δ t) ?_ _ (by omega)]
        · congr 2
          funext j
          rcases lt_trichotomy j.val t with h | h | h
          · rw [if_pos h, if_neg (by omega), if_pos (by omega), add_zero]
          · rw [if_neg (by omega), if_pos h, if_pos (by omega), zero_add, h]
          · rw [if_neg (by omega), if_neg (by omega), if_neg (by omega), add_zero]
        · intro b hb
          rw [hZ]
          exact codeword_support hsh (by omega) δ b hb
    rw [h1 k le_rfl]
    have e : (fun i : Fin k => if i.val < k then δ i else 0) = fun i : Fin k => δ i := by
      funext i; rw [if_pos i.2]
    rw [e]
    have h2 : ∀ t ≤ k, run ((List.range t).flatMap (fun i => strG (some (n + i)) 0 (str i)))
        (tensor (codeword n k c.rank c.normalForm δ) (ket fun i : Fin k => δ i)) =
          tensor (codeword n k c.rank c.normalForm fun j => if j < t then 0 else δ j) (ket fun i : Fin k => δ i) := by
      intro t
      induction t with
      | zero => intro _; simp only [List.range_zero, List.flatMap_nil, run_nil, Nat.not_lt_zero, if_false]
      | succ t ih =>
        intro ht
        obtain ⟨-, s2, s3⟩ := hstr t (by omega)
        rw [List.range_succ, List.flatMap_append, run_append, ih (by omega), List.flatMap_cons, List.flatMap_nil,
          List.append_nil, run_strG_zero _ _ (by omega), ctrlAct_tensor _ (by omega) _ _ (show t < k by omega), s3, hX,
          lx_codeword hsh (by omega)]
        · congr 1
          simp only [lt_irrefl, if_false]
          rcases zmod2_cases (δ t) with e0 | e0
          · rw [e0, if_neg (by decide)]
            congr 1
            funext j
            rcases lt_trichotomy j t with h | h | h
            · rw [if_pos h, if_pos (by omega)]
            · rw [h, if_neg (by omega), if_pos (by omega), e0]
            · rw [if_neg (by omega), if_neg (by omega)]
          · rw [e0, if_pos rfl]
            congr 1
            funext j
            rcases lt_trichotomy j t with h | h | h
            · rw [Function.update_of_ne (by omega), if_pos h, if_pos (by omega)]
            · rw [h, Function.update_self, if_pos (by omega)]; rfl
            · rw [Function.update_of_ne (by omega), if_neg (by omega), if_neg (by omega)]
        · intro q hq
          simp only [Option.mem_def, Option.some.injEq] at hq
          subst hq
          rw [List.getD_eq_default _ _ (by omega)]; rfl
    exact h2 k le_rfl

end PyQ
