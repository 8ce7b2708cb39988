import Verif.Model.Circuit
import Verif.Lemmas.PauliAlg
import Verif.Lemmas.Except
import Mathlib.Tactic.Ring
import Mathlib.Tactic.FinCases
import Mathlib.Tactic.LinearCombination

/-! Gate lists as operators. -/

namespace PyQ

open Spec

variable {N : ℕ}

/-- The bit string with a single one at `q`. -/
def unitV (N q : ℕ) : Fin N → ZMod 2 := fun j => if j.val = q then 1 else 0

/-- `X^x Z^z` on qubit `q`. -/
def onePauli (N q : ℕ) (x z : ZMod 2) : Pauli N := ⟨fun j => if j.val = q then x else 0, fun j => if j.val = q then z else 0⟩

theorem pauliAct_apply (p : Pauli N) (ψ : Amp N) (b : Fin N → ZMod 2) :
    pauliAct p ψ b = sgn (dotp p.z (b + p.x)) * ψ (b + p.x) := by
  unfold pauliAct Matrix.mulVec dotProduct pauliMatrix
  rw [Finset.sum_eq_single (b + p.x)]
  · simp only
    rw [add_add_cancel_f, if_pos rfl]
  · intro a _ ha
    simp only
    rw [if_neg, zero_mul]
    intro h; exact ha ((eq_add_iff_f _ _ _).mp h)
  · simp

theorem pauliAct_comp (p q : Pauli N) (ψ : Amp N) :
    pauliAct p (pauliAct q ψ) = (sgn (dotp p.z q.x) : ℂ) • pauliAct (p.add q) ψ := by
  unfold pauliAct
  rw [Matrix.mulVec_mulVec, pauliMatrix_mul, Matrix.smul_mulVec]

theorem pauliAct_comm (p q : Pauli N) (ψ : Amp N) :
    pauliAct p (pauliAct q ψ) = (sgn (symp p q) : ℂ) • pauliAct q (pauliAct p ψ) := by
  unfold pauliAct
  rw [Matrix.mulVec_mulVec, pauliMatrix_comm, Matrix.smul_mulVec, Matrix.mulVec_mulVec]

theorem pauliAct_add (p : Pauli N) (ψ φ : Amp N) : pauliAct p (ψ + φ) = pauliAct p ψ + pauliAct p φ :=
  Matrix.mulVec_add _ _ _

theorem pauliAct_smul (p : Pauli N) (a : ℂ) (ψ : Amp N) : pauliAct p (a • ψ) = a • pauliAct p ψ :=
  Matrix.mulVec_smul _ _ _

theorem pauliAct_one (ψ : Amp N) : pauliAct ⟨0, 0⟩ ψ = ψ := by
  unfold pauliAct; rw [pauliMatrix_zero, Matrix.one_mulVec]

/-- A Pauli operator where all listed controls are one. -/
noncomputable def ctrlAct (c : Option ℕ) (p : Pauli N) (ψ : Amp N) : Amp N :=
  fun b => if ∀ q ∈ c, bitAt b q = 1 then pauliAct p ψ b else ψ b

theorem ctrlAct_none (p : Pauli N) (ψ : Amp N) : ctrlAct none p ψ = pauliAct p ψ := by
  funext b; unfold ctrlAct; rw [if_pos (by simp)]

theorem ctrlAct_some (c : ℕ) (p : Pauli N) (ψ : Amp N) (b : Fin N → ZMod 2) :
    ctrlAct (some c) p ψ b = if bitAt b c = 1 then pauliAct p ψ b else ψ b := by
  unfold ctrlAct; simp

theorem bitAt_add (a b : Fin N → ZMod 2) (q : ℕ) : bitAt (a + b) q = bitAt a q + bitAt b q := by
  unfold bitAt; split <;> simp

theorem bitAt_unitV {q r : ℕ} (hq : q < N) : bitAt (unitV N q) r = if r = q then 1 else 0 := by
  unfold bitAt unitV
  by_cases h : r < N
  · simp [h]
  · rw [dif_neg h, if_neg (by omega)]

theorem bitAt_zero (q : ℕ) : bitAt (0 : Fin N → ZMod 2) q = 0 := by unfold bitAt; split <;> rfl

theorem bitAt_of_lt (b : Fin N → ZMod 2) {q : ℕ} (h : q < N) : bitAt b q = b ⟨q, h⟩ := by unfold bitAt; rw [dif_pos h]

theorem bitAt_fin (b : Fin N → ZMod 2) (j : Fin N) : bitAt b j = b j := bitAt_of_lt b j.2

theorem ctrlAct_comp (c : Option ℕ) (p q : Pauli N) (ψ : Amp N) (hc : ∀ i ∈ c, bitAt p.x i = 0)
    (hz : dotp p.z q.x = 0) : ctrlAct c p (ctrlAct c q ψ) = ctrlAct c (p.add q) ψ := by
  funext b
  unfold ctrlAct
  by_cases h : ∀ i ∈ c, bitAt b i = 1
  · rw [if_pos h, if_pos h]
    have := congrFun (pauliAct_comp p q ψ) b
    rw [hz] at this
    simp only [sgn_zero, one_smul] at this
    rw [← this, pauliAct_apply, pauliAct_apply p, if_pos]
    intro i hi
    rw [bitAt_add, h i hi, hc i hi, add_zero]
  · rw [if_neg h, if_neg h, if_neg h]

theorem dotp_one (q : ℕ) (z : ZMod 2) (hq : q < N) (b : Fin N → ZMod 2) :
    dotp (onePauli N q 0 z).z b = z * bitAt b q := by
  unfold dotp onePauli
  rw [Finset.sum_eq_single ⟨q, hq⟩]
  · simp only
    rw [if_pos trivial, bitAt_of_lt _ hq]
  · intro j _ hj
    simp only
    rw [if_neg (fun h => hj (Fin.ext h)), zero_mul]
  · simp

theorem setBit_eq (b : Fin N → ZMod 2) (q : ℕ) (hq : q < N) (v : ZMod 2) :
    setBit b q v = b + fun j => if j.val = q then bitAt b q + v else 0 := by
  funext j
  simp only [setBit, Pi.add_apply]
  split_ifs with h
  · subst h
    rw [bitAt_fin, ← add_assoc, add_self_z, zero_add]
  · simp

/-- The bits of an operation. -/
def opBits : Op → ZMod 2 × ZMod 2
  | .X => (1, 0)
  | .Z => (0, 1)
  | .negIY => (1, 1)
  | _ => (0, 0)

theorem sum_zmod2 {M : Type} [AddCommMonoid M] (f : ZMod 2 → M) : ∑ v : ZMod 2, f v = f 0 + f 1 :=
  Fin.sum_univ_two (show Fin 2 → M from f)

theorem opMat_X (a b : ZMod 2) : opMat .X a b = if a = b + 1 then 1 else 0 := by
  rcases zmod2_cases a with rfl | rfl <;> rcases zmod2_cases b with rfl | rfl <;> rfl

theorem opMat_Z (a b : ZMod 2) : opMat .Z a b = if a = b then sgn b else 0 := by
  rcases zmod2_cases a with rfl | rfl <;> rcases zmod2_cases b with rfl | rfl <;> simp <;> rfl

theorem opMat_negIY (a b : ZMod 2) : opMat .negIY a b = if a = b + 1 then sgn b else 0 := by
  have e : (1 : ZMod 2) + 1 = 0 := rfl
  rcases zmod2_cases a with rfl | rfl <;> rcases zmod2_cases b with rfl | rfl
  · show -Complex.I * 0 = _; simp
  · show -Complex.I * -Complex.I = _; simp [e]
  · show -Complex.I * Complex.I = _; simp
  · show -Complex.I * 0 = _; simp [e]

theorem opMat_H (a b : ZMod 2) : opMat .H a b = ((Real.sqrt 2 : ℝ) : ℂ)⁻¹ * sgn (a * b) := by
  rcases zmod2_cases a with rfl | rfl <;> rcases zmod2_cases b with rfl | rfl
  · show ((Real.sqrt 2 : ℝ) : ℂ)⁻¹ * 1 = _; simp
  · show ((Real.sqrt 2 : ℝ) : ℂ)⁻¹ * 1 = _; simp
  · show ((Real.sqrt 2 : ℝ) : ℂ)⁻¹ * 1 = _; simp
  · show ((Real.sqrt 2 : ℝ) : ℂ)⁻¹ * -1 = _; simp

theorem opMat_Y (a b : ZMod 2) : opMat .Y a b = if a = b + 1 then Complex.I * sgn b else 0 := by
  have e : (1 : ZMod 2) + 1 = 0 := rfl
  rcases zmod2_cases a with rfl | rfl <;> rcases zmod2_cases b with rfl | rfl
  · show (0 : ℂ) = _; simp
  · show -Complex.I = _; simp [e]
  · show Complex.I = _; simp
  · show (0 : ℂ) = _; simp [e]

theorem applyGate_pauli (c : Option ℕ) (op : Op) (q : ℕ) (hq : q < N) (hop : op = .X ∨ op = .Z ∨ op = .negIY)
    (ψ : Amp N) : applyGate ⟨c, op, q⟩ ψ = ctrlAct c (onePauli N q (opBits op).1 (opBits op).2) ψ := by
  funext b
  unfold applyGate ctrlAct Gate.active
  simp only
  split_ifs with hA
  swap
  · rfl
  rw [pauliAct_apply, sum_zmod2, setBit_eq b q hq, setBit_eq b q hq]
  have hz : ∀ x z : ZMod 2, dotp (onePauli N q x z).z (b + (onePauli N q x z).x) = z * (bitAt b q + x) := by
    intro x z
    have := dotp_one q z hq (b + (onePauli N q x z).x)
    rw [show (onePauli N q x z).z = (onePauli N q 0 z).z from rfl, this, bitAt_add]
    congr 2
    rw [bitAt_of_lt _ hq]
    simp [onePauli]
  rw [hz]
  have e1 : (1 : ZMod 2) + 1 = 0 := rfl
  have hadd : ∀ f : Fin N → ZMod 2, (∀ j, f j = 0) → b + f = b := by
    intro f hf; funext j; simp [hf j]
  rcases hop with rfl | rfl | rfl <;> rcases zmod2_cases (bitAt b q) with hb | hb <;>
    simp only [hb, opMat_X, opMat_Z, opMat_negIY, opBits, onePauli] <;>
    simp [e1, show (fun _ : Fin N => (0 : ZMod 2)) = 0 from rfl]

/-- The gates of a letter, when the register is long enough. -/
def letterG (c : Option ℕ) (q : ℕ) (ch : Char) : List Gate :=
  if ch = 'X' then [⟨c, .X, q⟩] else if ch = 'Y' then [⟨c, .negIY, q⟩] else if ch = 'Z' then [⟨c, .Z, q⟩] else []

theorem letterGates_ok {len q : ℕ} (h : q < len) (c : Option ℕ) (ch : Char) :
    letterGates len c q ch = .ok (letterG c q ch) := by
  unfold letterGates letterG onWire onQureg
  rw [if_pos h]
  split_ifs <;> rfl

theorem run_nil (ψ : Amp N) : run [] ψ = ψ := rfl
theorem run_cons (g : Gate) (gs : List Gate) (ψ : Amp N) : run (g :: gs) ψ = run gs (applyGate g ψ) := rfl
theorem run_append (gs hs : List Gate) (ψ : Amp N) : run (gs ++ hs) ψ = run hs (run gs ψ) := List.foldl_append

theorem run_letterG (c : Option ℕ) (q : ℕ) (ch : Char) (hq : q < N) (ψ : Amp N) :
    run (letterG c q ch) ψ = ctrlAct c (onePauli N q ((bits ch).1 : ℤ) ((bits ch).2 : ℤ)) ψ := by
  unfold letterG
  split_ifs with h1 h2 h3
  · subst h1
    rw [run_cons, run_nil, applyGate_pauli c .X q hq (Or.inl rfl)]
    rfl
  · subst h2
    rw [run_cons, run_nil, applyGate_pauli c .negIY q hq (Or.inr (Or.inr rfl))]
    rfl
  · subst h3
    rw [run_cons, run_nil, applyGate_pauli c .Z q hq (Or.inr (Or.inl rfl))]
    rfl
  · have hb : bits ch = (0, 0) := by unfold bits; rw [if_neg h1, if_neg h3, if_neg h2]
    rw [run_nil, hb]
    funext b
    unfold ctrlAct
    split_ifs
    · have : onePauli N q ((0 : ℤ) : ZMod 2) ((0 : ℤ) : ZMod 2) = ⟨0, 0⟩ := by
        simp [onePauli, show (fun _ : Fin N => (0 : ZMod 2)) = 0 from rfl]
      rw [this, pauliAct_one]
    · rfl

/-- The Pauli of a string whose first letter sits on qubit `o`. -/
def strFrom (N o : ℕ) (s : List Char) : Pauli N :=
  ⟨fun j => if o ≤ j.val then (((bits (s.getD (j.val - o) 'I')).1 : ℤ) : ZMod 2) else 0,
   fun j => if o ≤ j.val then (((bits (s.getD (j.val - o) 'I')).2 : ℤ) : ZMod 2) else 0⟩

theorem strFrom_zero (s : List Char) : strFrom N 0 s = strPauli N s := by simp [strFrom, strPauli]

theorem strFrom_cons (o : ℕ) (a : Char) (s : List Char) :
    strFrom N o (a :: s) = (strFrom N (o + 1) s).add (onePauli N o ((bits a).1 : ℤ) ((bits a).2 : ℤ)) := by
  unfold strFrom onePauli Pauli.add
  congr 1
  · funext j
    simp only [Pi.add_apply]
    rcases lt_trichotomy j.val o with h | h | h
    · rw [if_neg (by omega), if_neg (by omega), if_neg (by omega), add_zero]
    · rw [if_pos (by omega), if_neg (by omega), if_pos h, zero_add, show j.val - o = 0 by omega]; rfl
    · rw [if_pos (by omega), if_pos (by omega), if_neg (by omega), add_zero,
        show j.val - o = (j.val - (o + 1)) + 1 by omega, List.getD_cons_succ]
  · funext j
    simp only [Pi.add_apply]
    rcases lt_trichotomy j.val o with h | h | h
    · rw [if_neg (by omega), if_neg (by omega), if_neg (by omega), add_zero]
    · rw [if_pos (by omega), if_neg (by omega), if_pos h, zero_add, show j.val - o = 0 by omega]; rfl
    · rw [if_pos (by omega), if_pos (by omega), if_neg (by omega), add_zero,
        show j.val - o = (j.val - (o + 1)) + 1 by omega, List.getD_cons_succ]

/-- The gates of a string, starting at qubit `o`. -/
def strG (c : Option ℕ) (o : ℕ) (s : List Char) : List Gate := (s.zipIdx o).flatMap fun cj => letterG c cj.2 cj.1

theorem strG_cons (c : Option ℕ) (o : ℕ) (a : Char) (s : List Char) :
    strG c o (a :: s) = letterG c o a ++ strG c (o + 1) s := by
  unfold strG; rw [List.zipIdx_cons, List.flatMap_cons]

theorem run_strG (c : Option ℕ) (o : ℕ) (s : List Char) (hs : o + s.length ≤ N)
    (hc : ∀ i ∈ c, i < o ∨ (bits (s.getD (i - o) 'I')).1 = 0) (ψ : Amp N) :
    run (strG c o s) ψ = ctrlAct c (strFrom N o s) ψ := by
  induction s generalizing o ψ with
  | nil =>
    have : strFrom N o [] = ⟨0, 0⟩ := by
      unfold strFrom; congr 1 <;> (funext j; simp [bits])
    rw [this]
    funext b
    unfold ctrlAct
    simp [strG, run_nil, pauliAct_one]
  | cons a s ih =>
    simp only [List.length_cons] at hs
    rw [strG_cons, run_append, run_letterG c o a (by omega), ih (o + 1) (by omega), strFrom_cons, ctrlAct_comp]
    · intro i hi
      by_cases hN : i < N
      · rw [bitAt_of_lt _ hN]
        simp only [strFrom]
        split_ifs with ho
        · rcases hc i hi with h | h
          · omega
          · rw [show i - o = (i - (o + 1)) + 1 by omega, List.getD_cons_succ] at h
            rw [h]; rfl
        · rfl
      · unfold bitAt; rw [dif_neg hN]
    · unfold dotp
      apply Finset.sum_eq_zero
      intro j _
      simp only [strFrom, onePauli]
      by_cases h : j.val = o
      · rw [if_neg (by omega), zero_mul]
      · rw [if_neg h, mul_zero]
    · intro i hi
      rcases hc i hi with h | h
      · left; omega
      · rcases lt_trichotomy i o with h' | h' | h'
        · left; omega
        · left; omega
        · right
          rw [show i - o = (i - (o + 1)) + 1 by omega, List.getD_cons_succ] at h
          exact h

theorem mem_zipIdx_lt {α : Type} {s : List α} {x : α × ℕ} (h : x ∈ s.zipIdx) : x.2 < s.length := by
  obtain ⟨a, i⟩ := x
  have := List.mem_zipIdx h
  simp at this
  exact this.1

theorem pauliGates_ok {len : ℕ} {s : List Char} (h : s.length ≤ len) (c : Option ℕ) :
    pauliGates len c s = .ok (strG c 0 s) := by
  unfold pauliGates
  rw [mapM_ok_of (g := fun cj => letterG c cj.2 cj.1)]
  · rw [ok_bind', ← List.flatMap_def]; rfl
  · intro cj hcj
    have := mem_zipIdx_lt hcj
    exact letterGates_ok (by omega) c _

/-- The controlled string, when the control lies outside the string or under a letter without X part. -/
theorem run_strG_zero (c : Option ℕ) (s : List Char) (hs : s.length ≤ N)
    (hc : ∀ i ∈ c, (bits (s.getD i 'I')).1 = 0) (ψ : Amp N) :
    run (strG c 0 s) ψ = ctrlAct c (strPauli N s) ψ := by
  rw [run_strG c 0 s (by omega) (fun i hi => Or.inr (by simpa using hc i hi)), strFrom_zero]

/-! ### Unitarity -/

theorem sqrt2_sq : (((Real.sqrt 2 : ℝ) : ℂ)⁻¹) * ((Real.sqrt 2 : ℝ) : ℂ)⁻¹ = 1 / 2 := by
  rw [← mul_inv, ← Complex.ofReal_mul, Real.mul_self_sqrt (by norm_num)]
  norm_num

theorem conj_sqrt2 : (starRingEnd ℂ) (((Real.sqrt 2 : ℝ) : ℂ)⁻¹) = ((Real.sqrt 2 : ℝ) : ℂ)⁻¹ := by
  rw [map_inv₀, Complex.conj_ofReal]

theorem opMat_unitary (op : Op) (v w : ZMod 2) :
    ∑ a : ZMod 2, (starRingEnd ℂ) (opMat op a v) * opMat op a w = if v = w then 1 else 0 := by
  have h2 := sqrt2_sq
  have e : (1 : ZMod 2) + 1 = 0 := rfl
  rw [sum_zmod2]
  cases op <;> simp only [opMat_X, opMat_Z, opMat_negIY, opMat_H, opMat_Y, map_mul, conj_sqrt2] <;>
    rcases zmod2_cases v with rfl | rfl <;> rcases zmod2_cases w with rfl | rfl <;> simp [e, Complex.conj_I] <;>
    (try linear_combination 2 * h2)

theorem sum_shift {M : Type} [AddCommMonoid M] (f : (Fin N → ZMod 2) → M) (u : Fin N → ZMod 2) :
    ∑ b, f (b + u) = ∑ b, f b :=
  Equiv.sum_comp (Equiv.addRight u) f

theorem applyGate_unitary (g : Gate) (hg : g.WF N) (φ ψ : Amp N) :
    braket (applyGate g φ) (applyGate g ψ) = braket φ ψ := by
  obtain ⟨hq, hc⟩ := hg
  have hdouble : ∀ F : (Fin N → ZMod 2) → ℂ, (2 : ℂ) * ∑ b, F b = ∑ b, (F b + F (b + unitV N g.wire)) := by
    intro F
    rw [Finset.sum_add_distrib, sum_shift, two_mul]
  have key : ∀ b : Fin N → ZMod 2,
      (starRingEnd ℂ) (applyGate g φ b) * applyGate g ψ b +
        (starRingEnd ℂ) (applyGate g φ (b + unitV N g.wire)) * applyGate g ψ (b + unitV N g.wire) =
      (starRingEnd ℂ) (φ b) * ψ b + (starRingEnd ℂ) (φ (b + unitV N g.wire)) * ψ (b + unitV N g.wire) := by
    intro b
    have hact : g.active (b + unitV N g.wire) ↔ g.active b := by
      unfold Gate.active
      apply forall₂_congr
      intro c hcm
      rw [bitAt_add, bitAt_unitV hq, if_neg (hc c hcm).2, add_zero]
    unfold applyGate
    by_cases hA : g.active b
    · rw [if_pos hA, if_pos hA, if_pos (hact.mpr hA), if_pos (hact.mpr hA)]
      have hs : ∀ v, setBit (b + unitV N g.wire) g.wire v = setBit b g.wire v := by
        intro v; funext j; simp only [setBit, Pi.add_apply, unitV]; split_ifs <;> simp
      have hbit : bitAt (b + unitV N g.wire) g.wire = bitAt b g.wire + 1 := by
        rw [bitAt_add, bitAt_unitV hq, if_pos rfl]
      have hset : ∀ v : ZMod 2, bitAt b g.wire = v → setBit b g.wire v = b ∧ setBit b g.wire (v + 1) = b + unitV N g.wire := by
        intro v hv
        constructor <;> funext j <;> simp only [setBit, Pi.add_apply, unitV] <;> split_ifs with h
        · rw [← hv, ← h, bitAt_fin]
        · rfl
        · rw [← hv, ← h, bitAt_fin]
        · rw [add_zero]
      have u00 := opMat_unitary g.op 0 0
      have u01 := opMat_unitary g.op 0 1
      have u10 := opMat_unitary g.op 1 0
      have u11 := opMat_unitary g.op 1 1
      simp only [sum_zmod2] at u00 u01 u10 u11 ⊢
      simp at u00 u01 u10 u11
      simp only [hs, hbit, map_add, map_mul]
      rcases zmod2_cases (bitAt b g.wire) with hb | hb
      · obtain ⟨s0, s1⟩ := hset 0 hb
        rw [zero_add] at s1
        have s0' : setBit b g.wire (0 : ZMod 2) = b := s0
        have s1' : setBit b g.wire (1 : ZMod 2) = b + unitV N g.wire := s1
        rw [hb, s0', s1', show (0 : ZMod 2) + 1 = 1 from rfl]
        generalize φ b = p0
        generalize φ (b + unitV N g.wire) = p1
        generalize ψ b = q0
        generalize ψ (b + unitV N g.wire) = q1
        show ((starRingEnd ℂ) (opMat g.op (0 : ZMod 2) 0) * (starRingEnd ℂ) p0 + (starRingEnd ℂ) (opMat g.op (0 : ZMod 2) 1) * (starRingEnd ℂ) p1) *
          (opMat g.op (0 : ZMod 2) 0 * q0 + opMat g.op (0 : ZMod 2) 1 * q1) +
          ((starRingEnd ℂ) (opMat g.op (1 : ZMod 2) 0) * (starRingEnd ℂ) p0 + (starRingEnd ℂ) (opMat g.op (1 : ZMod 2) 1) * (starRingEnd ℂ) p1) *
          (opMat g.op (1 : ZMod 2) 0 * q0 + opMat g.op (1 : ZMod 2) 1 * q1) = _
        linear_combination (starRingEnd ℂ) p0 * q0 * u00 + (starRingEnd ℂ) p0 * q1 * u01 +
          (starRingEnd ℂ) p1 * q0 * u10 + (starRingEnd ℂ) p1 * q1 * u11
      · obtain ⟨s1, s0⟩ := hset 1 hb
        rw [show (1 : ZMod 2) + 1 = 0 from rfl] at s0
        have s1' : setBit b g.wire (1 : ZMod 2) = b := s1
        have s0' : setBit b g.wire (0 : ZMod 2) = b + unitV N g.wire := s0
        rw [hb, s0', s1', show (1 : ZMod 2) + 1 = 0 from rfl]
        generalize φ b = p1
        generalize φ (b + unitV N g.wire) = p0
        generalize ψ b = q1
        generalize ψ (b + unitV N g.wire) = q0
        show ((starRingEnd ℂ) (opMat g.op (1 : ZMod 2) 0) * (starRingEnd ℂ) p0 + (starRingEnd ℂ) (opMat g.op (1 : ZMod 2) 1) * (starRingEnd ℂ) p1) *
          (opMat g.op (1 : ZMod 2) 0 * q0 + opMat g.op (1 : ZMod 2) 1 * q1) +
          ((starRingEnd ℂ) (opMat g.op (0 : ZMod 2) 0) * (starRingEnd ℂ) p0 + (starRingEnd ℂ) (opMat g.op (0 : ZMod 2) 1) * (starRingEnd ℂ) p1) *
          (opMat g.op (0 : ZMod 2) 0 * q0 + opMat g.op (0 : ZMod 2) 1 * q1) = _
        linear_combination (starRingEnd ℂ) p0 * q0 * u00 + (starRingEnd ℂ) p0 * q1 * u01 +
          (starRingEnd ℂ) p1 * q0 * u10 + (starRingEnd ℂ) p1 * q1 * u11
    · rw [if_neg hA, if_neg hA, if_neg (fun h => hA (hact.mp h)), if_neg (fun h => hA (hact.mp h))]
  have h2 : (2 : ℂ) * braket (applyGate g φ) (applyGate g ψ) = 2 * braket φ ψ := by
    unfold braket
    rw [hdouble, hdouble]
    exact Finset.sum_congr rfl fun b _ => key b
  exact mul_left_cancel₀ two_ne_zero h2

theorem run_unitary (gs : List Gate) (hg : ∀ g ∈ gs, g.WF N) (φ ψ : Amp N) :
    braket (run gs φ) (run gs ψ) = braket φ ψ := by
  induction gs generalizing φ ψ with
  | nil => rfl
  | cons g gs ih =>
    rw [run_cons, run_cons, ih (fun g' h => hg g' (by simp [h])), applyGate_unitary g (hg g (by simp))]

theorem braket_ket (a b : Fin N → ZMod 2) : braket (ket a) (ket b) = if a = b then 1 else 0 := by
  unfold braket ket
  rw [Finset.sum_eq_single a]
  · simp
  · intro c _ hc; simp [hc]
  · simp

end PyQ
