import Verif.Props.GateErrors
import Verif.Props.Optimize
import Verif.Spec.NoisyCircuits

/-! # C148: Pauli errors anywhere in a circuit -/

namespace PyQ

open Spec

variable {N : ℕ}

/-- The phase of an operation relative to the product of its powers of X and Z. -/
noncomputable def opPhase (op : Op) : ℂ := if op = .Y then Complex.I else 1

theorem normSq_opPhase (op : Op) : Complex.normSq (opPhase op) = 1 := by
  unfold opPhase; split_ifs <;> simp

/-- A bit string with one bit. -/
def unitBit (N w : ℕ) (a : ZMod 2) : Fin N → ZMod 2 := fun j => if j.val = w then a else 0

theorem dotp_unit_right {w : ℕ} (hw : w < N) (z b : Fin N → ZMod 2) (a : ZMod 2) :
    dotp z (b + unitBit N w a) = dotp z b + bitAt z w * a := by
  unfold dotp unitBit
  simp only [Pi.add_apply, mul_add, Finset.sum_add_distrib]
  congr 1
  rw [bitAt_of_lt _ hw, Finset.sum_eq_single ⟨w, hw⟩]
  · simp
  · intro j _ hj
    rw [if_neg (fun h => hj (Fin.ext h)), mul_zero]
  · simp

theorem dotp_unit_left {w : ℕ} (hw : w < N) (z b : Fin N → ZMod 2) (a : ZMod 2) :
    dotp (z + unitBit N w a) b = dotp z b + a * bitAt b w := by
  unfold dotp unitBit
  simp only [Pi.add_apply, add_mul, Finset.sum_add_distrib]
  congr 1
  rw [bitAt_of_lt _ hw, Finset.sum_eq_single ⟨w, hw⟩]
  · simp
  · intro j _ hj
    rw [if_neg (fun h => hj (Fin.ext h)), zero_mul]
  · simp

theorem bitAt_unit_same {w : ℕ} (hw : w < N) (a : ZMod 2) : bitAt (unitBit N w a) w = a := by
  rw [bitAt_of_lt _ hw]; simp [unitBit]

theorem bitAt_unit_other {v w : ℕ} (h : v ≠ w) (a : ZMod 2) : bitAt (unitBit N w a) v = 0 := by
  unfold bitAt unitBit
  split_ifs <;> rfl

theorem setBit_unit {w : ℕ} (hw : w < N) (b : Fin N → ZMod 2) (v : ZMod 2) : setBit b w v = b + unitBit N w (bitAt b w + v) := by
  funext j
  unfold setBit unitBit
  rw [Pi.add_apply]
  by_cases h : j.val = w
  · rw [if_pos h, if_pos h, bitAt_of_lt _ hw, show (⟨w, hw⟩ : Fin N) = j from Fin.ext h.symm, ← add_assoc, add_self_z, zero_add]
  · rw [if_neg h, if_neg h, add_zero]

/-- A gate that is a Pauli operator up to phase, where its control is one. -/
theorem applyGate_op (c : Option ℕ) (op : Op) (w : ℕ) (hw : w < N) (hop : op ≠ .H) (χ : Amp N) (b : Fin N → ZMod 2) :
    applyGate ⟨c, op, w⟩ χ b = if ∀ i ∈ c, bitAt b i = 1 then
      opPhase op * sgn ((opPauli op).2 * (bitAt b w + (opPauli op).1)) * χ (b + unitBit N w (opPauli op).1) else χ b := by
  unfold applyGate Gate.active
  simp only
  split_ifs with hA
  swap
  · rfl
  have e1 : (1 : ZMod 2) + 1 = 0 := rfl
  have u0 : unitBit N w 0 = 0 := by funext j; simp [unitBit]
  rw [sum_zmod2, setBit_unit hw, setBit_unit hw]
  cases op with
  | H => exact absurd rfl hop
  | X => rcases zmod2_cases (bitAt b w) with hb | hb <;> simp [hb, opMat_X, opPauli, opPhase, e1, u0]
  | Z => rcases zmod2_cases (bitAt b w) with hb | hb <;> simp [hb, opMat_Z, opPauli, opPhase, e1, u0]
  | Y => rcases zmod2_cases (bitAt b w) with hb | hb <;> simp [hb, opMat_Y, opPauli, opPhase, e1, u0]
  | negIY => rcases zmod2_cases (bitAt b w) with hb | hb <;> simp [hb, opMat_negIY, opPauli, opPhase, e1, u0]

theorem phase_sq (op : Op) (hop : op ≠ .H) :
    opPhase op * opPhase op = sgn ((if op = .negIY then 1 else 0) + (opPauli op).2 * (opPauli op).1) := by
  have e1 : (1 : ZMod 2) + 1 = 0 := rfl
  cases op with
  | H => exact absurd rfl hop
  | X => simp [opPhase, opPauli]
  | Z => simp [opPhase, opPauli]
  | Y => simp [opPhase, opPauli]
  | negIY => simp [opPhase, opPauli, e1]

/-- A Pauli operator before a gate is one after it. -/
theorem gate_push (g : Gate) (hg : g.WF N) (hp : g.Plain) (q : Pauli N) :
    ∃ ω : ℂ, Complex.normSq ω = 1 ∧ ∀ ψ : Amp N, applyGate g (pauliAct q ψ) = ω • pauliAct (pushed g q) (applyGate g ψ) := by
  obtain ⟨ctrl, op, w⟩ := g
  obtain ⟨hw, hc⟩ := hg
  cases ctrl with
  | none =>
    by_cases hop : op = .H
    · subst hop
      refine ⟨sgn (bitAt q.x w * bitAt q.z w), normSq_sgn _, fun ψ => ?_⟩
      funext b
      have hpu : pushed ⟨none, .H, w⟩ q =
          ⟨q.x + unitBit N w (bitAt q.x w + bitAt q.z w), q.z + unitBit N w (bitAt q.z w + bitAt q.x w)⟩ := by
        show Pauli.mk (setBit q.x w (bitAt q.z w)) (setBit q.z w (bitAt q.x w)) = _
        rw [setBit_unit hw, setBit_unit hw]
      have comb : ∀ (d : Fin N → ZMod 2) (u v : ZMod 2), d + unitBit N w u + unitBit N w v = d + unitBit N w (u + v) := by
        intro d u v
        funext j
        simp only [Pi.add_apply, unitBit]
        split_ifs <;> ring
      have e1 : (1 : ZMod 2) + 1 = 0 := rfl
      rw [hpu, Pi.smul_apply, smul_eq_mul, applyGate_H, pauliAct_apply, pauliAct_apply, pauliAct_apply, applyGate_H]
      simp only [setBit_unit hw]
      rw [dotp_unit_left hw, ← add_assoc b, dotp_unit_right hw, bitAt_add, bitAt_add, bitAt_unit_same hw, comb, comb,
        show b + unitBit N w (bitAt b w + 0) + q.x = b + q.x + unitBit N w (bitAt b w + 0) by abel,
        show b + unitBit N w (bitAt b w + 1) + q.x = b + q.x + unitBit N w (bitAt b w + 1) by abel, dotp_unit_right hw, dotp_unit_right hw]
      generalize hF : (fun u => ψ (b + q.x + unitBit N w u)) = F
      have hF' : ∀ u, ψ (b + q.x + unitBit N w u) = F u := fun u => congrFun hF u
      simp only [hF', sgn_add]
      rcases zmod2_cases (bitAt q.x w) with hX | hX <;> rcases zmod2_cases (bitAt q.z w) with hZ | hZ <;>
        rcases zmod2_cases (bitAt b w) with hB | hB <;> simp [hX, hZ, hB, e1] <;> ring
    · refine ⟨sgn ((opPauli op).1 * bitAt q.z w + (opPauli op).2 * bitAt q.x w), normSq_sgn _, fun ψ => ?_⟩
      funext b
      have hpu : pushed ⟨none, op, w⟩ q = q := by simp [pushed, hop]
      rw [hpu, Pi.smul_apply, smul_eq_mul, applyGate_op _ _ _ hw hop, if_pos (by simp), pauliAct_apply, pauliAct_apply,
        applyGate_op _ _ _ hw hop, if_pos (by simp), bitAt_add,
        show b + unitBit N w (opPauli op).1 + q.x = b + q.x + unitBit N w (opPauli op).1 by abel, dotp_unit_right hw]
      simp only [sgn_add, mul_add]
      rw [mul_comm (opPauli op).1 (bitAt q.z w)]
      have hs : (sgn ((opPauli op).2 * bitAt q.x w) : ℂ) * sgn ((opPauli op).2 * bitAt q.x w) = 1 := by
        rw [← sgn_add, add_self_z, sgn_zero]
      linear_combination (-(opPhase op * sgn ((opPauli op).2 * bitAt b w) * sgn ((opPauli op).2 * (opPauli op).1) *
        sgn (dotp q.z (b + q.x)) * sgn (bitAt q.z w * (opPauli op).1) * ψ (b + q.x + unitBit N w (opPauli op).1))) * hs
  | some c =>
    have hop : op ≠ .H := fun h => by have := hp h; simp at this
    obtain ⟨hcN, hcw⟩ := hc c rfl
    have hwc : w ≠ c := fun h => hcw h.symm
    refine ⟨if bitAt q.x c = 1 then opPhase op * sgn ((opPauli op).2 * bitAt q.x w) else 1, ?_, fun ψ => ?_⟩
    · split_ifs
      · rw [Complex.normSq_mul, normSq_opPhase, normSq_sgn, one_mul]
      · simp
    funext b
    set px := (opPauli op).1 with hpx
    set pz := (opPauli op).2 with hpz
    set κ : ZMod 2 := if op = .negIY then 1 else 0 with hκ
    have hpu : pushed ⟨some c, op, w⟩ q = ⟨q.x + unitBit N w (bitAt q.x c * px),
        q.z + unitBit N w (bitAt q.x c * pz) + unitBit N c (px * bitAt q.z w + pz * bitAt q.x w + κ * bitAt q.x c)⟩ := by
      have : (if op = .negIY then bitAt q.x c else 0) = κ * bitAt q.x c := by
        rw [hκ]; split_ifs <;> simp
      unfold pushed
      simp only [this]
      rfl
    have comb : ∀ (d : Fin N → ZMod 2) (u v : ZMod 2), d + unitBit N w u + unitBit N w v = d + unitBit N w (u + v) := by
      intro d u v
      funext j
      simp only [Pi.add_apply, unitBit]
      split_ifs <;> ring
    have u0 : unitBit N w 0 = 0 := by funext j; simp [unitBit]
    have hsq := phase_sq op hop
    rw [← hpx, ← hpz, ← hκ] at hsq
    have e1 : (1 : ZMod 2) + 1 = 0 := rfl
    have hone : ∀ f : ZMod 2, (∀ i ∈ some c, bitAt b i = f) ↔ bitAt b c = f := by intro f; simp
    have hall : ∀ (d : Fin N → ZMod 2), (∀ i ∈ some c, bitAt d i = 1) ↔ bitAt d c = 1 := by intro d; simp
    rw [hpu, Pi.smul_apply, smul_eq_mul, applyGate_op _ _ _ hw hop, if_congr (hall b) rfl rfl, pauliAct_apply, pauliAct_apply,
      pauliAct_apply, applyGate_op _ _ _ hw hop, if_congr (hall _) rfl rfl, ← hpx, ← hpz]
    simp only
    rw [dotp_unit_left hcN, dotp_unit_left hw, ← add_assoc b, dotp_unit_right hw, bitAt_add _ _ c, bitAt_add _ _ c, bitAt_add _ _ w,
      bitAt_add _ _ w, bitAt_unit_other hcw, bitAt_unit_same hw, comb, add_zero,
      show b + unitBit N w px + q.x = b + q.x + unitBit N w px by abel, dotp_unit_right hw]
    generalize hF : (fun u => ψ (b + q.x + unitBit N w u)) = F
    have hF' : ∀ u, ψ (b + q.x + unitBit N w u) = F u := fun u => congrFun hF u
    have hF0 : ψ (b + q.x) = F 0 := by rw [← hF' 0, u0, add_zero]
    simp only [hF', hF0]
    generalize dotp q.z (b + q.x) = D
    generalize bitAt q.z w = Z
    generalize bitAt q.x w = X
    generalize bitAt b w = B
    generalize opPhase op = lam at hsq ⊢
    clear_value px pz κ
    rcases zmod2_cases (bitAt q.x c) with hxc | hxc <;> rcases zmod2_cases (bitAt b c) with hbc | hbc <;>
      simp only [hxc, hbc, e1, zero_mul, mul_zero, add_zero, zero_add, one_mul, mul_one, if_true, add_self_z, zero_ne_one, if_false]
    · have key : ∀ pz px B D Z X : ZMod 2, pz * (B + px) + (D + Z * px) = D + (px * Z + pz * X) + pz * (B + X + px) := by decide
      have := congrArg (sgn : ZMod 2 → ℂ) (key pz px B D Z X)
      rw [sgn_add, sgn_add (D + (px * Z + pz * X))] at this
      linear_combination (lam * F px) * this
    · have key : ∀ pz px B D Z X κ : ZMod 2, D = pz * X + (D + Z * px + pz * (B + X + px) + (px * Z + pz * X + κ)) +
          pz * (B + X + px + px) + (κ + pz * px) := by decide
      have := congrArg (sgn : ZMod 2 → ℂ) (key pz px B D Z X κ)
      rw [sgn_add _ (κ + pz * px), sgn_add _ (pz * (B + X + px + px)), sgn_add (pz * X), ← hsq] at this
      linear_combination F 0 * this
    · have key : ∀ pz px B D Z X : ZMod 2, pz * (B + px) + (D + Z * px) = pz * X + (D + Z * px + pz * (B + X + px)) := by decide
      have := congrArg (sgn : ZMod 2 → ℂ) (key pz px B D Z X)
      rw [sgn_add, sgn_add (pz * X)] at this
      linear_combination (lam * F px) * this

theorem run_push (gs : List Gate) (hg : ∀ g ∈ gs, g.WF N ∧ g.Plain) (q : Pauli N) :
    ∃ ω : ℂ, Complex.normSq ω = 1 ∧ ∀ ψ : Amp N, run gs (pauliAct q ψ) = ω • pauliAct (gs.foldl (fun q g => pushed g q) q) (run gs ψ) := by
  induction gs generalizing q with
  | nil => exact ⟨1, by simp, fun ψ => by rw [one_smul]; rfl⟩
  | cons g gs ih =>
    obtain ⟨h1, h2⟩ := hg g (List.mem_cons_self ..)
    obtain ⟨ω, hω, h⟩ := gate_push g h1 h2 q
    obtain ⟨ω', hω', h'⟩ := ih (fun g' hg' => hg g' (List.mem_cons_of_mem _ hg')) (pushed g q)
    refine ⟨ω * ω', by rw [Complex.normSq_mul, hω, hω', one_mul], fun ψ => ?_⟩
    rw [run_cons, run_cons, h, run_smul, h', smul_smul, List.foldl_cons]

/-- **C148**.  Let the gates be gates on `N` qubits without a controlled Hadamard gate among them, and let any Pauli operators
happen between them, before the first and after the last.  Whatever the state is, the result is, up to a common phase, that of the
circuit without errors followed by the product of the errors taken through the rest of the circuit. -/
theorem C148_circuit (gs : List Gate) (hg : ∀ g ∈ gs, g.WF N ∧ g.Plain) (e : ℕ → Pauli N) :
    ∃ ω : ℂ, Complex.normSq ω = 1 ∧ ∀ ψ : Amp N, runNoisy gs e ψ = ω • pauliAct (totalError gs e) (run gs ψ) := by
  induction gs generalizing e with
  | nil => exact ⟨1, by simp, fun ψ => by rw [one_smul]; rfl⟩
  | cons g gs ih =>
    obtain ⟨ω, hω, h⟩ := run_push (g :: gs) hg (e 0)
    obtain ⟨ω', hω', h'⟩ := ih (fun g' hg' => hg g' (List.mem_cons_of_mem _ hg')) (fun i => e (i + 1))
    rw [List.foldl_cons] at h
    refine ⟨ω' * ω * sgn (dotp (totalError gs fun i => e (i + 1)).z (gs.foldl (fun q g => pushed g q) (pushed g (e 0))).x), ?_, fun ψ => ?_⟩
    · rw [Complex.normSq_mul, Complex.normSq_mul, hω, hω', normSq_sgn, one_mul, one_mul]
    · show runNoisy gs _ (applyGate g (pauliAct (e 0) ψ)) = _
      have := h ψ
      rw [run_cons] at this
      rw [h', this, pauliAct_smul, pauliAct_comp, smul_smul, smul_smul]
      rfl

/-! ### The circuits of the library -/

theorem mapM_plain {α : Type} {f : α → Except PyErr (List Gate)} {l : List α} {r : List (List Gate)}
    (hf : ∀ a gs, f a = .ok gs → ∀ g ∈ gs, g.Plain) (h : l.mapM f = .ok r) : ∀ g ∈ r.flatten, g.Plain := by
  rw [mapM_ok_iff] at h
  induction h with
  | nil => simp
  | cons h1 _ ih =>
    intro g hg
    rw [List.flatten_cons, List.mem_append] at hg
    rcases hg with hg | hg
    · exact hf _ _ h1 g hg
    · exact ih g hg

theorem plain_of {c : Option ℕ} {op : Op} {w : ℕ} (h : op ≠ .H) : (⟨c, op, w⟩ : Gate).Plain := fun h' => absurd h' h

theorem letterGates_plain (len : ℕ) (ctrl : Option ℕ) (q : ℕ) (ch : Char) (gs : List Gate) (h : letterGates len ctrl q ch = .ok gs) :
    ∀ g ∈ gs, g.Plain := by
  unfold letterGates at h
  split_ifs at h
  · obtain ⟨a, -, h⟩ := bind_ok_iff.mp h
    cases h; simp [Gate.Plain]
  · obtain ⟨a, -, h⟩ := bind_ok_iff.mp h
    cases h; simp [Gate.Plain]
  · obtain ⟨a, -, h⟩ := bind_ok_iff.mp h
    cases h; simp [Gate.Plain]
  · cases h; simp

theorem pauliGates_plain (len : ℕ) (ctrl : Option ℕ) (s : List Char) (gs : List Gate) (h : pauliGates len ctrl s = .ok gs) :
    ∀ g ∈ gs, g.Plain := by
  unfold pauliGates at h
  obtain ⟨l, hl, h⟩ := bind_ok_iff.mp h
  cases h
  exact mapM_plain (fun a gs h => letterGates_plain _ _ _ _ gs h) hl

theorem copyGates_plain (c : StabCode) (len base total i : ℕ) (gs : List Gate) (h : copyGates c len base total i = .ok gs) :
    ∀ g ∈ gs, g.Plain := by
  unfold copyGates at h
  obtain ⟨z, -, h⟩ := bind_ok_iff.mp h
  obtain ⟨l, hl, h⟩ := bind_ok_iff.mp h
  cases h
  refine mapM_plain (fun a gs h => ?_) hl
  split_ifs at h
  · obtain ⟨a, -, h⟩ := bind_ok_iff.mp h
    obtain ⟨a, -, h⟩ := bind_ok_iff.mp h
    cases h; simp [Gate.Plain]
  · cases h; simp

/-- **C148**, the circuits.  Whatever the arguments, no circuit the library sends has a controlled Hadamard gate. -/
theorem C148_plain (c : StabCode) (gs : List Gate) :
    ((∃ len δ, encodingCircuit c len δ = .ok gs) ∨ (∃ len st, applyStabilizerCircuit len st = .ok gs) ∨
      (∃ len add, decodingCircuit c len add = .ok gs) ∨ (∃ len op, logicalCircuit c len op = .ok gs) ∨
      (∃ active len st w, syndromeCircuit c active len st = .ok (gs, w))) → ∀ g ∈ gs, g.Plain := by
  rintro (⟨len, δ, h⟩ | ⟨len, st, h⟩ | ⟨len, add, h⟩ | ⟨len, op, h⟩ | ⟨active, len, st, w, h⟩)
  · unfold encodingCircuit at h
    obtain ⟨-, -, h⟩ := bind_ok_iff.mp h
    obtain ⟨-, -, h⟩ := bind_ok_iff.mp h
    obtain ⟨prep, h1, h⟩ := bind_ok_iff.mp h
    obtain ⟨lx, h2, h⟩ := bind_ok_iff.mp h
    obtain ⟨gens, h3, h⟩ := bind_ok_iff.mp h
    cases h
    intro g hg
    rw [List.mem_append, List.mem_append] at hg
    rcases hg with (hg | hg) | hg
    · refine mapM_plain (fun a gs h => ?_) h1 g hg
      unfold prepareBit at h
      obtain ⟨-, -, h⟩ := bind_ok_iff.mp h
      cases h
      split_ifs <;> simp [Gate.Plain]
    · split_ifs at h2
      · cases h2
        obtain ⟨i, -, hg⟩ := List.mem_flatMap.mp hg
        unfold logicalXGates at hg
        obtain ⟨q, -, hg⟩ := List.mem_flatMap.mp hg
        split_ifs at hg
        · rw [List.mem_singleton] at hg; rw [hg]; exact plain_of (by decide)
        · cases hg
      · cases h2; cases hg
    · refine mapM_plain (fun a gs h => ?_) h3 g hg
      unfold generatorGates at h
      obtain ⟨s, -, h⟩ := bind_ok_iff.mp h
      obtain ⟨l, hl, h⟩ := bind_ok_iff.mp h
      cases h
      intro g hg
      rw [List.mem_cons] at hg
      rcases hg with rfl | hg
      · exact fun _ => rfl
      · refine mapM_plain (fun a gs h => ?_) hl g hg
        unfold generatorLetter at h
        split_ifs at h
        · exact letterGates_plain _ _ _ _ gs h
        · cases h; simp
  · cases st with
    | str s => cases h
    | bin b =>
      unfold applyStabilizerCircuit at h
      obtain ⟨s, -, h⟩ := bind_ok_iff.mp h
      obtain ⟨l, hl, h⟩ := bind_ok_iff.mp h
      cases h
      refine mapM_plain (fun a gs h => ?_) hl
      unfold applyLetter at h
      split_ifs at h
      · obtain ⟨a, -, h⟩ := bind_ok_iff.mp h
        cases h; simp [Gate.Plain]
      · obtain ⟨a, -, h⟩ := bind_ok_iff.mp h
        cases h; simp [Gate.Plain]
      · obtain ⟨a, -, h⟩ := bind_ok_iff.mp h
        cases h; simp [Gate.Plain]
      · cases h; simp
  · unfold decodingCircuit at h
    obtain ⟨copy, h1, h⟩ := bind_ok_iff.mp h
    obtain ⟨unc, h2, h⟩ := bind_ok_iff.mp h
    cases h
    intro g hg
    rw [List.mem_append] at hg
    rcases hg with hg | hg
    · exact mapM_plain (fun a gs h => copyGates_plain _ _ _ _ _ gs h) h1 g hg
    · refine mapM_plain (fun a gs h => ?_) h2 g hg
      unfold uncomputeGates at h
      obtain ⟨x, -, h⟩ := bind_ok_iff.mp h
      obtain ⟨a, -, h⟩ := bind_ok_iff.mp h
      obtain ⟨s, -, h⟩ := bind_ok_iff.mp h
      exact pauliGates_plain _ _ _ _ h
  · unfold logicalCircuit at h
    split at h
    · obtain ⟨-, -, h⟩ := bind_ok_iff.mp h
      obtain ⟨i, -, h⟩ := bind_ok_iff.mp h
      obtain ⟨-, -, h⟩ := bind_ok_iff.mp h
      obtain ⟨row, -, h⟩ := bind_ok_iff.mp h
      obtain ⟨s, -, h⟩ := bind_ok_iff.mp h
      exact pauliGates_plain _ _ _ _ h
    · cases h
  · unfold syndromeCircuit at h
    by_cases hA : active ≠ c.n ∧ active ≠ c.n + 1
    · rw [if_pos hA] at h; cases h
    rw [if_neg hA] at h
    obtain ⟨anc, -, h⟩ := bind_ok_iff.mp h
    obtain ⟨s, -, h⟩ := bind_ok_iff.mp h
    obtain ⟨l, hl, h⟩ := bind_ok_iff.mp h
    cases h
    intro g hg
    rw [List.mem_append, List.mem_cons, List.mem_singleton] at hg
    rcases hg with (rfl | hg) | rfl
    · exact fun _ => rfl
    · refine mapM_plain (fun a gs h => ?_) hl g hg
      unfold syndromeLetter at h
      split_ifs at h
      · exact letterGates_plain _ _ _ _ gs h
      · cases h; simp
    · exact fun _ => rfl

/-- **C148**, a syndrome measurement with any number of errors in it.  Let the measured operator have the value `t`.  Exactly one
result is possible, `t` or its opposite according to whether the errors, taken to the end of the circuit, flip the ancilla; and
the register is left with what they do to it. -/
theorem C148_measurement (c : StabCode) {st : StabArg} (hs : st.Valid c.n) {gs : List Gate} {w : ℕ}
    (hc : syndromeCircuit c c.n c.n st = .ok (gs, w)) (e : ℕ → Pauli (c.n + 1)) (t : ZMod 2) :
    ∃ ω : ℂ, Complex.normSq ω = 1 ∧ ∀ φ : Amp c.n, Normalised φ → pauliAct (st.pauli c.n) φ = (sgn t : ℂ) • φ → ∀ r φ',
      NoisyStep c e φ st r φ' ↔ r = t + ancX (totalError gs e) ∧ φ' = ω • pauliAct (regPart (totalError gs e)) φ := by
  obtain ⟨gs1, k1, k2, k3⟩ := syndromeCircuit_spec (c := c) (active := c.n) (len := c.n) (Or.inl ⟨rfl, rfl⟩) hs
  obtain ⟨rfl, rfl⟩ : gs = gs1 ∧ w = _ := Prod.mk.inj (Except.ok.inj (hc.symm.trans k1))
  have hpl := C148_plain c gs (Or.inr (Or.inr (Or.inr (Or.inr ⟨_, _, _, _, hc⟩))))
  obtain ⟨ω, hω, h⟩ := C148_circuit gs (fun g hg => ⟨k2 g hg, hpl g hg⟩) e
  refine ⟨ω * sgn (ancZ (totalError gs e) * t), by rw [map_mul, hω, normSq_sgn, one_mul], fun φ hφ ht r φ' => ?_⟩
  have hrun : runNoisy gs e (tensor φ (qubit 0)) = (ω * sgn (ancZ (totalError gs e) * t)) •
      tensor (pauliAct (regPart (totalError gs e)) φ) (qubit (t + ancX (totalError gs e))) := by
    rw [h, k3 _ _ ht, zero_add, pauliAct_split, smul_smul]
  rw [← measured_iff (normalised_pauli _ hφ) (by rw [map_mul, hω, normSq_sgn, one_mul]), ← hrun]
  unfold NoisyStep
  constructor
  · rintro ⟨gs', w', k1', k2'⟩
    obtain ⟨rfl, rfl⟩ : gs' = _ ∧ w' = _ := Prod.mk.inj (Except.ok.inj (k1'.symm.trans k1))
    exact k2'
  · intro k
    exact ⟨_, _, k1, k⟩

section
variable {s : StabInput} {k : ℕ} {c : StabCode}

theorem readings_from (h : stabInit s c.n k none = .ok c) (hb : BinaryArr c.stab) (hind : Independent c.n c.stab)
    (l : List ((ℕ → Pauli (c.n + 1)) × List ℤ)) (hl : ∀ x ∈ l, x.2 ∈ c.iter) (v : BVec c.n) :
    ∃ σ : ℂ, Complex.normSq σ = 1 ∧ ∀ ψ : Amp c.n, Normalised ψ → (∀ g ∈ c.iter, pauliAct (rowPauli c.n g) ψ = ψ) →
      ∀ z : ℂ, Complex.normSq z = 1 → ∀ rs φ, CircuitReadings c (z • pauliAct (ofVec v) ψ) l rs φ ↔
        rs = (readAll c v l).1 ∧ φ = (σ * z) • pauliAct (ofVec (readAll c v l).2) ψ := by
  induction l generalizing v with
  | nil =>
    refine ⟨1, by simp, fun ψ _ _ z _ rs φ => ?_⟩
    rw [one_mul]
    constructor
    · intro hr; cases hr; exact ⟨rfl, rfl⟩
    · rintro ⟨rfl, rfl⟩; exact CircuitReadings.nil _
  | cons x l ih =>
    obtain ⟨e, g⟩ := x
    have hg : g ∈ c.iter := hl _ List.mem_cons_self
    have hval : (StabArg.bin g).Valid c.n := by
      obtain ⟨-, -, -, hsh, -, -, -⟩ := accepted_facts h hb hind
      obtain ⟨a, ha, rfl⟩ := iter_mem.mp hg
      exact ⟨by rw [row_length, hsh.cols], row_binary hsh.binary ha⟩
    obtain ⟨gs, k1, -⟩ := syndromeCircuit_spec (c := c) (active := c.n) (len := c.n) (Or.inl ⟨rfl, rfl⟩) hval
    have hq : stepError c g e = totalError gs e := by unfold stepError; rw [k1]
    obtain ⟨ω, hω, hm⟩ := C148_measurement c hval k1 e (sympV (rowPauli c.n g).vec v)
    rw [← hq] at hm
    set q := stepError c g e with hqd
    set p := (regPart q).vec with hp
    obtain ⟨σ, hσ, hall⟩ := ih (fun x hx => hl x (List.mem_cons_of_mem _ hx)) (v + p)
    have hτn : Complex.normSq (sgn (dotp p.2 v.1) : ℂ) = 1 := normSq_sgn _
    refine ⟨σ * (ω * sgn (dotp p.2 v.1)), by rw [map_mul, map_mul, hσ, hω, hτn]; norm_num, fun ψ hψ hfix z hz rs φ => ?_⟩
    have heig : pauliAct (StabArg.pauli c.n (.bin g)) (z • pauliAct (ofVec v) ψ) =
        (sgn (sympV (rowPauli c.n g).vec v) : ℂ) • (z • pauliAct (ofVec v) ψ) :=
      (round_valid h hb hind hfix z v (.bin g) (List.mem_map_of_mem hg)).2
    have hstep := hm _ (normalised_smul' hz (normalised_pauli _ hψ)) heig
    have herr : ω • pauliAct (regPart q) (z • pauliAct (ofVec v) ψ) = (ω * sgn (dotp p.2 v.1) * z) • pauliAct (ofVec (v + p)) ψ := by
      have := pauliAct_ofVec_add p v ψ
      rw [pauliAct_smul, show pauliAct (regPart q) (pauliAct (ofVec v) ψ) = _ from this, smul_smul, smul_smul]
      congr 1; ring
    rw [herr] at hstep
    have hzn : Complex.normSq (ω * sgn (dotp p.2 v.1) * z) = 1 := by rw [map_mul, map_mul, hω, hτn, hz]; norm_num
    have hnext := hall ψ hψ hfix _ hzn
    have hr1 : (readAll c v ((e, g) :: l)).1 = (sympV (rowPauli c.n g).vec v + ancX q) :: (readAll c (v + p) l).1 := rfl
    have hr2 : (readAll c v ((e, g) :: l)).2 = (readAll c (v + p) l).2 := rfl
    rw [hr1, hr2, show σ * (ω * sgn (dotp p.2 v.1)) * z = σ * (ω * sgn (dotp p.2 v.1) * z) by ring]
    constructor
    · intro hr
      cases hr with
      | cons h1 h2 =>
        obtain ⟨rfl, rfl⟩ := (hstep _ _).mp h1
        obtain ⟨rfl, rfl⟩ := (hnext _ _).mp h2
        exact ⟨rfl, rfl⟩
    · rintro ⟨rfl, rfl⟩
      exact CircuitReadings.cons ((hstep _ _).mpr ⟨rfl, rfl⟩) ((hnext _ _).mpr ⟨rfl, rfl⟩)

theorem circuit_from (h : stabInit s c.n k none = .ok c) (hb : BinaryArr c.stab) (hind : Independent c.n c.stab)
    {table : List (ZMod 2) → List ℤ} (ht : TableFor c.n table) (ess : List (List (ℕ → Pauli (c.n + 1)))) (v : BVec c.n) :
    ∃ ω : ℂ, Complex.normSq ω = 1 ∧ ∀ ψ : Amp c.n, Normalised ψ → (∀ g ∈ c.iter, pauliAct (rowPauli c.n g) ψ = ψ) →
      ∀ z : ℂ, Complex.normSq z = 1 → ∀ φ, CircuitRounds c table (z • pauliAct (ofVec v) ψ) ess φ ↔
        φ = (ω * z) • pauliAct (ofVec (leftoverCircuit c table v ess)) ψ := by
  induction ess generalizing v with
  | nil =>
    refine ⟨1, by simp, fun ψ _ _ z _ φ => ⟨fun hr => ?_, ?_⟩⟩
    · cases hr; rw [one_mul]; rfl
    · rintro rfl; rw [one_mul]; exact CircuitRounds.nil _
  | cons es ess ih =>
    obtain ⟨σ, hσ, hread⟩ := readings_from h hb hind (es.zip c.iter) (fun x hx => (List.of_mem_zip hx).2) v
    set u := (readAll c v (es.zip c.iter)).2 with hu
    set r := table (readAll c v (es.zip c.iter)).1 with hr
    obtain ⟨ω, hω, hall⟩ := ih (u + (rowPauli c.n r).vec)
    obtain ⟨corr, str, c1, -, -, c4⟩ := C48_apply_stabilizer c.n r (ht _).1 (ht _).2
    set τ : ℂ := Complex.I ^ (str.count 'Y') * sgn (dotp (rowPauli c.n r).vec.2 u.1) with hτ
    have hτn : Complex.normSq τ = 1 := by rw [hτ, map_mul, normSq_sgn, map_pow, Complex.normSq_I, one_pow, one_mul]
    refine ⟨ω * (τ * σ), by rw [map_mul, map_mul, hω, hτn, hσ]; norm_num, fun ψ hψ hfix z hz φ => ?_⟩
    have key := hread ψ hψ hfix z hz
    have hcorr : run corr ((σ * z) • pauliAct (ofVec u) ψ) = (τ * (σ * z)) • pauliAct (ofVec (u + (rowPauli c.n r).vec)) ψ := by
      rw [run_smul, c4]
      have := pauliAct_ofVec_add (rowPauli c.n r).vec u ψ
      rw [show pauliAct (rowPauli c.n r) (pauliAct (ofVec u) ψ) = _ from this, smul_smul, smul_smul, hτ]
      congr 1; ring
    have hτz : Complex.normSq (τ * (σ * z)) = 1 := by rw [map_mul, hτn, map_mul, hσ, hz]; norm_num
    have hnext := hall ψ hψ hfix (τ * (σ * z)) hτz φ
    have hfin : ω * (τ * (σ * z)) = ω * (τ * σ) * z := by ring
    rw [hfin] at hnext
    constructor
    · intro hR
      cases hR with
      | cons hh hc hrest =>
        obtain ⟨rfl, rfl⟩ := (key _ _).mp hh
        rw [← hr, c1] at hc
        cases hc
        rw [hcorr] at hrest
        exact hnext.mp hrest
    · intro hφ
      refine CircuitRounds.cons (corr := corr) ((key _ _).mpr ⟨rfl, rfl⟩) (by rw [← hr]; exact c1) ?_
      rw [hcorr]; exact hnext.mpr hφ

/-- **C148**, error correction with any Pauli errors at any places of the measurements.  Any number of rounds can be carried out
on whatever is encoded; they leave it, up to a common phase, with one Pauli operator, and bring it back exactly when that is in
the group of the code. -/
theorem C148_rounds (h : stabInit s c.n k none = .ok c) (hb : BinaryArr c.stab) (hind : Independent c.n c.stab)
    (hY : ∀ a < c.stab.rows, parityY (rowPauli c.n (c.stab.row a)) = 0)
    (table : List (ZMod 2) → List ℤ) (ht : TableFor c.n table) (ess : List (List (ℕ → Pauli (c.n + 1)))) :
    (∃ ω : ℂ, Complex.normSq ω = 1 ∧ ∀ ψ, Encoded c c.n k ψ → Normalised ψ → ∀ φ,
      CircuitRounds c table ψ ess φ ↔ φ = ω • pauliAct (ofVec (leftoverCircuit c table 0 ess)) ψ) ∧
    ((∃ z : ℂ, ∀ ψ, Encoded c c.n k ψ → Normalised ψ → ∀ φ, CircuitRounds c table ψ ess φ → φ = z • ψ) ↔
      leftoverCircuit c table 0 ess ∈ groupOf c.n c.iter) := by
  obtain ⟨ω, hω, hall⟩ := circuit_from h hb hind ht ess 0
  have hR : ∀ ψ, Encoded c c.n k ψ → Normalised ψ → ∀ φ,
      CircuitRounds c table ψ ess φ ↔ φ = ω • pauliAct (ofVec (leftoverCircuit c table 0 ess)) ψ := by
    intro ψ hψ hN φ
    have := hall ψ hN (encoded_fix h hb hind hY hψ) 1 (by simp) φ
    rw [one_smul, mul_one] at this
    rwa [show pauliAct (ofVec (0 : BVec c.n)) ψ = ψ from pauliAct_one ψ] at this
  exact ⟨⟨ω, hω, hR⟩, (restored_iff h hb hind hY hω hR).1⟩

/-- **C148**, encoding with errors.  Errors anywhere in the encoding circuit leave the encoded state with one Pauli operator, and a
round of error correction brings it back if what the table holds for that operator completes it to one of the group. -/
theorem C148_encoding (h : stabInit s c.n k none = .ok c) (hb : BinaryArr c.stab) (hind : Independent c.n c.stab)
    (hY : ∀ a < c.stab.rows, parityY (rowPauli c.n (c.stab.row a)) = 0)
    (table : List (ZMod 2) → List ℤ) (ht : TableFor c.n table) (δ : List ℤ) (hlen : δ.length = k) (hδ : IsBinary δ) :
    ∃ enc, encodingCircuit c c.n δ = .ok enc ∧ ∀ e : ℕ → Pauli c.n,
      (∃ ω : ℂ, Complex.normSq ω = 1 ∧ runNoisy enc e (ket 0) = ω • pauliAct (totalError enc e) (run enc (ket 0))) ∧
      ((totalError enc e).vec + (rowPauli c.n (table (signs c.n c.iter (totalError enc e).vec))).vec ∈ groupOf c.n c.iter →
        ∃ z : ℂ, Complex.normSq z = 1 ∧ ∀ φ, Rounds c table (runNoisy enc e (ket 0)) [[]] φ ↔ φ = z • run enc (ket 0)) := by
  obtain ⟨enc, e1, e2⟩ := C13_even_generators_rows_fix s c.n k c h hb hind hY δ hlen hδ
  obtain ⟨gs, g1, g2, -⟩ := C11_encoding_closed_form s c.n k c h hb hind δ hlen hδ
  obtain rfl : gs = enc := Except.ok.inj (g1.symm.trans e1)
  have hnorm : Normalised (run gs (ket 0) : Amp c.n) := by
    obtain ⟨gs1, gs2, h1, h2, h3⟩ := C12_encoding_isometry s c.n k c h hb hind δ δ hlen hδ hlen hδ
    rw [e1] at h1 h2
    cases h1; cases h2
    rw [if_pos rfl] at h3
    exact normalised_of_braket h3
  have hpl := C148_plain c gs (Or.inl ⟨_, _, e1⟩)
  refine ⟨gs, e1, fun e => ?_⟩
  obtain ⟨ω, hω, hall⟩ := C148_circuit gs (fun g hg => ⟨g2 g hg, hpl g hg⟩) e
  refine ⟨⟨ω, hω, hall _⟩, fun hm => ?_⟩
  obtain ⟨ω', hω', hr⟩ := rounds_from h hb hind ht [[]] (totalError gs e).vec
  obtain ⟨t, htt⟩ := group_act _ hm
  refine ⟨ω' * ω * sgn t, by rw [map_mul, map_mul, hω, hω', normSq_sgn]; norm_num, fun φ => ?_⟩
  have hzero : (rowPauli c.n []).vec = 0 := Prod.ext (funext fun j => by simp [rowPauli, Pauli.vec]) (funext fun j => by simp [rowPauli, Pauli.vec])
  have hlo : leftover c.n c.iter table (totalError gs e).vec [[]] =
      (totalError gs e).vec + (rowPauli c.n (table (signs c.n c.iter (totalError gs e).vec))).vec := by
    simp only [leftover, hzero, add_zero]
  have key := hr _ hnorm e2 ω hω φ
  rw [hlo, htt _ e2, smul_smul] at key
  rw [hall]
  exact key

end

/-! ### How far an error spreads -/

/-- **C148**, spreading: a gate without control does not spread an error, one with a control spreads it to at most one more
qubit. -/
theorem C148_spread (g : Gate) (q : Pauli N) :
    weight (pushed g q) ≤ weight q + (if g.ctrl.isSome then 1 else 0) := by
  obtain ⟨ctrl, op, w⟩ := g
  cases ctrl with
  | none =>
    simp only [Option.isSome_none, Bool.false_eq_true, if_false, add_zero]
    unfold pushed
    simp only
    split_ifs with hop
    · refine Finset.card_le_card fun j hj => ?_
      rw [Finset.mem_filter] at hj ⊢
      refine ⟨Finset.mem_univ _, ?_⟩
      have hj := hj.2
      simp only [setBit] at hj
      by_cases h : j.val = w
      · rw [if_pos h, if_pos h, ← h, bitAt_fin, bitAt_fin] at hj
        exact hj.symm
      · rwa [if_neg h, if_neg h] at hj
    · exact le_refl _
  | some c =>
    simp only [Option.isSome_some, if_true]
    set a : ℕ := if bitAt q.x c = 1 then w else c with ha
    have hsub : ∀ j : Fin N, ((pushed ⟨some c, op, w⟩ q).x j ≠ 0 ∨ (pushed ⟨some c, op, w⟩ q).z j ≠ 0) →
        (q.x j ≠ 0 ∨ q.z j ≠ 0) ∨ j.val = a := by
      intro j hj
      by_contra hno
      push Not at hno
      obtain ⟨⟨hx, hz⟩, hja⟩ := hno
      unfold pushed at hj
      simp only [hx, hz, zero_add] at hj
      rcases zmod2_cases (bitAt q.x c) with hc | hc
      · rw [ha, hc, if_neg (by decide)] at hja
        simp [hc, hja] at hj
      · rw [ha, if_pos hc] at hja
        have hjc : j.val ≠ c := by
          rintro rfl
          rw [bitAt_fin, hx] at hc
          exact absurd hc (by decide)
        simp [hja, hjc] at hj
    unfold weight
    by_cases haN : a < N
    · refine (Finset.card_le_card (t := insert ⟨a, haN⟩ (Finset.univ.filter fun j => q.x j ≠ 0 ∨ q.z j ≠ 0)) fun j hj => ?_).trans
        (Finset.card_insert_le _ _)
      rw [Finset.mem_filter] at hj
      rw [Finset.mem_insert, Finset.mem_filter]
      rcases hsub j hj.2 with h | h
      · exact Or.inr ⟨Finset.mem_univ _, h⟩
      · exact Or.inl (Fin.ext h)
    · refine (Finset.card_le_card fun j hj => ?_).trans (Nat.le_succ _)
      rw [Finset.mem_filter] at hj ⊢
      rcases hsub j hj.2 with h | h
      · exact ⟨Finset.mem_univ _, h⟩
      · exact absurd j.2 (by rw [h]; exact haN)

/-- **C148**, spreading through a circuit: to at most one more qubit for every controlled gate. -/
theorem C148_spread_circuit (gs : List Gate) (q : Pauli N) :
    weight (gs.foldl (fun q g => pushed g q) q) ≤ weight q + (gs.filter fun g => g.ctrl.isSome).length := by
  induction gs generalizing q with
  | nil => exact le_refl _
  | cons g gs ih =>
    rw [List.foldl_cons]
    refine (ih _).trans ?_
    have := C148_spread g q
    rw [List.filter_cons]
    split_ifs at this ⊢ <;> simp <;> omega

/-! ### Instances -/

/-- A flip of the control before a controlled X gate and a Hadamard gate becomes Z on the control and X on the target. -/
example : ∃ ω : ℂ, Complex.normSq ω = 1 ∧ ∀ ψ : Amp 2,
    runNoisy [⟨some 0, .X, 1⟩, ⟨none, .H, 0⟩] (fun i => if i = 0 then ⟨![1, 0], 0⟩ else ⟨0, 0⟩) ψ =
      ω • pauliAct ⟨![0, 1], ![1, 0]⟩ (run [⟨some 0, .X, 1⟩, ⟨none, .H, 0⟩] ψ) := by
  have hg : ∀ g ∈ ([⟨some 0, .X, 1⟩, ⟨none, .H, 0⟩] : List Gate), g.WF 2 ∧ g.Plain := by
    intro g hg
    simp only [List.mem_cons, List.not_mem_nil, or_false] at hg
    rcases hg with rfl | rfl
    · exact ⟨⟨by decide, by simp⟩, plain_of (by decide)⟩
    · exact ⟨⟨by decide, by simp⟩, fun _ => rfl⟩
  have := C148_circuit _ hg (fun i => if i = 0 then ⟨![1, 0], 0⟩ else ⟨0, 0⟩)
  have ht : totalError [⟨some 0, .X, 1⟩, ⟨none, .H, 0⟩] (fun i => if i = 0 then (⟨![1, 0], 0⟩ : Pauli 2) else ⟨0, 0⟩) =
      ⟨![0, 1], ![1, 0]⟩ := by
    have e1 : (totalError [⟨some 0, .X, 1⟩, ⟨none, .H, 0⟩] (fun i => if i = 0 then (⟨![1, 0], 0⟩ : Pauli 2) else ⟨0, 0⟩)).x = ![0, 1] := by
      decide
    have e2 : (totalError [⟨some 0, .X, 1⟩, ⟨none, .H, 0⟩] (fun i => if i = 0 then (⟨![1, 0], 0⟩ : Pauli 2) else ⟨0, 0⟩)).z = ![1, 0] := by
      decide
    exact congrArg₂ Pauli.mk e1 e2
  rwa [ht] at this

/-- The five-qubit code and its table meet the hypotheses of `C148_rounds` and `C148_encoding`. -/
example : ∃ c, stabInit (.rows fiveRows) c.n 1 none = .ok c ∧ BinaryArr c.stab ∧ Independent c.n c.stab ∧
    (∀ a < c.stab.rows, parityY (rowPauli c.n (c.stab.row a)) = 0) ∧ TableFor c.n fiveTable := by
  obtain ⟨c, h1, h2, h3, h4, h5⟩ := five_code
  have hn : c.n = 5 := (accepted_facts h1 h2 h3).1
  rw [← hn] at h1 h3 h4
  exact ⟨c, h1, h2, h3, h4, by rw [hn]; exact fiveTable_for⟩

end PyQ
