import Verif.Model.Device
import Verif.Lemmas.Circuit

/-!
# Lemmas on the circuits of the device adaptor
-/

namespace PyQ

open Spec

variable {N : ℕ}

/-! ### Gates and their inverses -/

theorem runD_nil (ψ : Amp N) : runD [] ψ = ψ := rfl
theorem runD_cons (g : DGate) (gs : List DGate) (ψ : Amp N) : runD (g :: gs) ψ = runD gs (applyD g ψ) := rfl
theorem runD_append (gs hs : List DGate) (ψ : Amp N) : runD (gs ++ hs) ψ = runD hs (runD gs ψ) := List.foldl_append

/-- The two circuits undo each other on `N` qubits. -/
def Undo (N : ℕ) (gs gs' : List DGate) : Prop :=
  (∀ ψ : Amp N, runD gs' (runD gs ψ) = ψ) ∧ ∀ ψ : Amp N, runD gs (runD gs' ψ) = ψ

theorem Undo.append {a a' b b' : List DGate} (h : Undo N a a') (k : Undo N b b') : Undo N (a ++ b) (b' ++ a') := by
  constructor
  · intro ψ
    rw [runD_append, runD_append, k.1, h.1]
  · intro ψ
    rw [runD_append, runD_append, h.2, k.2]

theorem Undo.nil : Undo N [] [] := ⟨fun _ => rfl, fun _ => rfl⟩

theorem Undo.flatten {ι : Type} (f g : ι → List DGate) (l : List ι) (h : ∀ i ∈ l, Undo N (f i) (g i)) :
    Undo N (l.map f).flatten (l.map g).reverse.flatten := by
  induction l with
  | nil => exact Undo.nil
  | cons x l ih =>
    simp only [List.map_cons, List.flatten_cons, List.reverse_cons, List.flatten_append, List.flatten_nil,
      List.append_nil]
    exact (h x (by simp)).append (ih fun i hi => h i (by simp [hi]))

theorem Undo.map {ι : Type} (f g : ι → DGate) (l : List ι) (h : ∀ i ∈ l, Undo N [f i] [g i]) :
    Undo N (l.map f) (l.reverse.map g) := by
  have key : ∀ (l : List ι) (f : ι → DGate), (l.map fun i => [f i]).flatten = l.map f := by
    intro l f
    induction l with
    | nil => rfl
    | cons x l ih => simp [ih]
  have := Undo.flatten (fun i => [f i]) (fun i => [g i]) l h
  rwa [← List.map_reverse, key, key] at this

theorem phase_undo (c : Option ℕ) (θ θ' : ℝ) (w : ℕ) (h : Complex.exp ((θ + θ' : ℝ) * Complex.I) = 1) :
    Undo N [.R c θ w] [.R c θ' w] := by
  rw [Complex.ofReal_add, add_mul, Complex.exp_add] at h
  have key : ∀ (θ θ' : ℝ), Complex.exp (θ * Complex.I) * Complex.exp (θ' * Complex.I) = 1 → ∀ ψ : Amp N,
      applyD (.R c θ' w) (applyD (.R c θ w) ψ) = ψ := by
    intro θ θ' h ψ
    funext b
    simp only [applyD]
    split_ifs
    · rw [← mul_assoc, mul_comm (Complex.exp (θ' * Complex.I)), h, one_mul]
    · rfl
  exact ⟨key θ θ' h, key θ' θ (by rw [mul_comm]; exact h)⟩

theorem bitAt_setBit_ite (b : Fin N → ZMod 2) (q r : ℕ) (v : ZMod 2) (hq : q < N) :
    bitAt (setBit b q v) r = if r = q then v else bitAt b r := by
  unfold bitAt setBit
  by_cases h : r < N
  · simp only [dif_pos h]
  · rw [dif_neg h, dif_neg h, if_neg (by omega)]

theorem setBit_comm (b : Fin N → ZMod 2) (q r : ℕ) (v w : ZMod 2) (h : q ≠ r) :
    setBit (setBit b q v) r w = setBit (setBit b r w) q v := by
  funext j
  simp only [setBit]
  split_ifs <;> first | rfl | omega

theorem setBit_setBit (b : Fin N → ZMod 2) (q : ℕ) (v w : ZMod 2) :
    setBit (setBit b q v) q w = setBit b q w := by
  funext j
  simp only [setBit]
  split_ifs <;> rfl

theorem setBit_bitAt (b : Fin N → ZMod 2) (q : ℕ) (hq : q < N) : setBit b q (bitAt b q) = b := by
  funext j
  simp only [setBit]
  split_ifs with h
  · rw [← h, bitAt_fin]
  · rfl

theorem applyH (q : ℕ) (ψ : Amp N) (b : Fin N → ZMod 2) :
    applyD (.H q) ψ b = ∑ v : ZMod 2, opMat .H (bitAt b q) v * ψ (setBit b q v) := by
  simp only [applyD, applyGate]
  rw [if_pos]
  intro c hc
  cases hc

theorem H_undo (q : ℕ) (hq : q < N) : Undo N [.H q] [.H q] := by
  have key : ∀ ψ : Amp N, applyD (.H q) (applyD (.H q) ψ) = ψ := by
    intro ψ
    funext b
    rw [applyH]
    simp only [applyH, bitAt_setBit_ite _ _ _ _ hq, if_true, setBit_setBit, sum_zmod2]
    have h2 := sqrt2_sq
    have hb := setBit_bitAt b q hq
    simp only [opMat_H]
    rcases zmod2_cases (bitAt b q) with h | h
    · rw [h] at hb ⊢
      simp only [mul_zero, mul_one, sgn_zero, sgn_one, hb]
      linear_combination (2 * ψ b) * h2
    · rw [h] at hb ⊢
      simp only [mul_zero, mul_one, sgn_zero, sgn_one, hb]
      linear_combination (2 * ψ b) * h2
  exact ⟨key, key⟩

theorem H_comm (q r : ℕ) (hq : q < N) (hr : r < N) (ψ : Amp N) :
    applyD (.H q) (applyD (.H r) ψ) = applyD (.H r) (applyD (.H q) ψ) := by
  by_cases h : q = r
  · rw [h]
  funext b
  rw [applyH, applyH]
  simp only [applyH, bitAt_setBit_ite _ _ _ _ hq, bitAt_setBit_ite _ _ _ _ hr, if_neg h, if_neg (Ne.symm h), Finset.mul_sum]
  rw [Finset.sum_comm]
  apply Finset.sum_congr rfl; intro v _
  apply Finset.sum_congr rfl; intro w _
  rw [setBit_comm _ _ _ _ _ h]
  ring

theorem allH_undo : Undo N (allH N) (allH N) := by
  have h1 : Undo N (allH N) ((List.range N).reverse.map DGate.H) :=
    Undo.map _ _ _ fun i hi => H_undo i (List.mem_range.mp hi)
  have h2 : ∀ ψ : Amp N, runD ((List.range N).reverse.map DGate.H) ψ = runD (allH N) ψ := by
    intro ψ
    unfold runD allH
    refine List.Perm.foldl_eq' ((List.reverse_perm _).map _) ?_ ψ
    intro x hx y hy z
    simp only [List.mem_map, List.mem_reverse, List.mem_range] at hx hy
    obtain ⟨q, hq, rfl⟩ := hx
    obtain ⟨r, hr, rfl⟩ := hy
    exact H_comm r q hr hq z
  exact ⟨fun ψ => by rw [← h2]; exact h1.1 ψ, fun ψ => by rw [← h2 ψ]; exact h1.2 ψ⟩

/-! ### The gates of one round -/

/-- The pairs of distinct qubits in the order of the loops. -/
def pairs (n : ℕ) : List (ℕ × ℕ) :=
  (List.range n).flatMap fun i => ((List.range n).filter fun j => i ≠ j).map fun j => (i, j)

/-- The angle of the controlled gate. -/
noncomputable def ctrlAngle (draw : ℕ → ℕ → Bool) (p : ℕ × ℕ) : ℝ := if draw p.1 p.2 then Real.pi else 0

/-- The angle of the single qubit gate. -/
noncomputable def singleAngle (draw : ℕ → Fin 3) (i : ℕ) : ℝ := designPhases.getD (draw i) 0

theorem fold_single (draw : ℕ → Fin 3) (l : List ℕ) (s : DesignState) :
    l.foldl (singleStep draw) s = ⟨s.gates ++ l.map (fun i => DGate.R none (singleAngle draw i) i),
      s.phases ++ l.map (singleAngle draw)⟩ := by
  induction l generalizing s with
  | nil => simp
  | cons a l ih =>
    rw [List.foldl_cons, ih]
    simp [singleStep, singleAngle]

theorem fold_ctrl (draw : ℕ → ℕ → Bool) (i : ℕ) (l : List ℕ) (s : DesignState) :
    l.foldl (ctrlStep draw i) s =
      ⟨s.gates ++ ((l.filter fun j => i ≠ j).map fun j => (i, j)).map
          (fun p => DGate.R (some p.1) (ctrlAngle draw p) p.2),
        s.phases ++ ((l.filter fun j => i ≠ j).map fun j => (i, j)).map (ctrlAngle draw)⟩ := by
  induction l generalizing s with
  | nil => simp
  | cons a l ih =>
    rw [List.foldl_cons, ih]
    unfold ctrlStep
    by_cases h : i = a
    · simp [h]
    · simp [h, ctrlAngle]

theorem fold_pairs (draw : ℕ → ℕ → Bool) (n : ℕ) (l : List ℕ) (s : DesignState) :
    l.foldl (fun s i => (List.range n).foldl (ctrlStep draw i) s) s =
      ⟨s.gates ++ (l.flatMap fun i => ((List.range n).filter fun j => i ≠ j).map fun j => (i, j)).map
          (fun p => DGate.R (some p.1) (ctrlAngle draw p) p.2),
        s.phases ++ (l.flatMap fun i => ((List.range n).filter fun j => i ≠ j).map fun j => (i, j)).map
          (ctrlAngle draw)⟩ := by
  induction l generalizing s with
  | nil => simp
  | cons a l ih =>
    rw [List.foldl_cons, ih, fold_ctrl]
    simp

theorem designRound_eq (n : ℕ) (d : Draws) (r : ℕ) :
    designRound n d r =
      (((List.range n).map (fun i => DGate.R none (singleAngle (d.single r) i) i) ++
        (pairs n).map (fun p => DGate.R (some p.1) (ctrlAngle (d.ctrl r) p) p.2)) ++ allH n,
        (List.range n).map (singleAngle (d.single r)) ++ (pairs n).map (ctrlAngle (d.ctrl r))) := by
  unfold designRound
  simp only [fold_single, fold_pairs, List.nil_append]
  rfl

/-! ### The gates of one round of the inverse -/

/-- A loop that reads the record from the end. -/
noncomputable def readStep {ι : Type} (phases : List ℝ) (mk : ι → ℝ → DGate) (s : InverseState) (x : ι) :
    Except PyErr InverseState := do
  let phase ← negIndex phases s.counter
  return ⟨s.gates ++ [mk x phase], s.counter + 1⟩

theorem readStep_fold {ι : Type} (mk : ι → ℝ → DGate) (f : ι → ℝ) (items : List ι) :
    ∀ (pre post : List ℝ) (G : List DGate),
      items.foldlM (readStep (pre ++ (items.map f).reverse ++ post) mk) ⟨G, post.length + 1⟩ =
        .ok ⟨G ++ items.map (fun x => mk x (f x)), post.length + items.length + 1⟩ := by
  induction items with
  | nil =>
    intro pre post G
    simp [pure, Except.pure]
  | cons x items ih =>
    intro pre post G
    have hr : pre ++ ((x :: items).map f).reverse ++ post = pre ++ (items.map f).reverse ++ ([f x] ++ post) := by
      simp
    rw [hr, List.foldlM_cons]
    have hstep : readStep (pre ++ (items.map f).reverse ++ ([f x] ++ post)) mk ⟨G, post.length + 1⟩ x =
        .ok ⟨G ++ [mk x (f x)], ([f x] ++ post).length + 1⟩ := by
      unfold readStep negIndex
      simp only
      rw [if_pos (by simp; omega)]
      simp only [bind, Except.bind]
      rw [show (pre ++ (items.map f).reverse ++ ([f x] ++ post)).getD
        ((pre ++ (items.map f).reverse ++ ([f x] ++ post)).length - (post.length + 1)) 0 = f x from ?_]
      · simp only [List.length_append, List.length_singleton, Nat.add_comm]
        rfl
      · rw [show (pre ++ (items.map f).reverse ++ ([f x] ++ post)).length - (post.length + 1) =
          (pre ++ (items.map f).reverse).length by simp; omega]
        rw [List.getD_eq_getElem?_getD, List.getElem?_append_right (le_refl _)]
        simp
    rw [hstep]
    simp only [bind, Except.bind]
    rw [ih pre ([f x] ++ post) (G ++ [mk x (f x)])]
    simp
    omega

theorem inverseCtrl_fold (phases : List ℝ) (i : ℕ) (l : List ℕ) (s : InverseState) :
    l.foldlM (inverseCtrlStep phases i) s =
      ((l.filter fun j => i ≠ j).map fun j => (i, j)).foldlM
        (readStep phases fun p θ => DGate.R (some p.1) θ p.2) s := by
  induction l generalizing s with
  | nil => rfl
  | cons a l ih =>
    rw [List.foldlM_cons]
    by_cases h : i = a
    · subst h
      rw [List.filter_cons_of_neg (by simp), ← ih]
      unfold inverseCtrlStep
      rw [if_neg (by simp)]
      rfl
    · rw [List.filter_cons_of_pos (by simpa using h), List.map_cons, List.foldlM_cons]
      unfold inverseCtrlStep readStep
      rw [if_pos h]
      simp only
      congr 1
      funext s'
      exact ih s'

theorem inversePairs_fold (phases : List ℝ) (n : ℕ) (l : List ℕ) (s : InverseState) :
    l.foldlM (fun s i => (downRange n).foldlM (inverseCtrlStep phases i) s) s =
      (l.flatMap fun i => ((downRange n).filter fun j => i ≠ j).map fun j => (i, j)).foldlM
        (readStep phases fun p θ => DGate.R (some p.1) θ p.2) s := by
  induction l generalizing s with
  | nil => rfl
  | cons a l ih =>
    rw [List.foldlM_cons, List.flatMap_cons, List.foldlM_append, inverseCtrl_fold]
    congr 1
    funext s'
    exact ih s'

theorem downRange_pairs (n : ℕ) :
    ((downRange n).flatMap fun i => ((downRange n).filter fun j => i ≠ j).map fun j => (i, j)) =
      (pairs n).reverse := by
  unfold downRange pairs
  rw [List.reverse_flatMap]
  congr 1
  funext i
  rw [Function.comp_apply, ← List.map_reverse, List.filter_reverse]

/-- One round of the inverse on the record of a round. -/
theorem inverseRound_eq (n : ℕ) (f : ℕ → ℝ) (h : ℕ × ℕ → ℝ) :
    inverseRound n ((List.range n).map f ++ (pairs n).map h) =
      .ok (allH n ++ (pairs n).reverse.map (fun p => DGate.R (some p.1) (h p) p.2) ++
        (List.range n).reverse.map (fun i => DGate.R none (-(f i)) i)) := by
  unfold inverseRound
  rw [inversePairs_fold, downRange_pairs]
  have h1 := readStep_fold (fun (p : ℕ × ℕ) θ => DGate.R (some p.1) θ p.2) h (pairs n).reverse
    ((List.range n).map f) [] (allH n)
  rw [List.map_reverse, List.reverse_reverse, List.append_nil, List.length_nil] at h1
  rw [h1]
  simp only [bind, Except.bind]
  have h2 := readStep_fold (fun (i : ℕ) θ => DGate.R none (-θ) i) f (List.range n).reverse []
    ((pairs n).map h) (allH n ++ (pairs n).reverse.map fun p => DGate.R (some p.1) (h p) p.2)
  rw [List.map_reverse, List.reverse_reverse, List.nil_append, List.length_map] at h2
  rw [List.length_reverse, Nat.zero_add]
  rw [show inverseSingleStep ((List.range n).map f ++ (pairs n).map h) =
    readStep ((List.range n).map f ++ (pairs n).map h) fun (i : ℕ) θ => DGate.R none (-θ) i from rfl]
  unfold downRange
  rw [h2]
  rfl

/-- The record of a round undoes the round. -/
theorem round_undo (d : Draws) (r : ℕ) : ∃ gs, inverseRound N (designRound N d r).2 = .ok gs ∧
    Undo N (designRound N d r).1 gs := by
  rw [designRound_eq]
  refine ⟨_, inverseRound_eq N _ _, ?_⟩
  rw [List.append_assoc (allH N)]
  refine Undo.append (Undo.append ?_ ?_) allH_undo
  · refine Undo.map _ _ _ fun i _ => phase_undo _ _ _ _ ?_
    rw [add_neg_cancel]
    simp
  · refine Undo.map _ _ _ fun p _ => phase_undo _ _ _ _ ?_
    unfold ctrlAngle
    split_ifs
    · rw [← two_mul]
      push_cast
      exact Complex.exp_two_pi_mul_I
    · simp

theorem runD_smul (gs : List DGate) (a : ℂ) (ψ : Amp N) : runD gs (a • ψ) = a • runD gs ψ := by
  induction gs generalizing ψ with
  | nil => rfl
  | cons g gs ih =>
    rw [runD_cons, runD_cons, ← ih]
    congr 1
    funext b
    cases g with
    | R c θ w =>
      simp only [applyD, Pi.smul_apply, smul_eq_mul]
      split_ifs <;> ring
    | H w =>
      rw [applyH, Pi.smul_apply, applyH, smul_eq_mul, Finset.mul_sum]
      apply Finset.sum_congr rfl; intro v _
      rw [Pi.smul_apply, smul_eq_mul]
      ring

end PyQ
