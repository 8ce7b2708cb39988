import Verif.Spec.Choi
import Verif.Model.Choi
import Verif.Lemmas.TensorPow

/-!
# Lemmas about Choi matrices
-/

namespace PyQ

open Matrix

namespace Spec

variable {n m : ℕ} {ι : Type} [Fintype ι]

theorem vec_apply (K : Matrix (Fin m) (Fin n) ℂ) (y : Fin n) (x : Fin m) :
    vec K (finProdFinEquiv (y, x)) = K x y := by
  have h := finProdFinEquiv.symm_apply_apply (y, x)
  have h1 : (finProdFinEquiv (y, x)).divNat = y := congrArg Prod.fst h
  have h2 : (finProdFinEquiv (y, x)).modNat = x := congrArg Prod.snd h
  unfold vec
  rw [h1, h2]

theorem choi_apply (K : ι → Matrix (Fin m) (Fin n) ℂ) (y y' : Fin n) (x x' : Fin m) :
    choi K (finProdFinEquiv (y, x)) (finProdFinEquiv (y', x')) = ∑ k, K k x y * star (K k x' y') := by
  unfold choi
  rw [Matrix.sum_apply]
  simp only [vecMulVec_apply, Pi.star_apply, vec_apply]

theorem sum_index {M : Type} [AddCommMonoid M] (f : Fin (n * m) → M) :
    ∑ i, f i = ∑ y, ∑ x, f (finProdFinEquiv (y, x)) := by
  rw [← Fintype.sum_prod_type', ← finProdFinEquiv.sum_comp]

theorem choiChannel_choi (K : ι → Matrix (Fin m) (Fin n) ℂ) (ρ : Matrix (Fin n) (Fin n) ℂ) :
    choiChannel (choi K) ρ = applyKraus K ρ := by
  ext x x'
  simp only [choiChannel, choi_apply, applyKraus, Matrix.sum_apply, Matrix.mul_apply, conjTranspose_apply,
    Finset.sum_mul, Finset.mul_sum]
  rw [Finset.sum_comm]
  conv_rhs => rw [Finset.sum_comm]
  apply Finset.sum_congr rfl; intro y' _
  rw [Finset.sum_comm]
  apply Finset.sum_congr rfl; intro k _
  apply Finset.sum_congr rfl; intro y _
  ring

theorem traceOutput_choi (K : ι → Matrix (Fin m) (Fin n) ℂ) :
    traceOutput (choi K) = (∑ k, (K k)ᴴ * K k)ᵀ := by
  ext y y'
  simp only [traceOutput, choi_apply, transpose_apply, Matrix.sum_apply, Matrix.mul_apply, conjTranspose_apply]
  rw [Finset.sum_comm]
  apply Finset.sum_congr rfl; intro k _
  apply Finset.sum_congr rfl; intro x _
  ring

theorem tp_iff_traceOutput (K : ι → Matrix (Fin m) (Fin n) ℂ) :
    TracePreserving K ↔ traceOutput (choi K) = 1 := by
  rw [traceOutput_choi, TracePreserving, ← transpose_eq_one]

end Spec

namespace ChoiObj

theorem splitIndex_kept (e b : ℕ) (rest : List (ℕ × Bool)) (r : ℕ) :
    splitIndex (List.replicate b (e, true) ++ rest) r =
      ((splitIndex rest (r / e ^ b)).1 * e ^ b + r % e ^ b, (splitIndex rest (r / e ^ b)).2) := by
  induction b generalizing r with
  | zero => simp [Nat.mod_one]
  | succ b ih =>
    rw [List.replicate_succ, List.cons_append]
    simp only [splitIndex, if_true]
    rw [ih, Nat.div_div_eq_div_mul, ← pow_succ']
    congr 1
    rw [pow_succ', Nat.mod_mul]
    ring

theorem splitIndex_traced (d a : ℕ) (r : ℕ) :
    splitIndex (List.replicate a (d, false)) r = (0, r % d ^ a) := by
  induction a generalizing r with
  | zero => simp [splitIndex, Nat.mod_one]
  | succ a ih =>
    rw [List.replicate_succ]
    simp only [splitIndex, ih, Bool.false_eq_true, if_false]
    rw [pow_succ', Nat.mod_mul]
    congr 1
    ring

theorem ptrace_factors (a d e : ℕ) :
    ((List.range (List.replicate a d ++ List.replicate a e).length).map fun i =>
      ((List.replicate a d ++ List.replicate a e).getD i 0, decide (i ∈ List.range' a a))).reverse =
      List.replicate a (e, true) ++ List.replicate a (d, false) := by
  have h : (List.range (List.replicate a d ++ List.replicate a e).length).map (fun i =>
      ((List.replicate a d ++ List.replicate a e).getD i 0, decide (i ∈ List.range' a a))) =
      List.replicate a (d, false) ++ List.replicate a (e, true) := by
    apply List.ext_getElem
    · simp
    · intro i h1 h2
      simp only [List.length_map, List.length_range, List.length_append, List.length_replicate] at h1
      simp only [List.getElem_map, List.getElem_range, List.getElem_append, List.length_replicate,
        List.getElem_replicate, List.mem_range'_1]
      rw [List.getD_eq_getElem?_getD, List.getElem?_eq_getElem (by simpa using h1), Option.getD_some]
      simp only [List.getElem_append, List.length_replicate, List.getElem_replicate]
      by_cases hi : i < a
      · simp [hi]
      · simp [hi]
        omega
  rw [h, List.reverse_append, List.reverse_replicate, List.reverse_replicate]

/-- The partial trace taken by `channel` when there are as many input as output particles. -/
theorem ptrace_output (M : Arr ℂ) (a d e : ℕ) (hr : M.rows = d ^ a * e ^ a) (hc : M.cols = d ^ a * e ^ a) :
    ∃ out, ptrace M (List.replicate a d ++ List.replicate a e) (List.range' a a) = .ok out ∧
      out.rows = e ^ a ∧ out.cols = e ^ a ∧
      ∀ x x' : Fin (e ^ a), out.get x x' = ∑ y : Fin (d ^ a),
        M.get (finProdFinEquiv (y, x)) (finProdFinEquiv (y, x')) := by
  unfold ptrace
  rw [if_pos (by simp)]
  simp only [ptrace_factors]
  refine ⟨_, rfl, ?_, ?_, ?_⟩
  · simp [List.filter_append, List.prod_replicate]
  · simp [List.filter_append, List.prod_replicate]
  · intro x x'
    simp only [hr, hc, splitIndex_kept, splitIndex_traced, zero_mul, zero_add]
    have key1 : ∀ (y : Fin (d ^ a)) (x : Fin (e ^ a)), (finProdFinEquiv (y, x) : ℕ) % e ^ a = x := by
      intro y x
      rw [finProdFinEquiv_apply_val, Nat.add_mul_mod_self_left, Nat.mod_eq_of_lt x.2]
    have key2 : ∀ (y : Fin (d ^ a)) (x : Fin (e ^ a)), (finProdFinEquiv (y, x) : ℕ) / e ^ a % d ^ a = y := by
      intro y x
      rw [finProdFinEquiv_apply_val, Nat.add_mul_div_left _ _ (lt_of_le_of_lt (Nat.zero_le _) x.2),
        Nat.div_eq_of_lt x.2, zero_add, Nat.mod_eq_of_lt y.2]
    rw [Finset.sum_range, Spec.sum_index]
    apply Finset.sum_congr rfl; intro y _
    rw [Finset.sum_eq_single x]
    · rw [Finset.sum_range, Spec.sum_index, Finset.sum_eq_single y]
      · rw [Finset.sum_eq_single x']
        · rw [if_pos]
          exact ⟨key1 _ _, key1 _ _, by rw [key2, key2]⟩
        · intro z _ hz
          rw [if_neg]
          rintro ⟨-, h, -⟩
          rw [key1] at h
          exact hz (Fin.ext h)
        · simp
      · intro z _ hz
        apply Finset.sum_eq_zero
        intro w _
        rw [if_neg]
        rintro ⟨-, -, h⟩
        rw [key2, key2] at h
        exact hz (Fin.ext h.symm)
      · simp
    · intro z _ hz
      apply Finset.sum_eq_zero
      intro w _
      rw [if_neg]
      rintro ⟨h, -⟩
      rw [key1] at h
      exact hz (Fin.ext h)
    · simp

end ChoiObj

end PyQ
