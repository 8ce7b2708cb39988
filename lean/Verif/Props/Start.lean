import Verif.Props.ParamCholesky
import Verif.Model.Optimize
import Mathlib.Data.List.GetD

/-! # C38: the starting points that can be drawn -/

namespace PyQ

/-- The uniform draws lie in the range asked for. -/
def Spec.UniformDraws (uniform : ℝ → ℝ → ℕ → ℝ) : Prop := ∀ lo hi i, lo ≤ hi → lo ≤ uniform lo hi i ∧ uniform lo hi i ≤ hi

theorem forall₂_replicate {α β : Type} {P : α → β → Prop} (v : List α) (k : ℕ) (b : β) :
    List.Forall₂ P v (List.replicate k b) ↔ v.length = k ∧ ∀ x ∈ v, P x b := by
  induction k generalizing v with
  | zero => cases v <;> simp
  | succ k ih =>
    cases v with
    | nil => simp [List.replicate_succ]
    | cons x v =>
      rw [List.replicate_succ, List.forall₂_cons, ih]
      simp only [List.length_cons, List.mem_cons, forall_eq_or_imp, Nat.add_right_cancel_iff]
      tauto

/-- C38: the vectors that `CholeskyParam.random_vectors` can return with the uniform distribution are exactly those within
`bounds`. -/
theorem C38_cholesky_reach (normal : ℝ → ℝ → ℕ → ℝ) (nsize rank : ℕ) (h : 1 ≤ rank ∧ rank ≤ nsize) (l u : ℝ) (hu : 0 ≤ u)
    (hlu : l ≤ u) (v : List ℝ) :
    (∃ uniform, Spec.UniformDraws uniform ∧ CholeskyParam.randomVectors normal uniform nsize rank .uniform l u = .ok v) ↔
      List.Forall₂ (fun x b => b.1 ≤ x ∧ x ≤ b.2) v (CholeskyParam.bounds nsize rank l u) := by
  constructor
  · rintro ⟨uniform, hun, hv⟩
    obtain ⟨-, -, -, -, h5⟩ := C38_cholesky normal uniform nsize rank h l u hu hlu
    obtain ⟨v', e1, e2⟩ := h5 hun
    rw [hv] at e1
    obtain rfl : v = v' := by injection e1
    exact e2
  · intro hv
    have hlen : v.length = rank + (CholeskyParam.numbVariables nsize rank - rank).toNat := by
      rw [hv.length_eq]
      unfold CholeskyParam.bounds
      simp
    have hin : ∀ i (hi : i < v.length), (if i < rank then 0 else l) ≤ v.getD i 0 ∧ v.getD i 0 ≤ u := by
      intro i hi
      have h1 := (List.forall₂_iff_get.mp hv).2 i hi (by rw [← hv.length_eq]; exact hi)
      rw [List.getD_eq_getElem _ _ hi]
      simp only [List.get_eq_getElem, CholeskyParam.bounds] at h1
      by_cases hr : i < rank
      · rw [if_pos hr]
        rw [List.getElem_append_left (by simpa using hr)] at h1
        simpa using h1
      · rw [if_neg hr]
        rw [List.getElem_append_right (by simpa using hr)] at h1
        simpa using h1
    refine ⟨fun lo hi i => if lo ≤ v.getD i 0 ∧ v.getD i 0 ≤ hi then v.getD i 0 else lo, ?_, ?_⟩
    · intro lo hi i hle
      simp only
      by_cases hc : lo ≤ v.getD i 0 ∧ v.getD i 0 ≤ hi
      · rw [if_pos hc]; exact hc
      · rw [if_neg hc]; exact ⟨le_refl _, hle⟩
    · have hl := CholeskyParam.tril_length nsize rank h.2
      have hrest : ¬ CholeskyParam.numbVariables nsize rank - (rank : ℤ) < 0 := by
        rw [← hl]; push_cast; omega
      unfold CholeskyParam.randomVectors pyAssert
      rw [if_pos hu]
      simp only [bind, Except.bind]
      rw [if_neg hrest]
      refine congrArg Except.ok ?_
      apply List.ext_getElem
      · simp [hlen]
      · intro i hi hi'
        have h2 := hin i hi'
        by_cases hr : i < rank
        · rw [List.getElem_append_left (by simpa using hr)]
          rw [if_pos hr] at h2
          simp only [List.getElem_map, List.getElem_range]
          rw [if_pos h2, List.getD_eq_getElem _ _ hi']
        · rw [List.getElem_append_right (by simpa using hr)]
          rw [if_neg hr] at h2
          simp only [List.getElem_map, List.getElem_range, List.length_map, List.length_range]
          rw [show rank + (i - rank) = i by omega, if_pos h2, List.getD_eq_getElem _ _ hi']

/-- C38 for the optimisers: with `param="choleskyparam"`, the starting vectors that can be drawn are exactly those within the
bounds handed to the optimisers, and the bounds are `[0, 1]` for the diagonal and `[-1, 1]` for the rest. -/
theorem C38_cholesky_start (nsize rank : ℕ) (h : 1 ≤ rank ∧ rank ≤ nsize) (t : ℕ) (v : List ℝ) :
    (∃ g : Rng, Spec.UniformDraws (g.uniform t) ∧ g.choleskyParam.random t nsize rank = .ok v) ↔
      v.length = rank + 2 * (CholeskyParam.trilIndices nsize rank).length ∧
      (∀ x ∈ v.take rank, 0 ≤ x ∧ x ≤ 1) ∧ ∀ x ∈ v.drop rank, -1 ≤ x ∧ x ≤ 1 := by
  have hl := CholeskyParam.tril_length nsize rank h.2
  have key := C38_cholesky_reach (fun _ _ _ => 0) nsize rank h (-1) 1 (by norm_num) (by norm_num) v
  have hb : (∃ g : Rng, Spec.UniformDraws (g.uniform t) ∧ g.choleskyParam.random t nsize rank = .ok v) ↔
      ∃ uniform, Spec.UniformDraws uniform ∧
        CholeskyParam.randomVectors (fun _ _ _ => 0) uniform nsize rank .uniform (-1) 1 = .ok v :=
    ⟨fun ⟨g, h1, h2⟩ => ⟨g.uniform t, h1, h2⟩, fun ⟨f, h1, h2⟩ => ⟨⟨fun _ _ => 0, fun _ => f⟩, h1, h2⟩⟩
  rw [hb, key]
  unfold CholeskyParam.bounds
  have hr : (CholeskyParam.numbVariables nsize rank - (rank : ℤ)).toNat = 2 * (CholeskyParam.trilIndices nsize rank).length := by
    rw [← hl]; push_cast; omega
  rw [hr]
  constructor
  · intro hf
    have h1 := List.forall₂_take_append _ _ _ hf
    have h2 := List.forall₂_drop_append _ _ _ hf
    rw [List.length_replicate, forall₂_replicate] at h1 h2
    refine ⟨?_, h1.2, h2.2⟩
    rw [hf.length_eq]
    simp
  · rintro ⟨h1, h2, h3⟩
    rw [← List.take_append_drop rank v]
    refine List.rel_append ((forall₂_replicate _ _ _).mpr ⟨?_, h2⟩) ((forall₂_replicate _ _ _).mpr ⟨?_, h3⟩)
    · rw [List.length_take]; omega
    · rw [List.length_drop]; omega

/-- For two levels and rank one: one number in `[0, 1]` and two in `[-1, 1]`. -/
example : ∃ g : Rng, Spec.UniformDraws (g.uniform 0) ∧ g.choleskyParam.random 0 2 1 = .ok [1, -1, 1 / 2] := by
  rw [C38_cholesky_start 2 1 (by decide)]
  refine ⟨by decide, ?_, ?_⟩
  · intro x hx
    simp at hx
    subst hx
    norm_num
  · intro x hx
    simp at hx
    rcases hx with rfl | rfl <;> norm_num

end PyQ
