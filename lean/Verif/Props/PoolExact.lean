import Verif.Props.Optimize
import Verif.Props.OddEncoder

/-!
# Which local optimisation the pool returns (C39)

`optimize_coherent(..., use_pool=k)` runs one local optimisation per starting point and then selects
one of their results.  `C39_pool_last` and `C39_pool_first` cover results of one sign; here the
selection is described for every list of results.
-/

namespace PyQ

/-- Once a result is held, exactly the next result below minus its value replaces it. -/
theorem pool_held (l : List OptRes) (s : PoolState) (h : ∀ q ∈ l, -s.maxima ≤ q.fun_) :
    l.foldl poolStep s = s := by
  induction l with
  | nil => rfl
  | cons q l ih =>
    have hq := h q (List.mem_cons_self ..)
    rw [List.foldl_cons, poolStep, if_neg (by linarith)]
    exact ih fun p hp => h p (List.mem_cons_of_mem _ hp)

/-- **C39**, the selection for every list of results.  Either no result has a value below `10 ^ 10`, and
nothing is selected; or the selected result `r` is one that lies below minus the value selected among the
results before it, and every later result lies at or above minus the value of `r`. -/
theorem C39_pool_exact (results : List OptRes) (s : PoolState) :
    poolSelect results = s ↔
      (s = ⟨-10 ^ 10, none, false⟩ ∧ ∀ q ∈ results, 10 ^ 10 ≤ q.fun_) ∨
      ∃ pre r post, results = pre ++ r :: post ∧ s = ⟨r.fun_, some r.x, r.success⟩ ∧
        r.fun_ < -(poolSelect pre).maxima ∧ ∀ q ∈ post, -r.fun_ ≤ q.fun_ := by
  constructor
  · rintro rfl
    induction results using List.reverseRecOn with
    | nil => exact .inl ⟨rfl, by simp⟩
    | append_singleton l r ih =>
      have hs : poolSelect (l ++ [r]) = poolStep (poolSelect l) r := by
        unfold poolSelect
        rw [List.foldl_append]
        rfl
      by_cases hr : -r.fun_ > (poolSelect l).maxima
      · refine .inr ⟨l, r, [], rfl, ?_, by linarith, by simp⟩
        rw [hs, poolStep, if_pos hr]
      · rw [hs, poolStep, if_neg hr]
        rcases ih with ⟨h1, h2⟩ | ⟨pre, q, post, h1, h2, h3, h4⟩
        · refine .inl ⟨h1, fun p hp => ?_⟩
          rcases List.mem_append.mp hp with hp | hp
          · exact h2 p hp
          · rw [List.mem_singleton.mp hp]
            rw [h1] at hr
            simp only at hr
            linarith
        · refine .inr ⟨pre, q, post ++ [r], by rw [h1]; simp, h2, h3, fun p hp => ?_⟩
          rcases List.mem_append.mp hp with hp | hp
          · exact h4 p hp
          · rw [List.mem_singleton.mp hp]
            rw [h2] at hr
            simp only at hr
            linarith
  · rintro (⟨rfl, h⟩ | ⟨pre, r, post, rfl, rfl, h3, h4⟩)
    · exact pool_held _ _ fun q hq => by simpa using h q hq
    · have hs : poolSelect (pre ++ r :: post) = post.foldl poolStep (poolStep (poolSelect pre) r) := by
        unfold poolSelect
        rw [List.foldl_append]
        rfl
      rw [hs, poolStep, if_pos (by linarith)]
      exact pool_held _ _ h4

/-- Concrete case: of the values 3, -5, 2, -1, 4 the pool selects the first with `fun < -(held)` at each
step: 3, then -5, then 2 (below 5), and keeps it. -/
example (x : List ℝ) : poolSelect [⟨3, x, true⟩, ⟨-5, x, true⟩, ⟨2, x, false⟩, ⟨-1, x, true⟩, ⟨4, x, true⟩] =
    ⟨2, some x, false⟩ := by
  refine (C39_pool_exact _ _).mpr (.inr ⟨[⟨3, x, true⟩, ⟨-5, x, true⟩], ⟨2, x, false⟩,
    [⟨-1, x, true⟩, ⟨4, x, true⟩], rfl, rfl, ?_, ?_⟩)
  · simp only [poolSelect, List.foldl, poolStep]
    norm_num
  · intro q hq
    simp only [List.mem_cons, List.not_mem_nil, or_false] at hq
    rcases hq with rfl | rfl <;> norm_num

end PyQ
