import Verif.Props.Device

/-!
# C42: records that do not come from the two-design
-/

namespace PyQ

open Spec

theorem readStep_any {ι : Type} (phases : List ℝ) (mk : ι → ℝ → DGate) (items : List ι) :
    ∀ (G : List DGate) (c : ℕ), c ≤ phases.length + 1 →
      if c + items.length ≤ phases.length + 1 then
        ∃ G', items.foldlM (readStep phases mk) ⟨G, c⟩ = .ok ⟨G', c + items.length⟩
      else items.foldlM (readStep phases mk) ⟨G, c⟩ = .error .index := by
  induction items with
  | nil =>
    intro G c hc
    rw [if_pos (by simpa using hc)]
    exact ⟨G, rfl⟩
  | cons x items ih =>
    intro G c hc
    rw [List.foldlM_cons]
    by_cases h : c ≤ phases.length
    · have hs : readStep phases mk ⟨G, c⟩ x = .ok ⟨G ++ [mk x (phases.getD (phases.length - c) 0)], c + 1⟩ := by
        unfold readStep negIndex
        simp only [if_pos h]
        rfl
      rw [hs]
      have := ih (G ++ [mk x (phases.getD (phases.length - c) 0)]) (c + 1) (by omega)
      rw [List.length_cons, show c + (items.length + 1) = c + 1 + items.length by omega]
      exact this
    · rw [if_neg (by rw [List.length_cons]; omega)]
      unfold readStep negIndex
      simp only [if_neg h]
      rfl

theorem length_pairs (n : ℕ) : (pairs n).length + n = n ^ 2 := by
  rcases n.eq_zero_or_pos with rfl | hn
  · rfl
  have hp : (pairs n).length = n * (n - 1) := by
    unfold pairs
    rw [List.length_flatMap, List.map_congr_left (g := fun _ => n - 1)]
    · simp
    · intro i hi
      have hc : ((List.range n).filter fun j => i = j).length = 1 := by
        rw [← List.countP_eq_length_filter]
        have : (List.range n).count i = 1 := List.count_eq_one_of_mem List.nodup_range hi
        rw [← this]
        unfold List.count
        congr 1
        funext j
        by_cases hj : i = j
        · simp [hj]
        · simp [hj, Ne.symm hj]
      have ht := List.length_eq_length_filter_add (l := List.range n) (fun j => decide (i = j))
      rw [List.length_range, hc] at ht
      rw [List.length_map]
      have : ((List.range n).filter fun j => decide (i ≠ j)) = (List.range n).filter fun j => !decide (i = j) := by
        congr 1
        funext j
        simp
      rw [this]
      omega
  rw [hp, pow_two]
  obtain ⟨k, rfl⟩ := Nat.exists_eq_succ_of_ne_zero hn.ne'
  simp only [Nat.succ_eq_add_one, Nat.add_sub_cancel]
  ring

/-- One round with any list of phases. -/
theorem inverseRound_any (n : ℕ) (phases : List ℝ) :
    if n ^ 2 ≤ phases.length then ∃ gs, inverseRound n phases = .ok gs else inverseRound n phases = .error .index := by
  have h1 := readStep_any phases (fun (p : ℕ × ℕ) θ => DGate.R (some p.1) θ p.2) (pairs n).reverse (allH n) 1 (by omega)
  have hl := length_pairs n
  unfold inverseRound
  rw [inversePairs_fold, downRange_pairs]
  rw [List.length_reverse] at h1
  by_cases hp : 1 + (pairs n).length ≤ phases.length + 1
  · rw [if_pos hp] at h1
    obtain ⟨G, hG⟩ := h1
    have h2 := readStep_any phases (fun (i : ℕ) θ => DGate.R none (-θ) i) (downRange n) G (1 + (pairs n).length) hp
    have hd : (downRange n).length = n := by simp [downRange]
    rw [hd] at h2
    have he : ∀ s, (downRange n).foldlM (inverseSingleStep phases) s =
        (downRange n).foldlM (readStep phases fun (i : ℕ) θ => DGate.R none (-θ) i) s := fun _ => rfl
    rw [hG]
    simp only [bind, Except.bind, he]
    by_cases hn : n ^ 2 ≤ phases.length
    · rw [if_pos (by omega)] at h2
      obtain ⟨G', hG'⟩ := h2
      rw [if_pos hn, hG']
      exact ⟨_, rfl⟩
    · rw [if_neg (by omega)] at h2
      rw [if_neg hn, h2]
  · rw [if_neg hp] at h1
    rw [if_neg (by omega), h1]
    rfl

/-- C42.  `inverse_of_unitary_two_design` raises `IndexError` exactly when one of the lists of the record it is given has fewer
than `N²` phases, and returns otherwise. -/
theorem C42_short_record (N : ℕ) (record : List (List ℝ)) :
    ((∃ gs, inverseDesign N record = .ok gs) ↔ ∀ l ∈ record, N ^ 2 ≤ l.length) ∧
    (inverseDesign N record = .error .index ↔ ∃ l ∈ record, l.length < N ^ 2) := by
  have key : if ∀ l ∈ record, N ^ 2 ≤ l.length then ∃ gs, inverseDesign N record = .ok gs
      else inverseDesign N record = .error .index := by
    induction record with
    | nil =>
      rw [if_pos (by simp)]
      exact ⟨_, rfl⟩
    | cons l ls ih =>
      have hl := inverseRound_any N l
      unfold inverseDesign at ih ⊢
      rw [List.mapM_cons]
      by_cases h : N ^ 2 ≤ l.length
      · rw [if_pos h] at hl
        obtain ⟨g, hg⟩ := hl
        rw [hg]
        by_cases h' : ∀ l ∈ ls, N ^ 2 ≤ l.length
        · rw [if_pos h'] at ih
          rw [if_pos (by simpa [h] using h')]
          rcases hm : ls.mapM (inverseRound N) with x | gs
          · rw [hm] at ih
            obtain ⟨gs, hgs⟩ := ih
            cases hgs
          · exact ⟨_, rfl⟩
        · rw [if_neg h'] at ih
          rw [if_neg (by simpa [h] using h')]
          rcases hm : ls.mapM (inverseRound N) with x | gs
          · rw [hm] at ih
            exact ih
          · rw [hm] at ih
            cases ih
      · rw [if_neg h] at hl
        rw [hl, if_neg (by simp [h])]
        rfl
  by_cases h : ∀ l ∈ record, N ^ 2 ≤ l.length
  · rw [if_pos h] at key
    obtain ⟨gs, hgs⟩ := key
    refine ⟨⟨fun _ => h, fun _ => ⟨gs, hgs⟩⟩, ⟨fun he => ?_, ?_⟩⟩
    · rw [hgs] at he; cases he
    · rintro ⟨l, hl, hlt⟩
      exact absurd (h l hl) (by omega)
  · rw [if_neg h] at key
    refine ⟨⟨?_, fun h' => absurd h' h⟩, ⟨fun _ => ?_, fun _ => key⟩⟩
    · rintro ⟨gs, hgs⟩
      rw [key] at hgs; cases hgs
    · push Not at h
      exact h

/-- Both cases occur: one qubit with one phase and with none. -/
example : (∃ gs, inverseDesign 1 [[1 / 2]] = .ok gs) ∧ inverseDesign 1 [[1 / 2], []] = .error .index :=
  ⟨(C42_short_record 1 _).1.mpr (by simp), (C42_short_record 1 _).2.mpr (by simp)⟩

end PyQ
