import Verif.Model.Param
import Mathlib.Tactic.Ring
import Mathlib.Tactic.Linarith

/-!
# Closed form of the loops of `StandardBasis`
-/

namespace PyQ.StandardBasis

/-- Position in the vector of the (real part of the) entry `(i, j)`, `i ≤ j`. -/
def pos (n i j : ℕ) : ℕ := i * (2 * n - i) + if i = j then 0 else 2 * (j - i) - 1

/-- The entry `(p, q)` of `rho_from_vec`. -/
noncomputable def entry (vec : List ℝ) (n p q : ℕ) : ℂ :=
  if p = q then pyComplex (vec.getD (pos n p p) 0) 0
  else if p < q then pyComplex (vec.getD (pos n p q) 0) (vec.getD (pos n p q + 1) 0)
  else pyComplex (vec.getD (pos n q p) 0) (-vec.getD (pos n q p + 1) 0)

/-- Entry `(p, q)` has been written when the loop is at `(i, j)`. -/
def done (i j p q : ℕ) : Prop := min p q < i ∨ (min p q = i ∧ max p q < j)

theorem pos_row (n i : ℕ) (h : i < n) : pos n (i + 1) (i + 1) = pos n i i + (2 * (n - i) - 1) := by
  obtain ⟨m, rfl⟩ := Nat.exists_eq_add_of_lt h
  unfold pos
  simp only [if_true]
  have h1 : 2 * (i + m + 1) - (i + 1) = i + 2 * m + 1 := by omega
  have h2 : 2 * (i + m + 1) - i = i + 2 * m + 2 := by omega
  have h3 : 2 * (i + m + 1 - i) - 1 = 2 * m + 1 := by omega
  rw [h1, h2, h3]
  ring

theorem pos_lt (n i j : ℕ) (h : i < j) : pos n i j = pos n i i + (2 * (j - i) - 1) := by
  unfold pos
  rw [if_neg (by omega), if_pos rfl]
  rfl

open Classical in
theorem rhoRow_inv (vec : List ℝ) (n i : ℕ) (s : RhoState) (hi : i < n) (hc : s.counter = pos n i i)
    (hs : ∀ p < n, ∀ q < n, s.rho p q = if done i i p q then entry vec n p q else 0) (m : ℕ) (hm : i + m ≤ n) :
    let t := (List.range' i m).foldl (rhoStep vec i) s
    t.counter = pos n i i + (if m = 0 then 0 else 2 * m - 1) ∧
    ∀ p < n, ∀ q < n, t.rho p q = if done i (i + m) p q then entry vec n p q else 0 := by
  induction m with
  | zero => exact ⟨by simpa using hc, by simpa using hs⟩
  | succ m ih =>
    obtain ⟨ic, is⟩ := ih (by omega)
    rw [List.range'_1_concat, List.foldl_append]
    set t := (List.range' i m).foldl (rhoStep vec i) s
    simp only [List.foldl_cons, List.foldl_nil]
    rcases Nat.eq_zero_or_pos m with hm0 | hm0
    · subst hm0
      simp only [Nat.add_zero, if_true] at ic is ⊢
      refine ⟨by simp [rhoStep, ic], ?_⟩
      intro p hp q hq
      have h1 : (rhoStep vec i t i).rho p q = addAt t.rho i i (pyComplex (vec.getD t.counter 0) 0) p q := by
        simp [rhoStep]
      rw [h1, addAt, is p hp q hq]
      by_cases hpq : p = i ∧ q = i
      · obtain ⟨rfl, rfl⟩ := hpq
        rw [if_pos ⟨rfl, rfl⟩, if_neg (by unfold done; omega), if_pos (by unfold done; omega), zero_add, ic]
        simp [entry]
      · rw [if_neg hpq]
        have : done i i p q ↔ done i (i + (0 + 1)) p q := by unfold done; omega
        simp only [this]
    · have hne : i ≠ i + m := by omega
      rw [if_neg (by omega)] at ic
      have hpos : pos n i (i + m) = t.counter := by
        rw [pos_lt n i (i + m) (by omega), ic]
        congr 2
        omega
      refine ⟨?_, ?_⟩
      · simp only [rhoStep, if_neg hne, ic]
        rw [if_neg (by omega)]
        omega
      · intro p hp q hq
        have h1 : (rhoStep vec i t (i + m)).rho p q =
            addAt (addAt (addAt (addAt t.rho i (i + m) (pyComplex (vec.getD t.counter 0) 0))
              i (i + m) (pyComplex 0 (vec.getD (t.counter + 1) 0)))
              (i + m) i (pyComplex (vec.getD t.counter 0) 0))
              (i + m) i (pyComplex 0 (-vec.getD (t.counter + 1) 0)) p q := by
          simp only [rhoStep, if_neg hne]
        rw [h1]
        simp only [addAt]
        rw [is p hp q hq]
        by_cases h2 : p = i ∧ q = i + m
        · obtain ⟨rfl, rfl⟩ := h2
          rw [if_neg (by omega), if_neg (by omega), if_pos ⟨rfl, rfl⟩, if_pos ⟨rfl, rfl⟩,
            if_neg (by unfold done; omega), if_pos (by unfold done; omega), zero_add, ← hpos]
          unfold entry
          rw [if_neg hne, if_pos (by omega)]
          apply Complex.ext <;> simp [pyComplex]
        · by_cases h3 : p = i + m ∧ q = i
          · obtain ⟨rfl, rfl⟩ := h3
            rw [if_pos ⟨rfl, rfl⟩, if_pos ⟨rfl, rfl⟩, if_neg (by omega), if_neg (by omega),
              if_neg (by unfold done; omega), if_pos (by unfold done; omega), zero_add, ← hpos]
            unfold entry
            rw [if_neg (by omega), if_neg (by omega)]
            apply Complex.ext <;> simp [pyComplex]
          · rw [if_neg h3, if_neg h3, if_neg h2, if_neg h2]
            have : done i (i + m) p q ↔ done i (i + (m + 1)) p q := by unfold done; omega
            simp only [this]

/-- Every entry of the matrix built by `rho_from_vec`. -/
theorem rhoLoop (vec : List ℝ) (n : ℕ) (p q : ℕ) (hp : p < n) (hq : q < n) :
    ((List.range n).foldl (rhoRow vec n) ⟨fun _ _ => 0, 0⟩).rho p q = entry vec n p q := by
  classical
  have key : ∀ i ≤ n, let t := (List.range i).foldl (rhoRow vec n) ⟨fun _ _ => 0, 0⟩
      t.counter = pos n i i ∧
      ∀ p < n, ∀ q < n, t.rho p q = if done i i p q then entry vec n p q else 0 := by
    intro i
    induction i with
    | zero =>
      intro _
      refine ⟨by simp [pos], ?_⟩
      intro p _ q _
      rw [if_neg (by unfold done; omega)]
      rfl
    | succ i ih =>
      intro hi
      obtain ⟨ic, is⟩ := ih (by omega)
      rw [List.range_succ, List.foldl_append]
      simp only [List.foldl_cons, List.foldl_nil]
      obtain ⟨jc, js⟩ := rhoRow_inv vec n i _ (by omega) ic is (n - i) (by omega)
      refine ⟨?_, ?_⟩
      · refine jc.trans ?_
        rw [pos_row n i (by omega), if_neg (by omega)]
      · intro p hp q hq
        refine (js p hp q hq).trans ?_
        have : done i (i + (n - i)) p q ↔ done (i + 1) (i + 1) p q := by unfold done; omega
        simp only [this]
  rw [(key n le_rfl).2 p hp q hq, if_pos (by unfold done; omega)]

/-- The values written by `vec_from_rho` before the loop reaches `(i, j)`. -/
structure VecInv (rho : Arr ℂ) (n i j : ℕ) (s : VecState) : Prop where
  re : ∀ p q, p ≤ q → q < n → done i j p q → pos n p q < s.counter ∧ s.vec (pos n p q) = (rho.get p q).re
  im : ∀ p q, p < q → q < n → done i j p q →
    pos n p q + 1 < s.counter ∧ s.vec (pos n p q + 1) = (rho.get p q).im

theorem VecInv.step {rho : Arr ℂ} {n i m : ℕ} {s : VecState} (h : VecInv rho n i (i + m) s) (hn : i + m < n)
    (hc : s.counter = pos n i (i + m)) : VecInv rho n i (i + m + 1) (vecStep rho i s (i + m)) := by
  have hsplit : ∀ p q, p ≤ q → done i (i + m + 1) p q → done i (i + m) p q ∨ (p = i ∧ q = i + m) := by
    unfold done; intro p q _ _; omega
  by_cases hm : m = 0
  · subst hm
    have hv : vecStep rho i s (i + 0) = ⟨Function.update s.vec s.counter (rho.get i i).re, s.counter + 1⟩ := by
      simp [vecStep]
    rw [hv]
    constructor
    · intro p q hpq hq hd
      rcases hsplit p q hpq hd with h1 | ⟨rfl, rfl⟩
      · obtain ⟨h2, h3⟩ := h.re p q hpq hq h1
        exact ⟨by simp only; omega, by simp only; rw [Function.update_of_ne (by omega), h3]⟩
      · simp only [Nat.add_zero] at hc ⊢
        rw [hc]
        exact ⟨by omega, by rw [Function.update_self]⟩
    · intro p q hpq hq hd
      rcases hsplit p q hpq.le hd with h1 | ⟨rfl, rfl⟩
      · obtain ⟨h2, h3⟩ := h.im p q hpq hq h1
        exact ⟨by simp only; omega, by simp only; rw [Function.update_of_ne (by omega), h3]⟩
      · omega
  · have hv : vecStep rho i s (i + m) = ⟨Function.update (Function.update s.vec s.counter (rho.get i (i + m)).re)
        (s.counter + 1) (rho.get i (i + m)).im, s.counter + 1 + 1⟩ := by
      simp [vecStep, hm]
    rw [hv]
    constructor
    · intro p q hpq hq hd
      rcases hsplit p q hpq hd with h1 | ⟨rfl, rfl⟩
      · obtain ⟨h2, h3⟩ := h.re p q hpq hq h1
        exact ⟨by simp only; omega, by
          simp only; rw [Function.update_of_ne (by omega), Function.update_of_ne (by omega), h3]⟩
      · rw [← hc]
        exact ⟨by simp only; omega, by
          simp only; rw [Function.update_of_ne (by omega), Function.update_self]⟩
    · intro p q hpq hq hd
      rcases hsplit p q hpq.le hd with h1 | ⟨rfl, rfl⟩
      · obtain ⟨h2, h3⟩ := h.im p q hpq hq h1
        exact ⟨by simp only; omega, by
          simp only; rw [Function.update_of_ne (by omega), Function.update_of_ne (by omega), h3]⟩
      · rw [← hc]
        exact ⟨by simp only; omega, by simp only; rw [Function.update_self]⟩

theorem vecRow_inv (rho : Arr ℂ) (n i : ℕ) (s : VecState) (hi : i < n) (hc : s.counter = pos n i i)
    (hs : VecInv rho n i i s) (m : ℕ) (hm : i + m ≤ n) :
    let t := (List.range' i m).foldl (vecStep rho i) s
    t.counter = pos n i i + (if m = 0 then 0 else 2 * m - 1) ∧ VecInv rho n i (i + m) t := by
  induction m with
  | zero => exact ⟨by simpa using hc, hs⟩
  | succ m ih =>
    obtain ⟨ic, is⟩ := ih (by omega)
    rw [List.range'_1_concat, List.foldl_append]
    set t := (List.range' i m).foldl (vecStep rho i) s
    simp only [List.foldl_cons, List.foldl_nil]
    have hpos : t.counter = pos n i (i + m) := by
      rw [ic]
      by_cases hm0 : m = 0
      · subst hm0; simp
      · rw [if_neg hm0, pos_lt n i (i + m) (by omega)]
        congr 2
        omega
    refine ⟨?_, is.step (by omega) hpos⟩
    by_cases hm0 : m = 0
    · subst hm0
      simp [vecStep, ic]
    · simp only [vecStep, ic, if_neg hm0]
      rw [if_pos (by omega), if_neg (by omega)]
      simp only
      omega

/-- The vector built by `vec_from_rho`. -/
theorem vecLoop (rho : Arr ℂ) (n : ℕ) :
    let v := ((List.range n).foldl (vecRow rho n) ⟨fun _ => 0, 0⟩).vec
    (∀ p q, p ≤ q → q < n → v (pos n p q) = (rho.get p q).re) ∧
    ∀ p q, p < q → q < n → v (pos n p q + 1) = (rho.get p q).im := by
  have key : ∀ i ≤ n, let t := (List.range i).foldl (vecRow rho n) ⟨fun _ => 0, 0⟩
      t.counter = pos n i i ∧ VecInv rho n i i t := by
    intro i
    induction i with
    | zero =>
      intro _
      refine ⟨by simp [pos], ⟨?_, ?_⟩⟩
      · intro p q _ _ hd
        unfold done at hd; omega
      · intro p q _ _ hd
        unfold done at hd; omega
    | succ i ih =>
      intro hi
      obtain ⟨ic, is⟩ := ih (by omega)
      rw [List.range_succ, List.foldl_append]
      simp only [List.foldl_cons, List.foldl_nil]
      obtain ⟨jc, js⟩ := vecRow_inv rho n i _ (by omega) ic is (n - i) (by omega)
      refine ⟨?_, ?_, ?_⟩
      · refine jc.trans ?_
        rw [pos_row n i (by omega), if_neg (by omega)]
      · intro p q hpq hq hd
        exact js.re p q hpq hq (by unfold done at *; omega)
      · intro p q hpq hq hd
        exact js.im p q hpq hq (by unfold done at *; omega)
  obtain ⟨-, h⟩ := key n le_rfl
  refine ⟨fun p q hpq hq => (h.re p q hpq hq (by unfold done; omega)).2,
    fun p q hpq hq => (h.im p q hpq hq (by unfold done; omega)).2⟩

theorem pos_last (n : ℕ) : pos n n n = n ^ 2 := by
  unfold pos
  rw [if_pos rfl, Nat.add_zero, show 2 * n - n = n by omega, sq]

theorem pos_mono (n i j : ℕ) (h : i ≤ j) (hj : j ≤ n) : pos n i i ≤ pos n j j := by
  induction j, h using Nat.le_induction with
  | base => exact le_rfl
  | succ j hij ih =>
    rw [pos_row n j (by omega)]
    have := ih (by omega)
    omega

/-- Every position read or written is inside the vector. -/
theorem pos_bound (n p q : ℕ) (hpq : p ≤ q) (hq : q < n) :
    pos n p q < n ^ 2 ∧ (p < q → pos n p q + 1 < n ^ 2) := by
  have h1 := pos_mono n (p + 1) n (by omega) le_rfl
  rw [pos_row n p (by omega), pos_last] at h1
  rcases Nat.lt_or_ge p q with h | h
  · rw [pos_lt n p q h]
    omega
  · have : p = q := by omega
    subst this
    omega

/-- Every position of the vector belongs to an entry. -/
theorem pos_surj (n k : ℕ) (hk : k < n ^ 2) :
    ∃ p q, p ≤ q ∧ q < n ∧ (k = pos n p q ∨ (p < q ∧ k = pos n p q + 1)) := by
  have key : ∀ i ≤ n, k < pos n i i → ∃ p < i, pos n p p ≤ k ∧ k < pos n (p + 1) (p + 1) := by
    intro i
    induction i with
    | zero => intro _ h; simp [pos] at h
    | succ i ih =>
      intro hi h
      by_cases h' : k < pos n i i
      · obtain ⟨p, h1, h2⟩ := ih (by omega) h'
        exact ⟨p, by omega, h2⟩
      · exact ⟨i, by omega, by omega, h⟩
  obtain ⟨p, hp, h1, h2⟩ := key n le_rfl (by rw [pos_last]; exact hk)
  rw [pos_row n p hp] at h2
  by_cases h0 : k = pos n p p
  · exact ⟨p, p, le_rfl, hp, Or.inl h0⟩
  · refine ⟨p, p + (k - pos n p p + 1) / 2, by omega, by omega, ?_⟩
    rw [pos_lt n p _ (by omega)]
    omega

end PyQ.StandardBasis
