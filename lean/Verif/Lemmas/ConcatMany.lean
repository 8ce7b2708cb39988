import Verif.Lemmas.ConcatGens

/-!
# Concatenation with several logical qubits: the loop over the letters
-/

namespace PyQ

open Spec

theorem foldlM_error_of {α β : Type} {f : β → α → Except PyErr β} (P : β → Prop)
    (hP : ∀ s a s', P s → f s a = .ok s' → P s') (pre : List α) (a : α) (post : List α) (s : β) (hs : P s)
    (h : ∀ s', P s' → ∃ e, f s' a = .error e) : ∃ e, (pre ++ a :: post).foldlM f s = .error e := by
  induction pre generalizing s with
  | nil =>
    obtain ⟨e, he⟩ := h s hs
    exact ⟨e, by simp only [List.nil_append, List.foldlM_cons, he]; rfl⟩
  | cons b pre ih =>
    rcases hb : f s b with e | s'
    · exact ⟨e, by simp only [List.cons_append, List.foldlM_cons, hb]; rfl⟩
    · obtain ⟨e, he⟩ := ih s' (hP s b s' hs hb)
      exact ⟨e, by simp only [List.cons_append, List.foldlM_cons, hb, ok_bind']; exact he⟩

theorem chooseLogical_length {c2 : StabCode} {which : ℕ} {x z : ℤ} {cur v : Option (List ℤ)} {m : ℕ}
    (hcx : c2.logicalX.cols = 2 * m) (hcz : c2.logicalZ.cols = 2 * m) (hcur : ∀ l, cur = some l → l.length = 2 * m)
    (h : chooseLogical c2 which x z cur = .ok v) : ∀ l, v = some l → l.length = 2 * m := by
  unfold chooseLogical logicalAt at h
  split_ifs at h
  · simp only [ok_bind', pure_ok', Except.ok.injEq] at h
    rintro l rfl
    rw [Option.some.injEq] at h
    rw [← h]; simp [Arr.row, hcx]
  · simp [bind, Except.bind] at h
  · simp only [ok_bind', pure_ok', Except.ok.injEq] at h
    rintro l rfl
    rw [Option.some.injEq] at h
    rw [← h]; simp [Arr.row, hcz]
  · simp [bind, Except.bind] at h
  · simp only [ok_bind', pure_ok', Except.ok.injEq] at h
    rintro l rfl
    rw [Option.some.injEq] at h
    rw [← h]; simp [Arr.row, hcz, hcx]
  · simp [bind, Except.bind] at h
  · simp [bind, Except.bind] at h
  · simp [bind, Except.bind] at h
  · rw [Except.ok.injEq] at h
    rw [← h]; exact hcur

/-- Adding a vector to one block. -/
theorem addSlice_ok {B m b : ℕ} {a v : List ℤ} (ha : a.length = B * m) (hv : v.length = m) (hb : b < B) :
    ∃ a', addSlice a (m * b) (m * (b + 1)) v = .ok a' ∧ a'.length = B * m ∧ (IsBinary a → IsBinary v → IsBinary a') ∧
      ∀ t < B * m, ((a'.getD t 0 : ℤ) : ZMod 2) =
        ((a.getD t 0 : ℤ) : ZMod 2) + if t / m = b then ((v.getD (t % m) 0 : ℤ) : ZMod 2) else 0 := by
  have h1 : m * (b + 1) ≤ B * m := by rw [mul_comm]; exact Nat.mul_le_mul_right m hb
  have h2 : m * (b + 1) = m * b + m := by ring
  refine ⟨(List.range a.length).map fun t =>
      if m * b ≤ t ∧ t < m * (b + 1) then (a.getD t 0 + v.getD (t - m * b) 0) % 2 else a.getD t 0, ?_, ?_, ?_, ?_⟩
  · unfold addSlice
    rw [if_pos (by rw [ha, hv, min_eq_left h1, min_eq_left (by omega)]; omega)]
  · simp [ha]
  · intro hba hbv w hw
    obtain ⟨t, ht, rfl⟩ := List.mem_map.mp hw
    split_ifs
    · rcases Int.emod_two_eq_zero_or_one (a.getD t 0 + v.getD (t - m * b) 0) with h | h <;> rw [h] <;> simp
    · rw [List.getD_eq_getElem _ _ (List.mem_range.mp ht)]
      exact hba _ (List.getElem_mem _)
  · intro t ht
    have hm : 0 < m := by
      rcases Nat.eq_zero_or_pos m with h0 | h0
      · subst h0; simp at ht
      · exact h0
    rw [List.getD_eq_getElem _ _ (by simpa [ha] using ht)]
    simp only [List.getElem_map, List.getElem_range]
    by_cases h : t / m = b
    · have h3 := Nat.div_add_mod t m
      have h4 := Nat.mod_lt t hm
      rw [h] at h3
      rw [if_pos h, if_pos (by omega), show t - m * b = t % m by omega]
      rw [show ((((a.getD t 0 + v.getD (t % m) 0) % 2 : ℤ)) : ZMod 2) = ((a.getD t 0 + v.getD (t % m) 0 : ℤ) : ZMod 2) from by
        rw [ZMod.intCast_eq_intCast_iff]
        exact Int.mod_modEq _ _]
      push_cast
      rfl
    · rw [if_neg h, if_neg, add_zero]
      rintro ⟨h3, h4⟩
      apply h
      rw [Nat.div_eq_iff hm]
      rw [mul_comm] at h3
      rw [h2, mul_comm] at h4
      omega

/-- A letter other than the identity picks a logical operator. -/
theorem chooseLogical_ok {c2 : StabCode} {which m : ℕ} {x z : ℤ} (cur : Option (List ℤ))
    (hcx : c2.logicalX.cols = 2 * m) (hcz : c2.logicalZ.cols = 2 * m) (hbx : BinaryArr c2.logicalX) (hbz : BinaryArr c2.logicalZ)
    (hwx : which < c2.logicalX.rows) (hwz : which < c2.logicalZ.rows)
    (hx : x = 0 ∨ x = 1) (hz : z = 0 ∨ z = 1) (hne : ¬ (x = 0 ∧ z = 0)) :
    ∃ v, chooseLogical c2 which x z cur = .ok (some v) ∧ v.length = 2 * m ∧ IsBinary v ∧
      ∀ t < 2 * m, ((v.getD t 0 : ℤ) : ZMod 2) =
        (x : ZMod 2) * ((c2.logicalX.get which t : ℤ) : ZMod 2) + (z : ZMod 2) * ((c2.logicalZ.get which t : ℤ) : ZMod 2) := by
  have lx : logicalAt c2.logicalX which = .ok (c2.logicalX.row which) := if_pos hwx
  have lz : logicalAt c2.logicalZ which = .ok (c2.logicalZ.row which) := if_pos hwz
  have bx : IsBinary (c2.logicalX.row which) := by
    intro w hw
    obtain ⟨j, hj, rfl⟩ := List.mem_map.mp hw
    exact hbx _ hwx j (List.mem_range.mp hj)
  have bz : IsBinary (c2.logicalZ.row which) := by
    intro w hw
    obtain ⟨j, hj, rfl⟩ := List.mem_map.mp hw
    exact hbz _ hwz j (List.mem_range.mp hj)
  have gx : ∀ t < 2 * m, (c2.logicalX.row which).getD t 0 = c2.logicalX.get which t := by
    intro t ht
    rw [List.getD_eq_getElem _ _ (by simp [Arr.row, hcx, ht])]
    simp [Arr.row]
  have gz : ∀ t < 2 * m, (c2.logicalZ.row which).getD t 0 = c2.logicalZ.get which t := by
    intro t ht
    rw [List.getD_eq_getElem _ _ (by simp [Arr.row, hcz, ht])]
    simp [Arr.row]
  rcases hx with rfl | rfl <;> rcases hz with rfl | rfl
  · exact absurd ⟨rfl, rfl⟩ hne
  · refine ⟨c2.logicalZ.row which, by simp [chooseLogical, lz, bind, Except.bind, pure, Except.pure], by simp [Arr.row, hcz], bz, ?_⟩
    intro t ht
    rw [gz t ht]; simp
  · refine ⟨c2.logicalX.row which, by simp [chooseLogical, lx, bind, Except.bind, pure, Except.pure], by simp [Arr.row, hcx], bx, ?_⟩
    intro t ht
    rw [gx t ht]; simp
  · refine ⟨List.zipWith (fun s t => (s + t) % 2) (c2.logicalZ.row which) (c2.logicalX.row which),
      by simp [chooseLogical, lx, lz, bind, Except.bind, pure, Except.pure], by simp [Arr.row, hcx, hcz], ?_, ?_⟩
    · intro w hw
      obtain ⟨i, hi, rfl⟩ := List.getElem_of_mem hw
      rw [List.getElem_zipWith]
      rcases Int.emod_two_eq_zero_or_one ((c2.logicalZ.row which)[i]'(by simp at hi; omega) +
        (c2.logicalX.row which)[i]'(by simp at hi; omega)) with h | h <;> rw [h] <;> simp
    · intro t ht
      rw [List.getD_eq_getElem _ _ (by simp [Arr.row, hcx, hcz, ht]), List.getElem_zipWith,
        ← List.getD_eq_getElem _ 0, ← List.getD_eq_getElem _ 0, gx t ht, gz t ht]
      rw [show ((((c2.logicalZ.get which t + c2.logicalX.get which t) % 2 : ℤ)) : ZMod 2) =
          ((c2.logicalZ.get which t + c2.logicalX.get which t : ℤ) : ZMod 2) from by
        rw [ZMod.intCast_eq_intCast_iff]
        exact Int.mod_modEq _ _]
      push_cast
      ring

/-- The loop over the letters, for codes with `c1.n = c2.n = l * l`, after `J` letters. -/
theorem letters_fold {c1 c2 : StabCode} {m l : ℕ} (hn1 : c1.n = m) (hn2 : c2.n = m) (hm : m = l * l)
    (hcx : c2.logicalX.cols = 2 * m) (hcz : c2.logicalZ.cols = 2 * m) (hbx : BinaryArr c2.logicalX) (hbz : BinaryArr c2.logicalZ)
    (hwx : c2.logicalX.rows = l) (hwz : c2.logicalZ.rows = l) {row : List ℤ} (hrow : ∀ j, row.getD j 0 = 0 ∨ row.getD j 0 = 1)
    (hne : ∀ j < m, ¬ (row.getD j 0 = 0 ∧ row.getD (m + j) 0 = 0)) (cur : Option (List ℤ)) (J : ℕ) (hJ : J ≤ m) :
    ∃ s, (List.range J).foldlM (concatLetter c1 c2 l row)
        ⟨List.replicate (l * m) 0, List.replicate (l * m) 0, cur⟩ = .ok s ∧
      s.x.length = l * m ∧ s.z.length = l * m ∧ IsBinary s.x ∧ IsBinary s.z ∧
      (∀ t < l * m, ((s.x.getD t 0 : ℤ) : ZMod 2) = ∑ j ∈ Finset.range J, if t / m = j / l then
        ((row.getD j 0 : ℤ) : ZMod 2) * ((c2.logicalX.get (j % l) (t % m) : ℤ) : ZMod 2) +
        ((row.getD (m + j) 0 : ℤ) : ZMod 2) * ((c2.logicalZ.get (j % l) (t % m) : ℤ) : ZMod 2) else 0) ∧
      (∀ t < l * m, ((s.z.getD t 0 : ℤ) : ZMod 2) = ∑ j ∈ Finset.range J, if t / m = j / l then
        ((row.getD j 0 : ℤ) : ZMod 2) * ((c2.logicalX.get (j % l) (m + t % m) : ℤ) : ZMod 2) +
        ((row.getD (m + j) 0 : ℤ) : ZMod 2) * ((c2.logicalZ.get (j % l) (m + t % m) : ℤ) : ZMod 2) else 0) := by
  induction J with
  | zero =>
    have hz : ∀ t, (List.replicate (l * m) (0 : ℤ)).getD t 0 = 0 := by
      intro t
      rw [List.getD_eq_getElem?_getD, List.getElem?_replicate]
      split_ifs <;> rfl
    have hb : IsBinary (List.replicate (l * m) (0 : ℤ)) := fun v hv => Or.inl (List.eq_of_mem_replicate hv)
    refine ⟨_, rfl, by simp, by simp, hb, hb, ?_, ?_⟩ <;>
    · intro t ht
      simp only [hz]
      simp
  | succ J ih =>
    obtain ⟨s, s0, s1, s2, s3, s4, s5, s6⟩ := ih (by omega)
    have hl : 0 < l := by
      rcases Nat.eq_zero_or_pos l with h0 | h0
      · subst h0; omega
      · exact h0
    have hb : J / l < l := by
      rw [Nat.div_lt_iff_lt_mul hl]; omega
    obtain ⟨v, v0, v1, v2, v3⟩ := chooseLogical_ok (which := J % l) s.cur hcx hcz hbx hbz
      (by rw [hwx]; exact Nat.mod_lt _ hl) (by rw [hwz]; exact Nat.mod_lt _ hl) (hrow J) (hrow (m + J)) (hne J (by omega))
    obtain ⟨x', x0, x1, x2, x3⟩ := addSlice_ok (b := J / l) s1 (v := v.take m) (by simp; omega) hb
    obtain ⟨z', z0, z1, z2, z3⟩ := addSlice_ok (b := J / l) s2 (v := v.drop m) (by simp; omega) hb
    have hstep : concatLetter c1 c2 l row s J = .ok ⟨x', z', some v⟩ := by
      unfold concatLetter
      rw [hn1, hn2]
      simp only [v0, ok_bind', x0, z0]
      rfl
    refine ⟨⟨x', z', some v⟩, ?_, x1, z1, x2 s3 fun w hw => v2 w (List.mem_of_mem_take hw),
      z2 s4 fun w hw => v2 w (List.mem_of_mem_drop hw), ?_, ?_⟩
    · rw [List.range_succ, List.foldlM_append, s0, ok_bind']
      simp only [List.foldlM_cons, List.foldlM_nil, hstep]
      rfl
    · intro t ht
      have htm : t % m < m := Nat.mod_lt _ (by omega)
      have ht' : (v.take m).getD (t % m) 0 = v.getD (t % m) 0 := by
        rw [List.getD_eq_getElem?_getD, List.getElem?_take_of_lt htm, ← List.getD_eq_getElem?_getD]
      rw [x3 t ht, s5 t ht, Finset.sum_range_succ, ht', v3 _ (by omega)]
    · intro t ht
      have htm : t % m < m := Nat.mod_lt _ (by omega)
      have ht' : (v.drop m).getD (t % m) 0 = v.getD (m + t % m) 0 := by
        rw [List.getD_eq_getElem?_getD, List.getElem?_drop, ← List.getD_eq_getElem?_getD]
      rw [z3 t ht, s6 t ht, Finset.sum_range_succ, ht', v3 _ (by omega)]

theorem sum_block {M : Type} [AddCommMonoid M] (l b : ℕ) (hb : b < l) (f : ℕ → M) :
    (∑ j ∈ Finset.range (l * l), if b = j / l then f j else 0) = ∑ a : Fin l, f (l * b + a) := by
  have h := sum_blocksF (B := l) (m := l) fun (b' : Fin l) (a : Fin l) => if b = b' then f (l * b' + a) else 0
  rw [Finset.sum_range]
  refine Eq.trans ?_ (h.trans ?_)
  · refine Finset.sum_congr rfl fun t _ => ?_
    have h1 : ((t.divNat : Fin l) : ℕ) = t / l := rfl
    have h2 : ((t.modNat : Fin l) : ℕ) = t % l := rfl
    rw [h1, h2, Nat.div_add_mod]
  · rw [Finset.sum_eq_single ⟨b, hb⟩]
    · simp
    · intro b' _ hb'
      refine Finset.sum_eq_zero fun q _ => if_neg ?_
      rintro rfl
      exact hb' rfl
    · simp

/-- The new generator of one outer generator. -/
theorem concatRow_ok {c1 c2 : StabCode} {m l : ℕ} (hn1 : c1.n = m) (hn2 : c2.n = m) (hm : m = l * l)
    (hcx : c2.logicalX.cols = 2 * m) (hcz : c2.logicalZ.cols = 2 * m) (hbx : BinaryArr c2.logicalX) (hbz : BinaryArr c2.logicalZ)
    (hwx : c2.logicalX.rows = l) (hwz : c2.logicalZ.rows = l) {row : List ℤ} (hrow : ∀ j, row.getD j 0 = 0 ∨ row.getD j 0 = 1)
    (hne : ∀ j < m, ¬ (row.getD j 0 = 0 ∧ row.getD (m + j) 0 = 0)) (acc : List (List ℤ) × Option (List ℤ)) :
    ∃ r cur', concatRow c1 c2 l acc row = .ok (acc.1 ++ [r], cur') ∧ r.length = 2 * (l * m) ∧ IsBinary r ∧
      (rowPauli (l * m) r).vec = substituted (B := l) (l := l) (fun b a => ((row.getD (l * b + a) 0 : ℤ) : ZMod 2))
        (fun b a => ((row.getD (m + (l * b + a)) 0 : ℤ) : ZMod 2)) (fun a => rowVec m c2.logicalX a) (fun a => rowVec m c2.logicalZ a) := by
  obtain ⟨s, s0, s1, s2, s3, s4, s5, s6⟩ := letters_fold hn1 hn2 hm hcx hcz hbx hbz hwx hwz hrow hne acc.2 m le_rfl
  refine ⟨s.x ++ s.z, s.cur, ?_, by simp [s1, s2]; ring, ?_, ?_⟩
  · unfold concatRow
    rw [hn1, hn2, s0, ok_bind']
    rfl
  · intro v hv
    rcases List.mem_append.mp hv with h | h
    · exact s3 v h
    · exact s4 v h
  · apply Prod.ext
    · funext t
      show (((s.x ++ s.z).getD t 0 : ℤ) : ZMod 2) = _
      rw [List.getD_append _ _ _ _ (by rw [s1]; exact t.2), s5 t t.2]
      have h := sum_block l (t / m) t.divNat.2 fun j =>
        ((row.getD j 0 : ℤ) : ZMod 2) * ((c2.logicalX.get (j % l) (t % m) : ℤ) : ZMod 2) +
        ((row.getD (m + j) 0 : ℤ) : ZMod 2) * ((c2.logicalZ.get (j % l) (t % m) : ℤ) : ZMod 2)
      rw [← hm] at h
      rw [h]
      unfold substituted joined
      simp only [Prod.fst_sum, Prod.fst_add, Prod.smul_fst, Finset.sum_apply, Pi.add_apply, Pi.smul_apply, smul_eq_mul]
      refine Finset.sum_congr rfl fun a _ => ?_
      rw [Nat.mul_add_mod, Nat.mod_eq_of_lt a.2]
      rfl
    · funext t
      show (((s.x ++ s.z).getD (l * m + t) 0 : ℤ) : ZMod 2) = _
      rw [List.getD_append_right _ _ _ _ (by rw [s1]; omega), s1, Nat.add_sub_cancel_left, s6 t t.2]
      have h := sum_block l (t / m) t.divNat.2 fun j =>
        ((row.getD j 0 : ℤ) : ZMod 2) * ((c2.logicalX.get (j % l) (m + t % m) : ℤ) : ZMod 2) +
        ((row.getD (m + j) 0 : ℤ) : ZMod 2) * ((c2.logicalZ.get (j % l) (m + t % m) : ℤ) : ZMod 2)
      rw [← hm] at h
      rw [h]
      unfold substituted joined
      simp only [Prod.snd_sum, Prod.snd_add, Prod.smul_snd, Finset.sum_apply, Pi.add_apply, Pi.smul_apply, smul_eq_mul]
      refine Finset.sum_congr rfl fun a _ => ?_
      rw [Nat.mul_add_mod, Nat.mod_eq_of_lt a.2]
      rfl

/-- All outer generators. -/
theorem concatRows_ok {c1 c2 : StabCode} {m l : ℕ} (hn1 : c1.n = m) (hn2 : c2.n = m) (hm : m = l * l)
    (hcx : c2.logicalX.cols = 2 * m) (hcz : c2.logicalZ.cols = 2 * m) (hbx : BinaryArr c2.logicalX) (hbz : BinaryArr c2.logicalZ)
    (hwx : c2.logicalX.rows = l) (hwz : c2.logicalZ.rows = l) (rows : List (List ℤ))
    (hrow : ∀ row ∈ rows, ∀ j, row.getD j 0 = 0 ∨ row.getD j 0 = 1)
    (hne : ∀ row ∈ rows, ∀ j < m, ¬ (row.getD j 0 = 0 ∧ row.getD (m + j) 0 = 0)) (acc : List (List ℤ) × Option (List ℤ)) :
    ∃ subs cur', rows.foldlM (concatRow c1 c2 l) acc = .ok (acc.1 ++ subs, cur') ∧
      List.Forall₂ (fun row r => r.length = 2 * (l * m) ∧ IsBinary r ∧
        (rowPauli (l * m) r).vec = substituted (B := l) (l := l) (fun b a => ((row.getD (l * b + a) 0 : ℤ) : ZMod 2))
          (fun b a => ((row.getD (m + (l * b + a)) 0 : ℤ) : ZMod 2)) (fun a => rowVec m c2.logicalX a)
          (fun a => rowVec m c2.logicalZ a)) rows subs := by
  induction rows generalizing acc with
  | nil => exact ⟨[], acc.2, by simp [pure, Except.pure], .nil⟩
  | cons row rows ih =>
    obtain ⟨r, cur', r0, r1, r2, r3⟩ := concatRow_ok hn1 hn2 hm hcx hcz hbx hbz hwx hwz (hrow row (by simp))
      (hne row (by simp)) acc
    obtain ⟨subs, cur'', q0, q1⟩ := ih (fun row' h => hrow row' (by simp [h])) (fun row' h => hne row' (by simp [h]))
      (acc.1 ++ [r], cur')
    refine ⟨r :: subs, cur'', ?_, .cons ⟨r1, r2, r3⟩ q1⟩
    rw [List.foldlM_cons, r0, ok_bind', q0]
    simp

theorem addSlice_length {a b a' : List ℤ} {lo hi : ℕ} (h : addSlice a lo hi b = .ok a') : a'.length = a.length := by
  unfold addSlice at h
  split_ifs at h
  rw [Except.ok.injEq] at h
  rw [← h]; simp

/-- What stays true of the variables of the loop. -/
def LettersInv (L m : ℕ) (s : ConcatState) : Prop := s.x.length = L ∧ ∀ l, s.cur = some l → l.length = 2 * m

theorem lettersInv_step {c1 c2 : StabCode} {blocks m L : ℕ} {row : List ℤ} (hcx : c2.logicalX.cols = 2 * m)
    (hcz : c2.logicalZ.cols = 2 * m) (s : ConcatState) (j : ℕ) (s' : ConcatState) (hs : LettersInv L m s)
    (h : concatLetter c1 c2 blocks row s j = .ok s') : LettersInv L m s' := by
  unfold concatLetter at h
  rcases hc : chooseLogical c2 (j % blocks) (row.getD j 0) (row.getD (c1.n + j) 0) s.cur with e | cur
  · rw [hc] at h; simp [bind, Except.bind] at h
  · have hl := chooseLogical_length hcx hcz hs.2 hc
    rw [hc, ok_bind'] at h
    cases cur with
    | none => simp at h
    | some l =>
      simp only at h
      rcases hx : addSlice s.x (c1.n * (j / blocks)) (c1.n * (j / blocks + 1)) (l.take c2.n) with e | x
      · rw [hx] at h; simp [bind, Except.bind] at h
      · rcases hz : addSlice s.z (c1.n * (j / blocks)) (c1.n * (j / blocks + 1)) (l.drop c2.n) with e | z
        · rw [hx, hz] at h; simp [bind, Except.bind] at h
        · rw [hx, hz] at h
          simp only [ok_bind', pure_ok', Except.ok.injEq] at h
          rw [← h]
          exact ⟨(addSlice_length hx).trans hs.1, hl⟩

/-- If the slice of one letter has the wrong length, the whole loop raises. -/
theorem letters_error {c1 c2 : StabCode} {blocks m L : ℕ} {row : List ℤ} (hcx : c2.logicalX.cols = 2 * m)
    (hcz : c2.logicalZ.cols = 2 * m) (hn2 : c2.n = m) (j : ℕ) (hj : j < c1.n)
    (hbad : min (c1.n * (j / blocks + 1)) L - min (c1.n * (j / blocks)) L ≠ m) (s : ConcatState) (hs : LettersInv L m s) :
    ∃ e, (List.range c1.n).foldlM (concatLetter c1 c2 blocks row) s = .error e := by
  have hr : List.range c1.n = List.range j ++ j :: (List.range (c1.n - j - 1)).map (fun x => j + 1 + x) := by
    have h1 : List.range c1.n = List.range (j + 1) ++ (List.range (c1.n - (j + 1))).map (fun x => j + 1 + x) := by
      rw [← List.range_add]; congr 1; omega
    rw [h1, List.range_succ, List.append_assoc, Nat.sub_sub]
    rfl
  rw [hr]
  refine foldlM_error_of (LettersInv L m) (lettersInv_step hcx hcz) _ j _ s hs fun s' hs' => ?_
  unfold concatLetter
  rcases hc : chooseLogical c2 (j % blocks) (row.getD j 0) (row.getD (c1.n + j) 0) s'.cur with e | cur
  · exact ⟨e, rfl⟩
  · have hl := chooseLogical_length hcx hcz hs'.2 hc
    rw [ok_bind']
    cases cur with
    | none => exact ⟨_, rfl⟩
    | some l =>
      refine ⟨.value, ?_⟩
      have hx : addSlice s'.x (c1.n * (j / blocks)) (c1.n * (j / blocks + 1)) (l.take c2.n) = .error .value := by
        unfold addSlice
        rw [if_neg]
        rw [hs'.1, List.length_take, hn2, hl l rfl, min_eq_left (show m ≤ 2 * m by omega)]
        exact hbad
      simp only [hx]
      rfl

end PyQ
