import Verif.Props.Concat

/-!
# C22: exactly what `concatenate_codes` does when the inner code has several logical qubits
-/

namespace PyQ

namespace Spec

/-- Letter `t` of the outer generators, written one after the other, is not the identity. -/
def Acts (A : Arr ℤ) (n t : ℕ) : Prop := A.get (t / n) (t % n) = 1 ∨ A.get (t / n) (n + t % n) = 1

instance (A : Arr ℤ) (n : ℕ) : DecidablePred (Acts A n) := fun _ => inferInstanceAs (Decidable (_ ∨ _))

/-- The last letter up to letter `t` that is not the identity (letter 0 if there is none). -/
def lastActive (A : Arr ℤ) (n : ℕ) : ℕ → ℕ
  | 0 => 0
  | t + 1 => if Acts A n (t + 1) then t + 1 else lastActive A n t

/-- The logical operator of the inner code for letter `t`: the numbers of the logical operators run through `0, …, q - 1`. -/
def letterOp (A LX LZ : Arr ℤ) (n q t : ℕ) : BVec n :=
  ((A.get (t / n) (t % n) : ℤ) : ZMod 2) • rowVec n LX (t % n % q) +
    ((A.get (t / n) (n + t % n) : ℤ) : ZMod 2) • rowVec n LZ (t % n % q)

/-- What takes the place of outer generator `i`: on block `b` the product of the logical operators for the letters `j` with
`j / q = b`, where an identity letter counts as the last letter before it that is not the identity. -/
def repeated (A LX LZ : Arr ℤ) (n q i : ℕ) : BVec (q * n) :=
  joined fun b : Fin q => ∑ j ∈ (Finset.range n).filter (fun j => j / q = b), letterOp A LX LZ n q (lastActive A n (i * n + j))

end Spec

open Spec

/-- The entries of a row of `2 n` numbers modulo 2 are those of `w`. -/
def EntriesOf (n : ℕ) (v : List ℤ) (w : BVec n) : Prop := v.length = 2 * n ∧ IsBinary v ∧ (rowPauli n v).vec = w

theorem entriesOf_fst {n : ℕ} {v : List ℤ} {w : BVec n} (h : EntriesOf n v w) (t : Fin n) :
    ((v.getD t 0 : ℤ) : ZMod 2) = w.1 t := by rw [← h.2.2]; rfl

theorem entriesOf_snd {n : ℕ} {v : List ℤ} {w : BVec n} (h : EntriesOf n v w) (t : Fin n) :
    ((v.getD (n + t) 0 : ℤ) : ZMod 2) = w.2 t := by rw [← h.2.2]; rfl

/-- The loop over the letters of one outer generator after `J` letters. -/
theorem letters_repeat {c1 c2 : StabCode} {m q : ℕ} (hn1 : c1.n = m) (hn2 : c2.n = m)
    (hcx : c2.logicalX.cols = 2 * m) (hcz : c2.logicalZ.cols = 2 * m) (hbx : BinaryArr c2.logicalX) (hbz : BinaryArr c2.logicalZ)
    {row : List ℤ} (hrow : ∀ j, row.getD j 0 = 0 ∨ row.getD j 0 = 1) (hq : ∀ j < m, j / q < q)
    (cur : Option (List ℤ)) (V : ℕ → BVec m)
    (hact : ∀ j < m, ¬ (row.getD j 0 = 0 ∧ row.getD (m + j) 0 = 0) → j % q < c2.logicalX.rows ∧ j % q < c2.logicalZ.rows ∧
      V j = ((row.getD j 0 : ℤ) : ZMod 2) • rowVec m c2.logicalX (j % q) +
        ((row.getD (m + j) 0 : ℤ) : ZMod 2) • rowVec m c2.logicalZ (j % q))
    (h0 : row.getD 0 0 = 0 ∧ row.getD m 0 = 0 → ∃ v, cur = some v ∧ EntriesOf m v (V 0))
    (hs : ∀ j, j + 1 < m → row.getD (j + 1) 0 = 0 ∧ row.getD (m + (j + 1)) 0 = 0 → V (j + 1) = V j)
    (J : ℕ) (hJ : J ≤ m) :
    ∃ s, (List.range J).foldlM (concatLetter c1 c2 q row)
        ⟨List.replicate (q * m) 0, List.replicate (q * m) 0, cur⟩ = .ok s ∧
      s.x.length = q * m ∧ s.z.length = q * m ∧ IsBinary s.x ∧ IsBinary s.z ∧
      (∀ t : Fin (q * m), ((s.x.getD t 0 : ℤ) : ZMod 2) =
        ∑ j ∈ (Finset.range J).filter (fun j => j / q = (t.divNat : Fin q)), (V j).1 t.modNat) ∧
      (∀ t : Fin (q * m), ((s.z.getD t 0 : ℤ) : ZMod 2) =
        ∑ j ∈ (Finset.range J).filter (fun j => j / q = (t.divNat : Fin q)), (V j).2 t.modNat) ∧
      (J = 0 → s.cur = cur) ∧ (∀ j, J = j + 1 → ∃ v, s.cur = some v ∧ EntriesOf m v (V j)) := by
  induction J with
  | zero =>
    have hz : ∀ t, (List.replicate (q * m) (0 : ℤ)).getD t 0 = 0 := by
      intro t
      rw [List.getD_eq_getElem?_getD, List.getElem?_replicate]
      split_ifs <;> rfl
    have hb : IsBinary (List.replicate (q * m) (0 : ℤ)) := fun v hv => Or.inl (List.eq_of_mem_replicate hv)
    refine ⟨_, rfl, by simp, by simp, hb, hb, ?_, ?_, fun _ => rfl, fun j hj => by omega⟩ <;>
    · intro t
      simp only [hz]
      rw [Finset.sum_filter]
      simp
  | succ J ih =>
    obtain ⟨s, s0, s1, s2, s3, s4, s5, s6, s7, s8⟩ := ih (by omega)
    have hb := hq J (by omega)
    obtain ⟨v, v0, v1⟩ : ∃ v, chooseLogical c2 (J % q) (row.getD J 0) (row.getD (m + J) 0) s.cur = .ok (some v) ∧
        EntriesOf m v (V J) := by
      by_cases h : row.getD J 0 = 0 ∧ row.getD (m + J) 0 = 0
      · have hk : chooseLogical c2 (J % q) (row.getD J 0) (row.getD (m + J) 0) s.cur = .ok s.cur := by
          rw [h.1, h.2]; rfl
        rcases J with _ | J
        · obtain ⟨v, hv, hv'⟩ := h0 h
          exact ⟨v, by rw [hk, s7 rfl, hv], hv'⟩
        · obtain ⟨v, hv, hv'⟩ := s8 J rfl
          exact ⟨v, by rw [hk, hv], by rw [hs J (by omega) h]; exact hv'⟩
      · obtain ⟨a1, a2, a3⟩ := hact J (by omega) h
        obtain ⟨v, v0, v1, v2, v3⟩ := chooseLogical_ok (which := J % q) s.cur hcx hcz hbx hbz a1 a2 (hrow J) (hrow (m + J)) h
        refine ⟨v, v0, v1, v2, ?_⟩
        rw [a3]
        apply Prod.ext
        · funext t
          exact v3 t (by omega)
        · funext t
          exact v3 (m + t) (by omega)
    obtain ⟨x', x0, x1, x2, x3⟩ := addSlice_ok (b := J / q) s1 (v := v.take m) (by simp; have := v1.1; omega) hb
    obtain ⟨z', z0, z1, z2, z3⟩ := addSlice_ok (b := J / q) s2 (v := v.drop m) (by simp; have := v1.1; omega) hb
    have hstep : concatLetter c1 c2 q row s J = .ok ⟨x', z', some v⟩ := by
      unfold concatLetter
      rw [hn1, hn2]
      simp only [v0, ok_bind', x0, z0]
      rfl
    have hsum : ∀ (t : Fin (q * m)) (f : ℕ → ZMod 2),
        ∑ j ∈ (Finset.range (J + 1)).filter (fun j => j / q = (t.divNat : Fin q)), f j =
        (∑ j ∈ (Finset.range J).filter (fun j => j / q = (t.divNat : Fin q)), f j) +
          if (t : ℕ) / m = J / q then f J else 0 := by
      intro t f
      rw [Finset.sum_filter, Finset.sum_range_succ, ← Finset.sum_filter]
      congr 1
      exact if_congr ⟨fun h => h.symm, fun h => h.symm⟩ rfl rfl
    refine ⟨⟨x', z', some v⟩, ?_, x1, z1, x2 s3 fun w hw => v1.2.1 w (List.mem_of_mem_take hw),
      z2 s4 fun w hw => v1.2.1 w (List.mem_of_mem_drop hw), ?_, ?_, fun h => by omega, fun j hj => ⟨v, rfl, ?_⟩⟩
    · rw [List.range_succ, List.foldlM_append, s0, ok_bind']
      simp only [List.foldlM_cons, List.foldlM_nil, hstep]
      rfl
    · intro t
      have htm : (t : ℕ) % m < m := Nat.mod_lt _ (by omega)
      have ht' : (v.take m).getD (t % m) 0 = v.getD (t % m) 0 := by
        rw [List.getD_eq_getElem?_getD, List.getElem?_take_of_lt htm, ← List.getD_eq_getElem?_getD]
      rw [x3 t t.2, s5 t, hsum, ht', ← entriesOf_fst v1 t.modNat]
      rfl
    · intro t
      have htm : (t : ℕ) % m < m := Nat.mod_lt _ (by omega)
      have ht' : (v.drop m).getD (t % m) 0 = v.getD (m + t % m) 0 := by
        rw [List.getD_eq_getElem?_getD, List.getElem?_drop, ← List.getD_eq_getElem?_getD]
      rw [z3 t t.2, s6 t, hsum, ht', ← entriesOf_snd v1 t.modNat]
      rfl
    · obtain rfl : J = j := by omega
      exact v1

theorem acts_iff {A : Arr ℤ} {n i j : ℕ} (hj : j < n) : Acts A n (i * n + j) ↔ A.get i j = 1 ∨ A.get i (n + j) = 1 := by
  unfold Acts
  rw [show (i * n + j) / n = i by
      rw [mul_comm, Nat.mul_add_div (by omega), Nat.div_eq_of_lt hj, add_zero],
    show (i * n + j) % n = j by rw [mul_comm, Nat.mul_add_mod, Nat.mod_eq_of_lt hj]]

theorem lastActive_of_acts {A : Arr ℤ} {n t : ℕ} (h : Acts A n t) : lastActive A n t = t := by
  cases t with
  | zero => rfl
  | succ t => exact if_pos h

theorem lastActive_succ {A : Arr ℤ} {n t : ℕ} (h : ¬ Acts A n (t + 1)) : lastActive A n (t + 1) = lastActive A n t := if_neg h

theorem row_getD_get {A : Arr ℤ} {N : ℕ} (hc : A.cols = N) (i : ℕ) {j : ℕ} (hj : j < N) : (A.row i).getD j 0 = A.get i j := by
  rw [List.getD_eq_getElem _ _ (by simpa [Arr.row, hc] using hj)]
  simp [Arr.row]

/-- All outer generators, one after the other. -/
theorem rows_repeat {c1 c2 : StabCode} {m q : ℕ} (hm : 0 < m) (hn1 : c1.n = m) (hn2 : c2.n = m)
    (hcx : c2.logicalX.cols = 2 * m) (hcz : c2.logicalZ.cols = 2 * m) (hbx : BinaryArr c2.logicalX) (hbz : BinaryArr c2.logicalZ)
    (hc1 : c1.stab.cols = 2 * m) (hb1 : BinaryArr c1.stab) (hq : ∀ j < m, j / q < q) (h0 : Acts c1.stab m 0)
    (hidx : ∀ i < c1.stab.rows, ∀ j < m, Acts c1.stab m (i * m + j) → j % q < c2.logicalX.rows ∧ j % q < c2.logicalZ.rows)
    (I : ℕ) (hI : I ≤ c1.stab.rows) :
    ∃ subs cur, ((List.range I).map c1.stab.row).foldlM (concatRow c1 c2 q) ([], none) = .ok (subs, cur) ∧
      subs.map (fun r => (rowPauli (q * m) r).vec) =
        (List.range I).map (repeated c1.stab c2.logicalX c2.logicalZ m q) ∧
      (∀ r ∈ subs, r.length = 2 * (q * m) ∧ IsBinary r) ∧
      (I = 0 → cur = none) ∧
      (∀ i, I = i + 1 → ∃ v, cur = some v ∧
        EntriesOf m v (letterOp c1.stab c2.logicalX c2.logicalZ m q (lastActive c1.stab m (i * m + (m - 1))))) := by
  induction I with
  | zero => exact ⟨[], none, rfl, rfl, by simp, fun _ => rfl, fun i hi => by omega⟩
  | succ I ih =>
    obtain ⟨subs, cur, r0, r1, r2, r3, r4⟩ := ih (by omega)
    have g : ∀ j < 2 * m, (c1.stab.row I).getD j 0 = c1.stab.get I j := fun j hj => row_getD_get hc1 I hj
    have hbin : ∀ j, (c1.stab.row I).getD j 0 = 0 ∨ (c1.stab.row I).getD j 0 = 1 := by
      intro j
      rcases Nat.lt_or_ge j (2 * m) with h | h
      · rw [g j h]; exact hb1 I (by omega) j (by omega)
      · left; rw [List.getD_eq_default _ _ (by simp [Arr.row, hc1]; omega)]
    have hact : ∀ j < m, ¬ ((c1.stab.row I).getD j 0 = 0 ∧ (c1.stab.row I).getD (m + j) 0 = 0) ↔ Acts c1.stab m (I * m + j) := by
      intro j hj
      rw [acts_iff hj, ← g j (by omega), ← g (m + j) (by omega)]
      rcases hbin j with a | a <;> rcases hbin (m + j) with b | b <;> rw [a, b] <;> simp
    obtain ⟨s, s0, s1, s2, s3, s4, s5, s6, -, s8⟩ := letters_repeat (q := q) hn1 hn2 hcx hcz hbx hbz hbin hq cur
      (fun j => letterOp c1.stab c2.logicalX c2.logicalZ m q (lastActive c1.stab m (I * m + j)))
      (by
        intro j hj ha
        have ha' := (hact j hj).mp ha
        refine ⟨(hidx I (by omega) j hj ha').1, (hidx I (by omega) j hj ha').2, ?_⟩
        show letterOp c1.stab c2.logicalX c2.logicalZ m q (lastActive c1.stab m (I * m + j)) = _
        rw [lastActive_of_acts ha']
        unfold letterOp
        rw [show (I * m + j) / m = I by
            rw [mul_comm, Nat.mul_add_div (by omega), Nat.div_eq_of_lt hj, add_zero],
          show (I * m + j) % m = j by rw [mul_comm, Nat.mul_add_mod, Nat.mod_eq_of_lt hj], g j (by omega), g (m + j) (by omega)])
      (by
        intro h
        rcases I with _ | I
        · exact absurd (by simpa using h0) (fun h' => ((hact 0 hm).mpr (by simpa using h')) (by simpa using h))
        · obtain ⟨v, hv, hv'⟩ := r4 I rfl
          refine ⟨v, hv, ?_⟩
          have h' : ¬ Acts c1.stab m ((I + 1) * m + 0) := fun h' => (hact 0 hm).mpr h' (by simpa using h)
          have e : (I + 1) * m + 0 = (I * m + (m - 1)) + 1 := by rw [Nat.add_mul, one_mul]; omega
          show EntriesOf m v (letterOp c1.stab c2.logicalX c2.logicalZ m q (lastActive c1.stab m ((I + 1) * m + 0)))
          rw [e] at h' ⊢
          rw [lastActive_succ h']
          exact hv')
      (by
        intro j hj h
        have h' : ¬ Acts c1.stab m (I * m + j + 1) := fun h' => (hact (j + 1) hj).mpr h' h
        show letterOp _ _ _ m q (lastActive c1.stab m (I * m + j + 1)) = _
        rw [lastActive_succ h'])
      m le_rfl
    refine ⟨subs ++ [s.x ++ s.z], s.cur, ?_, ?_, ?_, fun h => by omega, ?_⟩
    · rw [List.range_succ, List.map_append, List.foldlM_append, r0, ok_bind']
      simp only [List.map_cons, List.map_nil, List.foldlM_cons, List.foldlM_nil]
      unfold concatRow
      rw [hn1, hn2, s0]
      rfl
    · rw [List.map_append, r1, List.range_succ, List.map_append]
      congr 1
      simp only [List.map_cons, List.map_nil, List.cons.injEq, and_true]
      apply Prod.ext
      · funext t
        show (((s.x ++ s.z).getD t 0 : ℤ) : ZMod 2) = _
        rw [List.getD_append _ _ _ _ (by rw [s1]; exact t.2), s5 t]
        unfold repeated joined
        simp only [Prod.fst_sum, Finset.sum_apply]
      · funext t
        show (((s.x ++ s.z).getD (q * m + t) 0 : ℤ) : ZMod 2) = _
        rw [List.getD_append_right _ _ _ _ (by rw [s1]; omega), s1, Nat.add_sub_cancel_left, s6 t]
        unfold repeated joined
        simp only [Prod.snd_sum, Finset.sum_apply]
    · intro r hr
      rcases List.mem_append.mp hr with hr | hr
      · exact r2 r hr
      · obtain rfl := List.mem_singleton.mp hr
        refine ⟨by simp [s1, s2]; ring, fun v hv => ?_⟩
        rcases List.mem_append.mp hv with h | h
        · exact s3 v h
        · exact s4 v h
    · intro i hi
      obtain rfl : I = i := by omega
      exact s8 (m - 1) (by omega)

/-! ### The exceptions -/

theorem foldlM_error_eq {α β : Type} {f : β → α → Except PyErr β} {e : PyErr} (P : β → Prop) (pre : List α) (a : α) (post : List α)
    (hP : ∀ s, ∀ b ∈ pre, P s → (∃ s', f s b = .ok s' ∧ P s') ∨ f s b = .error e) (s : β) (hs : P s)
    (h : ∀ s', P s' → f s' a = .error e) : (pre ++ a :: post).foldlM f s = .error e := by
  induction pre generalizing s with
  | nil =>
    simp only [List.nil_append, List.foldlM_cons, h s hs]
    rfl
  | cons b pre ih =>
    rcases hP s b (by simp) hs with ⟨s', hb, hs'⟩ | hb
    · simp only [List.cons_append, List.foldlM_cons, hb, ok_bind']
      exact ih (fun s c hc => hP s c (by simp [hc])) s' hs'
    · simp only [List.cons_append, List.foldlM_cons, hb]
      rfl

/-- The variables of the loop once a logical operator has been chosen. -/
def Chosen (L m : ℕ) (s : ConcatState) : Prop :=
  s.x.length = L ∧ s.z.length = L ∧ ∃ v, s.cur = some v ∧ v.length = 2 * m

theorem chooseLogical_big {c2 : StabCode} {which : ℕ} {x z : ℤ} (cur : Option (List ℤ))
    (hwx : c2.logicalX.rows ≤ which) (hwz : c2.logicalZ.rows ≤ which) (hx : x = 0 ∨ x = 1) (hz : z = 0 ∨ z = 1)
    (hne : ¬ (x = 0 ∧ z = 0)) : chooseLogical c2 which x z cur = .error .index := by
  unfold chooseLogical logicalAt
  simp only [if_neg (Nat.not_lt.mpr hwx), if_neg (Nat.not_lt.mpr hwz)]
  rcases hx with rfl | rfl <;> rcases hz with rfl | rfl
  · exact absurd ⟨rfl, rfl⟩ hne
  all_goals simp [bind, Except.bind]

/-- One letter once a logical operator has been chosen. -/
theorem letter_outcome {c1 c2 : StabCode} {m q L : ℕ} (hn2 : c2.n = m)
    (hcx : c2.logicalX.cols = 2 * m) (hcz : c2.logicalZ.cols = 2 * m) (hbx : BinaryArr c2.logicalX) (hbz : BinaryArr c2.logicalZ)
    (hrows : c2.logicalX.rows = c2.logicalZ.rows) {row : List ℤ} (hrow : ∀ j, row.getD j 0 = 0 ∨ row.getD j 0 = 1)
    {s : ConcatState} (hs : Chosen L m s) (j : ℕ) :
    (¬ (row.getD j 0 = 0 ∧ row.getD (c1.n + j) 0 = 0) ∧ c2.logicalX.rows ≤ j % q → concatLetter c1 c2 q row s j = .error .index) ∧
    (¬ (¬ (row.getD j 0 = 0 ∧ row.getD (c1.n + j) 0 = 0) ∧ c2.logicalX.rows ≤ j % q) →
      (min (c1.n * (j / q + 1)) L - min (c1.n * (j / q)) L = m → ∃ s', concatLetter c1 c2 q row s j = .ok s' ∧ Chosen L m s') ∧
      (min (c1.n * (j / q + 1)) L - min (c1.n * (j / q)) L ≠ m → concatLetter c1 c2 q row s j = .error .value)) := by
  obtain ⟨l1, l2, v, hv, lv⟩ := hs
  refine ⟨fun ⟨ha, hb⟩ => ?_, fun h => ?_⟩
  · unfold concatLetter
    rw [chooseLogical_big s.cur hb (hrows ▸ hb) (hrow _) (hrow _) ha]
    rfl
  · obtain ⟨w, hw, lw⟩ : ∃ w, chooseLogical c2 (j % q) (row.getD j 0) (row.getD (c1.n + j) 0) s.cur = .ok (some w) ∧
        w.length = 2 * m := by
      by_cases ha : row.getD j 0 = 0 ∧ row.getD (c1.n + j) 0 = 0
      · exact ⟨v, by rw [ha.1, ha.2, hv]; rfl, lv⟩
      · have hlt : j % q < c2.logicalX.rows := Nat.not_le.mp fun hle => h ⟨ha, hle⟩
        obtain ⟨w, w0, w1, -⟩ := chooseLogical_ok s.cur hcx hcz hbx hbz hlt (hrows ▸ hlt) (hrow _) (hrow _) ha
        exact ⟨w, w0, w1⟩
    have lt : (w.take c2.n).length = m := by simp; omega
    have ld : (w.drop c2.n).length = m := by simp; omega
    constructor
    · intro hg
      rcases hx : addSlice s.x (c1.n * (j / q)) (c1.n * (j / q + 1)) (w.take c2.n) with e | x
      · unfold addSlice at hx
        rw [if_pos (by rw [l1, lt]; exact hg)] at hx
        cases hx
      rcases hz : addSlice s.z (c1.n * (j / q)) (c1.n * (j / q + 1)) (w.drop c2.n) with e | z
      · unfold addSlice at hz
        rw [if_pos (by rw [l2, ld]; exact hg)] at hz
        cases hz
      refine ⟨⟨x, z, some w⟩, ?_, (addSlice_length hx).trans l1, (addSlice_length hz).trans l2, w, rfl, lw⟩
      unfold concatLetter
      simp only [hw, ok_bind', hx, hz]
      rfl
    · intro hg
      unfold concatLetter
      simp only [hw, ok_bind']
      unfold addSlice
      rw [if_neg (by rw [l1, lt]; exact hg)]
      rfl

theorem chooseLogical_cur {c2 : StabCode} {which : ℕ} {x z : ℤ} (cur cur' : Option (List ℤ)) (hx : x = 0 ∨ x = 1)
    (hz : z = 0 ∨ z = 1) (hne : ¬ (x = 0 ∧ z = 0)) : chooseLogical c2 which x z cur = chooseLogical c2 which x z cur' := by
  rcases hx with rfl | rfl <;> rcases hz with rfl | rfl
  · exact absurd ⟨rfl, rfl⟩ hne
  all_goals rfl

/-- A generator whose first letter is not the identity does not look at the previous generators. -/
theorem concatRow_cur {c1 c2 : StabCode} {q : ℕ} (hn : 0 < c1.n) {row : List ℤ} (hrow : ∀ j, row.getD j 0 = 0 ∨ row.getD j 0 = 1)
    (hne : ¬ (row.getD 0 0 = 0 ∧ row.getD c1.n 0 = 0)) (a : List (List ℤ)) (cur cur' : Option (List ℤ)) :
    concatRow c1 c2 q (a, cur) row = concatRow c1 c2 q (a, cur') row := by
  obtain ⟨r, hr⟩ : ∃ r, c1.n = r + 1 := ⟨c1.n - 1, by omega⟩
  have h : ∀ X Z, concatLetter c1 c2 q row ⟨X, Z, cur⟩ 0 = concatLetter c1 c2 q row ⟨X, Z, cur'⟩ 0 := by
    intro X Z
    unfold concatLetter
    simp only [Nat.add_zero]
    rw [chooseLogical_cur cur cur' (hrow 0) (hrow c1.n) hne]
  unfold concatRow
  have hrange : List.range c1.n = 0 :: (List.range r).map Nat.succ := by rw [hr, List.range_succ_eq_map]
  rw [hrange, List.foldlM_cons, List.foldlM_cons, h]

theorem chosen_start {q m : ℕ} {v : List ℤ} (hv : v.length = 2 * m) :
    Chosen (q * m) m ⟨List.replicate (q * m) 0, List.replicate (q * m) 0, some v⟩ := ⟨by simp, by simp, v, rfl, hv⟩

section

variable {c1 c2 : StabCode} {n m q : ℕ} (hn1 : c1.n = n) (hn2 : c2.n = m)
  (hcx : c2.logicalX.cols = 2 * m) (hcz : c2.logicalZ.cols = 2 * m) (hbx : BinaryArr c2.logicalX) (hbz : BinaryArr c2.logicalZ)
  (hrows : c2.logicalX.rows = c2.logicalZ.rows) {row : List ℤ} (hrow : ∀ j, row.getD j 0 = 0 ∨ row.getD j 0 = 1)
  {a : List (List ℤ)} {v : List ℤ} (hv : v.length = 2 * m)
include hn1 hn2 hcx hcz hbx hbz hrows hrow hv

theorem concatRow_value (hsmall : ∀ j < n, j % q < c2.logicalX.rows) {j : ℕ} (hj : j < n)
    (hbad : min (n * (j / q + 1)) (q * m) - min (n * (j / q)) (q * m) ≠ m) :
    concatRow c1 c2 q (a, some v) row = .error .value := by
  obtain ⟨pre, post, hs⟩ := List.append_of_mem (List.mem_range.mpr hj)
  unfold concatRow
  have hpre : ∀ b ∈ pre, b < n := fun b hb => List.mem_range.mp (by rw [hs]; simp [hb])
  have h := foldlM_error_eq (f := concatLetter c1 c2 q row) (e := .value) (Chosen (q * m) m) pre j post
    (by
      intro s b hb hc
      obtain ⟨-, h⟩ := letter_outcome (c1 := c1) (q := q) hn2 hcx hcz hbx hbz hrows hrow hc b
      obtain ⟨h3, h4⟩ := h fun h => absurd (hsmall b (hpre b hb)) (Nat.not_lt.mpr h.2)
      by_cases hg : min (c1.n * (b / q + 1)) (q * m) - min (c1.n * (b / q)) (q * m) = m
      · exact Or.inl (h3 hg)
      · exact Or.inr (h4 hg))
    ⟨List.replicate (q * m) 0, List.replicate (q * m) 0, some v⟩
    (chosen_start hv)
    (by
      intro s hc
      obtain ⟨-, h⟩ := letter_outcome (c1 := c1) (q := q) hn2 hcx hcz hbx hbz hrows hrow hc j
      exact (h fun h => absurd (hsmall j hj) (Nat.not_lt.mpr h.2)).2 (by rw [hn1]; exact hbad))
  rw [hn1, hn2, hs, h]
  rfl

theorem concatRow_index (hgood : ∀ j < n, min (n * (j / q + 1)) (q * m) - min (n * (j / q)) (q * m) = m) {j : ℕ} (hj : j < n)
    (hact : ¬ (row.getD j 0 = 0 ∧ row.getD (n + j) 0 = 0)) (hbig : c2.logicalX.rows ≤ j % q) :
    concatRow c1 c2 q (a, some v) row = .error .index := by
  obtain ⟨pre, post, hs⟩ := List.append_of_mem (List.mem_range.mpr hj)
  unfold concatRow
  have hpre : ∀ b ∈ pre, b < n := fun b hb => List.mem_range.mp (by rw [hs]; simp [hb])
  have h := foldlM_error_eq (f := concatLetter c1 c2 q row) (e := .index) (Chosen (q * m) m) pre j post
    (by
      intro s b hb hc
      obtain ⟨h1, h2⟩ := letter_outcome (c1 := c1) (q := q) hn2 hcx hcz hbx hbz hrows hrow hc b
      by_cases h : ¬ (row.getD b 0 = 0 ∧ row.getD (c1.n + b) 0 = 0) ∧ c2.logicalX.rows ≤ b % q
      · exact Or.inr (h1 h)
      · exact Or.inl ((h2 h).1 (by rw [hn1]; exact hgood b (hpre b hb))))
    ⟨List.replicate (q * m) 0, List.replicate (q * m) 0, some v⟩
    (chosen_start hv)
    (by
      intro s hc
      exact (letter_outcome (c1 := c1) (q := q) hn2 hcx hcz hbx hbz hrows hrow hc j).1 ⟨by rw [hn1]; exact hact, hbig⟩)
  rw [hn1, hn2, hs, h]
  rfl

/-- A generator without a missing logical operator is replaced, and leaves a logical operator behind. -/
theorem concatRow_chosen (hgood : ∀ j < n, min (n * (j / q + 1)) (q * m) - min (n * (j / q)) (q * m) = m)
    (hsmall : ∀ j < n, ¬ (row.getD j 0 = 0 ∧ row.getD (n + j) 0 = 0) → j % q < c2.logicalX.rows) :
    ∃ a' v', concatRow c1 c2 q (a, some v) row = .ok (a', some v') ∧ v'.length = 2 * m := by
  have h : ∀ J ≤ n, ∃ s, (List.range J).foldlM (concatLetter c1 c2 q row)
      ⟨List.replicate (q * m) 0, List.replicate (q * m) 0, some v⟩ = .ok s ∧ Chosen (q * m) m s := by
    intro J
    induction J with
    | zero => exact fun _ => ⟨_, rfl, chosen_start hv⟩
    | succ J ih =>
      intro hJ
      obtain ⟨s, s0, s1⟩ := ih (by omega)
      obtain ⟨-, h2⟩ := letter_outcome (c1 := c1) (q := q) hn2 hcx hcz hbx hbz hrows hrow s1 J
      obtain ⟨s', s2, s3⟩ := (h2 fun h => absurd (hsmall J (by omega) (by rw [← hn1]; exact h.1)) (Nat.not_lt.mpr h.2)).1
        (by rw [hn1]; exact hgood J (by omega))
      refine ⟨s', ?_, s3⟩
      rw [List.range_succ, List.foldlM_append, s0, ok_bind']
      simp only [List.foldlM_cons, List.foldlM_nil, s2]
      rfl
  obtain ⟨s, s0, -, -, w, s1, s2⟩ := h n le_rfl
  refine ⟨a ++ [s.x ++ s.z], w, ?_, s2⟩
  unfold concatRow
  rw [hn1, hn2, s0, ← s1]
  rfl

end

section

variable {s1 s2 : StabInput} {n k m l : ℕ} {lo1 lo2 : Option (Arr ℤ × Arr ℤ)} {c1 c2 : StabCode}

theorem rowList_cons {A : Arr ℤ} (h : 0 < A.rows) : ∃ rest, A.rowList = A.row 0 :: rest ∧ ∀ r ∈ rest, r ∈ A.rowList := by
  unfold Arr.rowList
  obtain ⟨r, hr'⟩ : ∃ r, A.rows = r + 1 := ⟨A.rows - 1, by omega⟩
  rw [hr', List.range_succ_eq_map, List.map_cons]
  exact ⟨_, rfl, fun r hr => List.mem_cons_of_mem _ hr⟩

/-- **C22**, exactly, for an inner code with `l ≥ 2` logical qubits, `l` a divisor of `n`, and an outer code whose first
generator does not begin with the identity (if it does, see `C22_identity_letter_refuted`).  `ValueError` if the two codes
have different lengths or are shorter than `l * l`; `IndexError` if otherwise some letter other than the identity stands at a place
`j` with `j % (n / l) ≥ l`; in all other cases the constructor is called with the inner generators on `n / l` blocks and the outer
generators with every letter replaced, where an identity letter is replaced like the last letter before it that is not the
identity. -/
theorem C22_exact (h1 : stabInit s1 n k lo1 = .ok c1) (h2 : stabInit s2 m l lo2 = .ok c2) (hn : 0 < n) (hl : 2 ≤ l)
    (hlm : l < m) (hd : l ∣ n) (hb1 : BinaryArr c1.stab) (hb2 : BinaryArr c2.stab)
    (hlx : c2.logicalX.rows = l) (hlz : c2.logicalZ.rows = l) (hbx : BinaryArr c2.logicalX) (hbz : BinaryArr c2.logicalZ)
    (hcx : c2.logicalX.cols = 2 * m) (hcz : c2.logicalZ.cols = 2 * m) (h0 : Acts c1.stab n 0) :
    (n ≠ m ∨ n < l * l → concatenateCodes c1 c2 = .error .value) ∧
    (n = m → l * l ≤ n → (∃ i < c1.stab.rows, ∃ j < n, Acts c1.stab n (i * n + j) ∧ l ≤ j % (n / l)) →
      concatenateCodes c1 c2 = .error .index) ∧
    (n = m → l * l ≤ n → (∀ i < c1.stab.rows, ∀ j < n, Acts c1.stab n (i * n + j) → j % (n / l) < l) →
      ∃ gens : List (List ℤ), concatenateCodes c1 c2 = (stabInit (.rows gens) (n / l * n) k none).map some ∧
        (∀ r ∈ gens, r.length = 2 * (n / l * n) ∧ IsBinary r) ∧
        gens.map (fun r => (rowPauli (n / l * n) r).vec) =
          ((List.finRange (n / l)).flatMap fun b => (List.range c2.stab.rows).map fun j => inBlock b (rowVec n c2.stab j)) ++
          (List.range c1.stab.rows).map (repeated c1.stab c2.logicalX c2.logicalZ n (n / l))) := by
  obtain ⟨hA1, -, -, -, hn1, hk1, -⟩ := stabInit_ok h1
  obtain ⟨hA2, -, -, -, hn2, hk2, -⟩ := stabInit_ok h2
  have hc1 := initArray_cols hA1
  have hc2 := initArray_cols hA2
  have hr1 := initArray_rows_pos hA1
  have hconcat := concat_many (c1 := c1) (c2 := c2) (by omega) (by rw [hk2, hn1]; exact hd)
  rw [hn1, hn2, hk2, hk1] at hconcat
  obtain ⟨q, rfl⟩ := hd
  rw [Nat.mul_div_cancel_left q (by omega)] at hconcat ⊢
  have hq0 : 0 < q := Nat.pos_of_mul_pos_left hn
  have hbin : ∀ r ∈ c1.stab.rowList, ∀ j, r.getD j 0 = 0 ∨ r.getD j 0 = 1 := by
    intro r hr j
    obtain ⟨i, hi, rfl⟩ := mem_rowList hr
    rcases Nat.lt_or_ge j (2 * (l * q)) with h | h
    · rw [row_getD_get hc1 i h]; exact hb1 i hi j (by omega)
    · left; rw [List.getD_eq_default _ _ (by simp [Arr.row, hc1]; omega)]
  have hacts : ∀ i < c1.stab.rows, ∀ j < l * q,
      ¬ ((c1.stab.row i).getD j 0 = 0 ∧ (c1.stab.row i).getD (l * q + j) 0 = 0) ↔ Acts c1.stab (l * q) (i * (l * q) + j) := by
    intro i hi j hj
    rw [acts_iff hj, row_getD_get hc1 i (by omega), row_getD_get hc1 i (by omega)]
    rcases hb1 i hi j (by omega) with a | a <;> rcases hb1 i hi (l * q + j) (by omega) with b | b <;> rw [a, b] <;> simp
  obtain ⟨rest, hrest, hmem⟩ := rowList_cons hr1
  have hfirst : ¬ ((c1.stab.row 0).getD 0 0 = 0 ∧ (c1.stab.row 0).getD c1.n 0 = 0) := by
    have h := (hacts 0 hr1 0 hn).mpr (by simpa using h0)
    rwa [Nat.add_zero, ← hn1] at h
  have hrow0 := hbin _ (by rw [hrest]; simp : c1.stab.row 0 ∈ c1.stab.rowList)
  set v0 : List ℤ := List.replicate (2 * m) 0 with hv0
  have lv0 : v0.length = 2 * m := by simp [hv0]
  have hstart : c1.stab.rowList.foldlM (concatRow c1 c2 q) ([], none) =
      c1.stab.rowList.foldlM (concatRow c1 c2 q) ([], some v0) := by
    rw [hrest, List.foldlM_cons, List.foldlM_cons, concatRow_cur (by omega) hrow0 hfirst [] none (some v0)]
  refine ⟨fun h => ?_, ?_, ?_⟩
  · rw [hconcat, hstart, hrest, List.foldlM_cons]
    have hrow : concatRow c1 c2 q ([], some v0) (c1.stab.row 0) = .error .value := by
      by_cases hne : l * q = m
      · have hlt : l * q < l * l := by rcases h with h | h <;> [exact absurd hne h; exact h]
        have hq : q < l := Nat.lt_of_mul_lt_mul_left hlt
        refine concatRow_value hn1 hn2 hcx hcz hbx hbz (by omega) hrow0 lv0
          (fun j _ => by rw [hlx]; exact (Nat.mod_lt _ hq0).trans hq) (j := l * q - 1) (by omega) ?_
        have hdiv : (l * q - 1) / q = l - 1 := by
          obtain ⟨l', rfl⟩ : ∃ l', l = l' + 1 := ⟨l - 1, by omega⟩
          rw [Nat.div_eq_iff hq0, Nat.add_sub_cancel, Nat.add_mul, one_mul]
          omega
        rw [hdiv, ← hne]
        have h3 : q * (l * q) ≤ l * q * (l - 1) := by
          rw [mul_comm q]
          exact Nat.mul_le_mul_left _ (by omega)
        rw [min_eq_right h3, min_eq_right (h3.trans (Nat.mul_le_mul_left _ (Nat.le_succ _))), Nat.sub_self]
        omega
      · -- the slice of the first letter
        have hbad : min (l * q * (0 / q + 1)) (q * m) - min (l * q * (0 / q)) (q * m) ≠ m := by
          simp only [Nat.zero_div, Nat.zero_add, Nat.mul_one, Nat.mul_zero, Nat.zero_min, Nat.sub_zero]
          intro h
          rcases Nat.le_total (l * q) (q * m) with h3 | h3
          · rw [min_eq_left h3] at h
            exact hne h
          · rw [min_eq_right h3] at h
            have : q = 1 := by
              have : q * m = 1 * m := by rw [h, one_mul]
              exact Nat.eq_of_mul_eq_mul_right (by omega) this
            subst this
            omega
        unfold concatRow
        obtain ⟨r, hr⟩ : ∃ r, c1.n = r + 1 := ⟨c1.n - 1, by omega⟩
        have hrange : List.range c1.n = 0 :: (List.range r).map Nat.succ := by rw [hr, List.range_succ_eq_map]
        obtain ⟨-, h4⟩ := letter_outcome (c1 := c1) (q := q) hn2 hcx hcz hbx hbz (by omega) hrow0
          (chosen_start lv0) 0
        rw [hrange, List.foldlM_cons, hn2, (h4 fun h => by rw [Nat.zero_mod] at h; omega).2 (by rw [hn1]; exact hbad)]
        rfl
    rw [hrow]
    rfl
  · rintro rfl hll ⟨i, hi, j, hj, ha, hbig⟩
    have hlq : l ≤ q := Nat.le_of_mul_le_mul_left hll (by omega)
    have hgood : ∀ j < l * q, min (l * q * (j / q + 1)) (q * (l * q)) - min (l * q * (j / q)) (q * (l * q)) = l * q := by
      intro j hj
      have : j / q < q := (Nat.div_lt_of_lt_mul (by rw [mul_comm]; exact hj) : j / q < l).trans_le hlq
      have h3 : l * q * (j / q + 1) ≤ q * (l * q) := by rw [mul_comm]; exact Nat.mul_le_mul_right _ this
      rw [min_eq_left h3, min_eq_left ((Nat.mul_le_mul_left _ (Nat.le_succ _)).trans h3), Nat.mul_add, Nat.mul_one,
        Nat.add_sub_cancel_left]
    obtain ⟨pre, post, hs⟩ := List.append_of_mem (List.mem_range.mpr hi)
    have hlist : c1.stab.rowList = pre.map c1.stab.row ++ c1.stab.row i :: post.map c1.stab.row := by
      unfold Arr.rowList; rw [hs, List.map_append, List.map_cons]
    have hpre : ∀ b ∈ pre, b < c1.stab.rows := fun b hb => List.mem_range.mp (by rw [hs]; simp [hb])
    have h := foldlM_error_eq (f := concatRow c1 c2 q) (e := .index)
      (fun acc => ∃ v, acc.2 = some v ∧ v.length = 2 * (l * q)) (pre.map c1.stab.row) (c1.stab.row i) (post.map c1.stab.row)
      (by
        rintro ⟨a, -⟩ r hr ⟨v, rfl, hv⟩
        obtain ⟨i', hi', rfl⟩ := List.mem_map.mp hr
        have hb := hbin (c1.stab.row i') (by rw [hlist]; simp [hr])
        by_cases hex : ∃ j < l * q, Acts c1.stab (l * q) (i' * (l * q) + j) ∧ l ≤ j % q
        · obtain ⟨j', hj', ha', hbig'⟩ := hex
          exact Or.inr (concatRow_index hn1 hn2 hcx hcz hbx hbz (by omega) hb hv hgood hj'
            ((hacts i' (hpre i' hi') j' hj').mpr ha') (by omega))
        · obtain ⟨a', v', e, hv'⟩ := concatRow_chosen (q := q) (a := a) hn1 hn2 hcx hcz hbx hbz (by omega) hb hv hgood
            (fun j' hj' ha' => by
              rw [hlx]
              exact Nat.not_le.mp fun hle => hex ⟨j', hj', (hacts i' (hpre i' hi') j' hj').mp ha', hle⟩)
          exact Or.inl ⟨_, e, v', rfl, hv'⟩)
      ([], some v0) ⟨v0, rfl, lv0⟩
      (by
        rintro ⟨a, -⟩ ⟨v, rfl, hv⟩
        exact concatRow_index hn1 hn2 hcx hcz hbx hbz (by omega) (hbin _ (by rw [hlist]; simp)) hv hgood hj
          ((hacts i hi j hj).mpr ha) (by omega))
    rw [hconcat, hstart, hlist, h]
    rfl
  · rintro rfl hll hall
    have hlq : l ≤ q := Nat.le_of_mul_le_mul_left hll (by omega)
    obtain ⟨subs, cur, r0, r1, r2, -⟩ := rows_repeat (q := q) hn hn1 hn2 hcx hcz hbx hbz hc1 hb1
      (fun j hj => (Nat.div_lt_of_lt_mul (by rw [mul_comm]; exact hj) : j / q < l).trans_le hlq) h0
      (fun i hi j hj ha => ⟨by rw [hlx]; exact hall i hi j hj ha, by rw [hlz]; exact hall i hi j hj ha⟩) c1.stab.rows le_rfl
    have hin : ∀ r ∈ c2.stab.rowList, r.length = 2 * (l * q) := by
      intro r hr
      obtain ⟨i, hi, rfl⟩ := mem_rowList hr
      rw [row_length, hc2]
    refine ⟨blockRows (l * q) q c2.stab.rowList ++ subs, ?_, ?_, ?_⟩
    · rw [hconcat, show c1.stab.rowList = (List.range c1.stab.rows).map c1.stab.row from rfl, r0, ok_bind']
      rcases stabInit (.rows (blockRows (l * q) q c2.stab.rowList ++ subs)) (q * (l * q)) k none with e | c <;> rfl
    · intro r hr
      rcases List.mem_append.mp hr with hr | hr
      · obtain ⟨b, g', hg, rfl⟩ := mem_blockRows hr
        refine ⟨blockRow_length _ q b g' (hin g' hg) b.2, blockRow_binary _ q b g' ?_⟩
        obtain ⟨i, hi, rfl⟩ := mem_rowList hg
        exact row_isBinary hb2 hi
      · exact r2 r hr
    · rw [List.map_append, r1]
      congr 1
      unfold blockRows
      rw [List.map_flatMap, ← List.map_coe_finRange_eq_range, List.flatMap_map]
      refine List.flatMap_congr fun b _ => ?_
      unfold Arr.rowList
      rw [List.map_map, List.map_map]
      refine List.map_congr_left fun j hj => ?_
      simp only [Function.comp]
      rw [blockRow_vec _ q b _ (by rw [row_length, hc2]), rowPauli_row hc2]

end

/-- **C22** is false without any exception being raised: for the outer code XXXX, ZIIZ and the inner code XXXX, ZZZZ a code is
returned, but the generator ZIIZ with its letters replaced by logical operators is not in its group. -/
theorem C22_identity_silent_refuted : ∃ c1 c2 c : StabCode,
    stabInit (.rows [[1, 1, 1, 1, 0, 0, 0, 0], [0, 0, 0, 0, 1, 0, 0, 1]]) 4 2 none = .ok c1 ∧
    stabInit (.rows [[1, 1, 1, 1, 0, 0, 0, 0], [0, 0, 0, 0, 1, 1, 1, 1]]) 4 2 none = .ok c2 ∧
    concatenateCodes c1 c2 = .ok (some c) ∧ c.n = 8 ∧ c.k = 2 ∧
    substituted (fun b a : Fin 2 => ((c1.stab.get 1 (2 * b + a) : ℤ) : ZMod 2))
      (fun b a : Fin 2 => ((c1.stab.get 1 (4 + (2 * b + a)) : ℤ) : ZMod 2))
      (fun a => rowVec 4 c2.logicalX a) (fun a => rowVec 4 c2.logicalZ a) ∉ rowSpan 8 c.stab := by
  obtain ⟨c1, p1, -, -, p4, -⟩ := concrete_code (l := [[1, 1, 1, 1, 0, 0, 0, 0], [0, 0, 0, 0, 1, 0, 0, 1]]) (n := 4) (k := 2)
    (r := 1) (e := 1) (by decide) (by decide) (by decide) (by unfold IsBinary; decide) (by decide)
    (independent_cert _ (fun j a => if j = 0 ∧ a = 0 ∨ j = 4 ∧ a = 1 then 1 else 0) (by decide))
    (fun F _ => rank_cert (M := Matrix.of fun (i : Fin 2) (j : Fin 4) =>
        (Arr.ofRows (2 * 4) [[1, 1, 1, 1, 0, 0, 0, 0], [0, 0, 0, 0, 1, 0, 0, 1]]).get i j)
      !![1; 0] !![1, 1, 1, 1] !![1, 0] !![1; 0; 0; 0] (by decide) (by decide) F)
    (Or.inr (rank_cert (M := Matrix.of fun (i : Fin 1) (j : Fin 3) =>
        ((firstBlock 4 1 (Arr.ofRows (2 * 4) [[1, 1, 1, 1, 0, 0, 0, 0], [0, 0, 0, 0, 1, 0, 0, 1]])).slice 1 2 (4 + 1) (2 * 4)).get i j)
      !![1] !![0, 0, 1] !![1] !![0; 0; 1] (by decide) (by decide) ℚ))
  obtain ⟨c2, q1, q2, q3, q4, q5, q6⟩ := concrete_code (l := [[1, 1, 1, 1, 0, 0, 0, 0], [0, 0, 0, 0, 1, 1, 1, 1]]) (n := 4) (k := 2)
    (r := 1) (e := 1) (by decide) (by decide) (by decide) (by unfold IsBinary; decide) (by decide)
    (independent_cert _ (fun j a => if j = 0 ∧ a = 0 ∨ j = 4 ∧ a = 1 then 1 else 0) (by decide))
    (fun F _ => rank_cert (M := Matrix.of fun (i : Fin 2) (j : Fin 4) =>
        (Arr.ofRows (2 * 4) [[1, 1, 1, 1, 0, 0, 0, 0], [0, 0, 0, 0, 1, 1, 1, 1]]).get i j)
      !![1; 0] !![1, 1, 1, 1] !![1, 0] !![1; 0; 0; 0] (by decide) (by decide) F)
    (Or.inr (rank_cert (M := Matrix.of fun (i : Fin 1) (j : Fin 3) =>
        ((firstBlock 4 1 (Arr.ofRows (2 * 4) [[1, 1, 1, 1, 0, 0, 0, 0], [0, 0, 0, 0, 1, 1, 1, 1]])).slice 1 2 (4 + 1) (2 * 4)).get i j)
      !![1] !![1, 1, 1] !![1] !![1; 0; 0] (by decide) (by decide) ℚ))
  rw [if_neg (by decide)] at q6
  obtain ⟨-, hX, hZ⟩ := accepted_logical q1 q2 q3
  rw [q5, q6] at hX hZ
  obtain ⟨-, -, -, -, n1, k1, -⟩ := stabInit_ok p1
  obtain ⟨-, -, -, -, n2, k2, -⟩ := stabInit_ok q1
  obtain ⟨c, r1, -, -, r4, -⟩ := concrete_code (l := [[1, 1, 1, 1, 0, 0, 0, 0, 0, 0, 0, 0, 0, 0, 0, 0],
      [0, 0, 0, 0, 0, 0, 0, 0, 1, 1, 1, 1, 0, 0, 0, 0], [0, 0, 0, 0, 1, 1, 1, 1, 0, 0, 0, 0, 0, 0, 0, 0],
      [0, 0, 0, 0, 0, 0, 0, 0, 0, 0, 0, 0, 1, 1, 1, 1], [0, 0, 1, 1, 0, 0, 1, 1, 0, 0, 0, 0, 0, 0, 0, 0],
      [0, 0, 0, 0, 0, 0, 0, 0, 0, 0, 0, 0, 0, 0, 1, 1]]) (n := 8) (k := 2)
    (r := 3) (e := 3) (by decide) (by decide) (by decide) (by unfold IsBinary; decide) (by decide +kernel)
    (independent_cert _ (fun j a => if j = 0 ∧ a = 0 ∨ j = 8 ∧ a = 1 ∨ j = 4 ∧ a = 2 ∨ j = 12 ∧ a = 3 ∨ (j = 0 ∨ j = 2) ∧ a = 4 ∨
      (j = 12 ∨ j = 14) ∧ a = 5 then 1 else 0) (by decide +kernel))
    (fun F _ => rank_cert (M := Matrix.of fun (i : Fin 6) (j : Fin 8) =>
        (Arr.ofRows (2 * 8) [[1, 1, 1, 1, 0, 0, 0, 0, 0, 0, 0, 0, 0, 0, 0, 0],
      [0, 0, 0, 0, 0, 0, 0, 0, 1, 1, 1, 1, 0, 0, 0, 0], [0, 0, 0, 0, 1, 1, 1, 1, 0, 0, 0, 0, 0, 0, 0, 0],
      [0, 0, 0, 0, 0, 0, 0, 0, 0, 0, 0, 0, 1, 1, 1, 1], [0, 0, 1, 1, 0, 0, 1, 1, 0, 0, 0, 0, 0, 0, 0, 0],
      [0, 0, 0, 0, 0, 0, 0, 0, 0, 0, 0, 0, 0, 0, 1, 1]]).get i j)
      !![1, 0, 0; 0, 0, 0; 0, 1, 0; 0, 0, 0; 0, 0, 1; 0, 0, 0]
      !![1, 1, 1, 1, 0, 0, 0, 0; 0, 0, 0, 0, 1, 1, 1, 1; 0, 0, 1, 1, 0, 0, 1, 1]
      !![1, 0, 0, 0, 0, 0; 0, 0, 1, 0, 0, 0; 0, 0, 0, 0, 1, 0]
      !![1, 0, -1; 0, 0, 0; 0, 0, 1; 0, 0, 0; 0, 1, 0; 0, 0, 0; 0, 0, 0; 0, 0, 0] (by decide +kernel) (by decide +kernel) F)
    (Or.inr (rank_cert (M := Matrix.of fun (i : Fin 3) (j : Fin 5) =>
        ((firstBlock 8 3 (Arr.ofRows (2 * 8) [[1, 1, 1, 1, 0, 0, 0, 0, 0, 0, 0, 0, 0, 0, 0, 0],
      [0, 0, 0, 0, 0, 0, 0, 0, 1, 1, 1, 1, 0, 0, 0, 0], [0, 0, 0, 0, 1, 1, 1, 1, 0, 0, 0, 0, 0, 0, 0, 0],
      [0, 0, 0, 0, 0, 0, 0, 0, 0, 0, 0, 0, 1, 1, 1, 1], [0, 0, 1, 1, 0, 0, 1, 1, 0, 0, 0, 0, 0, 0, 0, 0],
      [0, 0, 0, 0, 0, 0, 0, 0, 0, 0, 0, 0, 0, 0, 1, 1]])).slice 3 6 (8 + 3) (2 * 8)).get i j)
      1 !![0, 0, 1, 1, 1; 1, 1, 0, 0, 0; 0, 0, 0, 1, 1] 1
      !![0, 1, 0; 0, 0, 0; 1, 0, -1; 0, 0, 1; 0, 0, 0] (by decide +kernel) (by decide +kernel) ℚ))
  obtain ⟨-, -, -, -, n3, k3, -⟩ := stabInit_ok r1
  refine ⟨c1, c2, c, p1, q1, ?_, n3, k3, ?_⟩
  · rw [concat_many (by omega) (by rw [k2, n1]; decide), n1, n2, k2, k1]
    have h : c1.stab.rowList.foldlM (concatRow c1 c2 (4 / 2)) ([], none) =
        .ok ([[0, 0, 1, 1, 0, 0, 1, 1, 0, 0, 0, 0, 0, 0, 0, 0], [0, 0, 0, 0, 0, 0, 0, 0, 0, 0, 0, 0, 0, 0, 1, 1]],
          some [0, 0, 0, 0, 1, 0, 0, 1]) := by
      unfold concatRow concatLetter chooseLogical
      rw [n1, n2, p4, hX, hZ]
      rfl
    rw [h, ok_bind', q4]
    exact congrArg (· >>= fun c => Except.ok (some c)) r1
  · intro hmem
    have hcomm : ∀ w ∈ rowSpan 8 c.stab, sympV ((rowPauli 8 [0, 1, 1, 0, 0, 0, 0, 0]).vec : BVec 8) w = 0 := by
      intro w hw
      have hrows : ∀ i : Fin c.stab.rows, sympV ((rowPauli 8 [0, 1, 1, 0, 0, 0, 0, 0]).vec : BVec 8) (rowVec 8 c.stab i) = 0 := by
        rw [r4]
        decide +kernel
      refine Submodule.span_induction ?_ ?_ ?_ ?_ hw
      · rintro _ ⟨i, rfl⟩
        exact hrows i
      · decide +kernel
      · intro x y _ _ hx hy
        rw [sympV_add_right, hx, hy, add_zero]
      · intro a x _ hx
        rw [sympV_smul_right, hx, mul_zero]
    have h := hcomm _ hmem
    rw [p4, hX, hZ] at h
    revert h
    decide +kernel

/-- The `[6, 2]` code with generators X on the first four qubits, concatenated with itself, meets the hypotheses of the second
part of `C22_exact`: `IndexError`. -/
example : ∃ c : StabCode, stabInit (.rows [[1, 0, 0, 0, 0, 0, 0, 0, 0, 0, 0, 0], [0, 1, 0, 0, 0, 0, 0, 0, 0, 0, 0, 0],
    [0, 0, 1, 0, 0, 0, 0, 0, 0, 0, 0, 0], [0, 0, 0, 1, 0, 0, 0, 0, 0, 0, 0, 0]]) 6 2 none = .ok c ∧
    concatenateCodes c c = .error .index := by
  obtain ⟨c, h1, h2, h3, h4, -⟩ := concrete_code (l := [[1, 0, 0, 0, 0, 0, 0, 0, 0, 0, 0, 0],
      [0, 1, 0, 0, 0, 0, 0, 0, 0, 0, 0, 0], [0, 0, 1, 0, 0, 0, 0, 0, 0, 0, 0, 0],
      [0, 0, 0, 1, 0, 0, 0, 0, 0, 0, 0, 0]]) (n := 6) (k := 2)
    (r := 4) (e := 0) (by decide) (by decide) (by decide) (by unfold IsBinary; decide) (by decide)
    (independent_cert _ (fun j a => if j = a then 1 else 0) (by decide))
    (fun F _ => rank_cert (M := Matrix.of fun (i : Fin 4) (j : Fin 6) => (Arr.ofRows (2 * 6) [[1, 0, 0, 0, 0, 0, 0, 0, 0, 0, 0, 0],
      [0, 1, 0, 0, 0, 0, 0, 0, 0, 0, 0, 0], [0, 0, 1, 0, 0, 0, 0, 0, 0, 0, 0, 0], [0, 0, 0, 1, 0, 0, 0, 0, 0, 0, 0, 0]]).get i j)
      1 (Matrix.of fun i j => if (i : ℕ) = j then 1 else 0) 1 (Matrix.of fun i j => if (i : ℕ) = j then 1 else 0)
      (by decide) (by decide) F)
    (Or.inl rfl)
  obtain ⟨x1, x2, z1, z2, xb, zb, -⟩ := C08_logical_operators _ 6 2 c h1 h2 h3
  refine ⟨c, h1, (C22_exact h1 h1 (by decide) le_rfl (by decide) (by decide) h2 h2 x1 z1 xb zb x2 z2
    (by unfold Acts; rw [h4]; decide)).2.1 rfl (by decide) ⟨2, by rw [h4]; decide, 2, by decide, ?_, by decide⟩⟩
  unfold Acts
  rw [h4]
  decide

/-- The codes of `C22_identity_silent_refuted` meet the hypotheses of the third part of `C22_exact`. -/
example : ∃ c1 c2 : StabCode, ∃ gens : List (List ℤ),
    stabInit (.rows [[1, 1, 1, 1, 0, 0, 0, 0], [0, 0, 0, 0, 1, 0, 0, 1]]) 4 2 none = .ok c1 ∧
    concatenateCodes c1 c2 = (stabInit (.rows gens) (4 / 2 * 4) 2 none).map some := by
  obtain ⟨c1, p1, p2, -, p4, -⟩ := concrete_code (l := [[1, 1, 1, 1, 0, 0, 0, 0], [0, 0, 0, 0, 1, 0, 0, 1]]) (n := 4) (k := 2)
    (r := 1) (e := 1) (by decide) (by decide) (by decide) (by unfold IsBinary; decide) (by decide)
    (independent_cert _ (fun j a => if j = 0 ∧ a = 0 ∨ j = 4 ∧ a = 1 then 1 else 0) (by decide))
    (fun F _ => rank_cert (M := Matrix.of fun (i : Fin 2) (j : Fin 4) =>
        (Arr.ofRows (2 * 4) [[1, 1, 1, 1, 0, 0, 0, 0], [0, 0, 0, 0, 1, 0, 0, 1]]).get i j)
      !![1; 0] !![1, 1, 1, 1] !![1, 0] !![1; 0; 0; 0] (by decide) (by decide) F)
    (Or.inr (rank_cert (M := Matrix.of fun (i : Fin 1) (j : Fin 3) =>
        ((firstBlock 4 1 (Arr.ofRows (2 * 4) [[1, 1, 1, 1, 0, 0, 0, 0], [0, 0, 0, 0, 1, 0, 0, 1]])).slice 1 2 (4 + 1) (2 * 4)).get i j)
      !![1] !![0, 0, 1] !![1] !![0; 0; 1] (by decide) (by decide) ℚ))
  obtain ⟨c2, q1, q2, q3, -⟩ := code422
  obtain ⟨x1, x2, z1, z2, xb, zb, -⟩ := C08_logical_operators _ 4 2 c2 q1 q2 q3
  obtain ⟨gens, h, -⟩ := (C22_exact p1 q1 (by decide) le_rfl (by decide) (by decide) p2 q2 x1 z1 xb zb x2 z2
    (by unfold Acts; rw [p4]; decide)).2.2 rfl (by decide) (fun i _ j _ _ => Nat.mod_lt _ (by decide))
  exact ⟨c1, c2, gens, p1, h⟩

end PyQ
