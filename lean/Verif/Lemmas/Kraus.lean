import Verif.Model.Kraus
import Verif.Spec.Channel
import Verif.Lemmas.TensorPow
import Verif.Lemmas.Except

/-! Helper lemmas about the Kraus model: the `n`-fold operators and the effect of histories. -/

namespace PyQ

open Matrix

/-! ### `np.einsum` on operands of matching shapes -/

theorem einsumDim_self (a : ℕ) : einsumDim a a = .ok a := if_pos rfl

theorem einsumDim_of_eq {a b : ℕ} (h : a = b) : einsumDim a b = .ok a := if_pos h

theorem einsumIdx_lt {a i : ℕ} (h : i < a) : einsumIdx a i = i := by
  unfold einsumIdx
  split_ifs with h1
  · omega
  · rfl

theorem einsumDim_error {a b : ℕ} (h : a ≠ b) (ha : a ≠ 1) (hb : b ≠ 1) : einsumDim a b = .error .value := by
  unfold einsumDim
  rw [if_neg h, if_neg ha, if_neg hb]

theorem einsumDim_one (a : ℕ) : einsumDim a 1 = .ok a := by
  unfold einsumDim
  by_cases h : a = 1
  · rw [if_pos h]
  · rw [if_neg h, if_neg h, if_pos rfl]

theorem one_einsumDim (a : ℕ) : einsumDim 1 a = .ok a := by
  unfold einsumDim
  by_cases h : 1 = a
  · rw [if_pos h, h]
  · rw [if_neg h, if_pos rfl]

theorem exchangeBlock_eq {e : Arr4 ℂ} {rho : Arr ℂ} (h3 : e.d3 = rho.rows) (h2 : e.d2 = rho.cols) (a b : ℕ) :
    KrausObj.exchangeBlock e rho a b = .ok ⟨min b e.d1 - a, min b e.d0 - a,
      fun i j => ∑ k ∈ Finset.range e.d2, ∑ l ∈ Finset.range e.d3, e.get (a + j) (a + i) k l * rho.get l k⟩ := by
  unfold KrausObj.exchangeBlock
  rw [einsumDim_of_eq h2, einsumDim_of_eq h3]
  simp only [bind, Except.bind, pure, Except.pure]
  congr 2
  funext i j
  refine Finset.sum_congr rfl fun k hk => Finset.sum_congr rfl fun l hl => ?_
  rw [Finset.mem_range] at hk hl
  rw [einsumIdx_lt hk, einsumIdx_lt hl, einsumIdx_lt (h3 ▸ hl), einsumIdx_lt (h2 ▸ hk)]

theorem exchangeAdj_eq {o : KrausObj} {rho : Arr ℂ} {n : ℕ} (hs : ¬ o.sparse = true) (h0 : o.exch.d0 = rho.rows)
    (h1 : o.exch.d1 = rho.cols) :
    o.entropyExchangeAdj rho n = .ok ⟨o.exch.d2, o.exch.d3, fun k l => ∑ i ∈ Finset.range o.exch.d0,
      ∑ j ∈ Finset.range o.exch.d1, o.exch.get i j k l * rho.get i j⟩ := by
  unfold KrausObj.entropyExchangeAdj
  rw [if_neg hs, einsumDim_of_eq h0, einsumDim_of_eq h1]
  simp only [bind, Except.bind, pure, Except.pure]
  congr 2
  funext k l
  refine Finset.sum_congr rfl fun i hi => Finset.sum_congr rfl fun j hj => ?_
  rw [Finset.mem_range] at hi hj
  rw [einsumIdx_lt hi, einsumIdx_lt hj, einsumIdx_lt (h0 ▸ hi), einsumIdx_lt (h1 ▸ hj)]

theorem channelBatchDense_eq {o : KrausObj} {rho : Arr3 ℂ} {adjoint : Bool}
    (h1 : (o.factors adjoint).1.cols = rho.rows) (h2 : (o.factors adjoint).1.len = (o.factors adjoint).2.len)
    (h3 : rho.cols = (o.factors adjoint).2.rows) :
    o.channelBatchDense rho adjoint = .ok ⟨rho.len, (o.factors adjoint).1.rows, (o.factors adjoint).2.cols,
      fun b j m => ∑ i ∈ Finset.range (o.factors adjoint).1.len, ∑ p ∈ Finset.range rho.cols,
        (∑ k ∈ Finset.range (o.factors adjoint).1.cols, (o.factors adjoint).1.get i j k * rho.get b k p) *
          (o.factors adjoint).2.get i p m⟩ := by
  unfold KrausObj.channelBatchDense
  dsimp only
  rw [einsumDim_of_eq h1, einsumDim_of_eq h2, einsumDim_of_eq h3]
  simp only [bind, Except.bind, pure, Except.pure]
  congr 2
  funext b j m
  refine Finset.sum_congr rfl fun i hi => Finset.sum_congr rfl fun p hp => ?_
  rw [Finset.mem_range] at hi hp
  rw [einsumIdx_lt hi, einsumIdx_lt hp, einsumIdx_lt (h2 ▸ hi), einsumIdx_lt (h3 ▸ hp)]
  congr 1
  refine Finset.sum_congr rfl fun k hk => ?_
  rw [Finset.mem_range] at hk
  rw [einsumIdx_lt hk, einsumIdx_lt (h1 ▸ hk)]

theorem fidTerm_dense {o : KrausObj} {state : Arr ℂ} (hs : ¬ o.sparse = true) (h : o.kraus.cols = state.rows) :
    o.fidTerm state = .ok (∑ i ∈ Finset.range o.kraus.len, ‖∑ j ∈ Finset.range o.kraus.rows,
      ∑ k ∈ Finset.range o.kraus.cols, ∑ p ∈ Finset.range state.cols, o.kraus.get i j k * state.get k p‖ ^ 2) := by
  unfold KrausObj.fidTerm
  rw [if_neg hs, einsumDim_of_eq h]
  simp only [bind, Except.bind, pure, Except.pure]
  congr 1
  refine Finset.sum_congr rfl fun i _ => ?_
  congr 2
  refine Finset.sum_congr rfl fun j _ => Finset.sum_congr rfl fun k hk => Finset.sum_congr rfl fun p _ => ?_
  rw [Finset.mem_range] at hk
  rw [einsumIdx_lt hk, einsumIdx_lt (h ▸ hk)]

theorem fidTerm_sparse {o : KrausObj} {state : Arr ℂ} (hs : o.sparse = true) (h : o.kraus.cols = state.rows) :
    o.fidTerm state = .ok (∑ p ∈ Finset.range state.cols, ‖∑ i ∈ Finset.range (min o.kraus.len o.kraus.rows),
      ∑ k ∈ Finset.range o.kraus.cols, o.kraus.get i i k * state.get k p‖ ^ 2) := by
  unfold KrausObj.fidTerm
  rw [if_pos hs, if_pos h]

/-- The array that repeated `np.kron(kraus_ops, nth)` produces. -/
def powArr (K : Arr3 ℂ) : ℕ → Arr3 ℂ
  | 0 => K
  | 1 => K
  | n + 2 => K.kron (powArr K (n + 1))

theorem powArr_succ (K : Arr3 ℂ) {n : ℕ} (h : 1 ≤ n) : powArr K (n + 1) = K.kron (powArr K n) := by
  obtain ⟨m, rfl⟩ : ∃ m, n = m + 1 := ⟨n - 1, by omega⟩
  rfl

theorem powArr_dims (K : Arr3 ℂ) {n : ℕ} (h : 1 ≤ n) :
    (powArr K n).len = K.len ^ n ∧ (powArr K n).rows = K.rows ^ n ∧ (powArr K n).cols = K.cols ^ n := by
  induction n, h using Nat.le_induction with
  | base => simp [powArr]
  | succ n hn ih =>
    rw [powArr_succ K hn]
    simp only [Arr3.kron, ih.1, ih.2.1, ih.2.2]
    refine ⟨?_, ?_, ?_⟩ <;> ring

theorem mod_pow_digit (k L n s : ℕ) (hs : s < n) : k % L ^ n / L ^ s % L = k / L ^ s % L := by
  have h : L ^ n = L ^ s * L ^ (n - s) := by rw [← pow_add]; congr 1; omega
  rw [h, Nat.mod_mul_right_div_self]
  exact Nat.mod_mod_of_dvd _ (dvd_pow_self L (by omega))

/-- Digit `t` of `x` in base `m` with `n` digits. -/
def dig (m n t x : ℕ) : ℕ := x / m ^ (n - 1 - t) % m

theorem dig_zero {m n x : ℕ} (h : x < m ^ (n + 1)) : dig m (n + 1) 0 x = x / m ^ n := by
  unfold dig
  simp only [Nat.add_sub_cancel, Nat.sub_zero]
  apply Nat.mod_eq_of_lt
  apply Nat.div_lt_of_lt_mul
  rwa [← pow_succ]

theorem dig_succ {m n t x : ℕ} (h : t < n) : dig m (n + 1) (t + 1) x = dig m n t (x % m ^ n) := by
  unfold dig
  rw [mod_pow_digit _ _ _ _ (by omega)]
  congr 3
  omega

theorem powArr_get (K : Arr3 ℂ) {n : ℕ} (h : 1 ≤ n) {k i j : ℕ} (hk : k < K.len ^ n)
    (hi : i < K.rows ^ n) (hj : j < K.cols ^ n) :
    (powArr K n).get k i j =
      ∏ t ∈ Finset.range n, K.get (dig K.len n t k) (dig K.rows n t i) (dig K.cols n t j) := by
  induction n, h using Nat.le_induction generalizing k i j with
  | base =>
    simp only [pow_one] at hk hi hj
    simp [powArr, dig, Nat.mod_eq_of_lt hk, Nat.mod_eq_of_lt hi, Nat.mod_eq_of_lt hj]
  | succ n hn ih =>
    rw [powArr_succ K hn, Finset.prod_range_succ', dig_zero hk, dig_zero hi, dig_zero hj, mul_comm]
    obtain ⟨d1, d2, d3⟩ := powArr_dims K hn
    simp only [Arr3.kron, d1, d2, d3]
    have pos : ∀ {m x : ℕ}, x < m ^ (n + 1) → 0 < m ^ n := by
      intro m x hx
      apply Nat.pos_of_ne_zero
      intro h0
      rw [pow_succ, h0, zero_mul] at hx
      exact absurd hx (Nat.not_lt_zero _)
    rw [ih (Nat.mod_lt _ (pos hk)) (Nat.mod_lt _ (pos hi)) (Nat.mod_lt _ (pos hj))]
    congr 1
    apply Finset.prod_congr rfl
    intro t ht
    have ht := Finset.mem_range.mp ht
    rw [dig_succ ht, dig_succ ht, dig_succ ht]

theorem powArr_ops (K : Arr3 ℂ) {n : ℕ} (h : 1 ≤ n) :
    (powArr K n).ops (K.len ^ n) (K.rows ^ n) (K.cols ^ n) =
      Spec.tensorPow (K.ops K.len K.rows K.cols) n := by
  funext k i j
  unfold Arr3.ops Spec.tensorPow Spec.tensorProd
  rw [powArr_get K h k.2 i.2 j.2, Finset.prod_range]
  rfl

/-! ### Histories -/

/-- The object holds the operators of `n` uses. -/
structure Holds (o : KrausObj) (n : ℕ) : Prop where
  cur : o.curN = n
  nth : o.nth = powArr o.kraus n
  conj : o.sparse = true → o.nthConj = o.nth.conjT
  exch : Arr3.tensordot o.nth.conjT o.nth = .ok o.exch

theorem fold_tensor (l : List ℕ) (o : KrausObj) (n : ℕ) (hn : 1 ≤ n) (h1 : o.nth = powArr o.kraus n)
    (h2 : o.sparse = true → o.nthConj = o.nth.conjT) :
    let o' := l.foldl (fun o _ => o.setTensor o.kraus o.nth) o
    o'.nth = powArr o.kraus (n + l.length) ∧ (o.sparse = true → o'.nthConj = o'.nth.conjT) ∧
      o'.kraus = o.kraus ∧ o'.sparse = o.sparse ∧ o'.numIn = o.numIn ∧ o'.numOut = o.numOut ∧
      o'.dimIn = o.dimIn ∧ o'.dimOut = o.dimOut ∧ o'.orth = o.orth := by
  induction l generalizing o n with
  | nil => exact ⟨h1, h2, rfl, rfl, rfl, rfl, rfl, rfl, rfl⟩
  | cons a l ih =>
    have := ih (o.setTensor o.kraus o.nth) (n + 1) (by omega)
      (by simp only [KrausObj.setTensor]; rw [powArr_succ _ hn, ← h1])
      (by intro hs; simp only [KrausObj.setTensor] at hs ⊢; rw [if_pos hs])
    simp only [List.foldl_cons, List.length_cons]
    rw [show n + (l.length + 1) = n + 1 + l.length by omega]
    exact this

/-- The parts of an object that no method changes. -/
def SameStatic (o o' : KrausObj) : Prop :=
  o'.kraus = o.kraus ∧ o'.sparse = o.sparse ∧ o'.numIn = o.numIn ∧ o'.numOut = o.numOut ∧
    o'.dimIn = o.dimIn ∧ o'.dimOut = o.dimOut ∧ o'.orth = o.orth

theorem SameStatic.trans {a b c : KrausObj} (h : SameStatic a b) (h' : SameStatic b c) :
    SameStatic a c := by
  obtain ⟨h1, h2, h3, h4, h5, h6, h7⟩ := h
  obtain ⟨g1, g2, g3, g4, g5, g6, g7⟩ := h'
  exact ⟨g1.trans h1, g2.trans h2, g3.trans h3, g4.trans h4, g5.trans h5, g6.trans h6, g7.trans h7⟩

theorem retensor_holds (o : KrausObj) (m n : ℕ) (hm : 1 ≤ m) (hn : 1 ≤ n) (h : Holds o m)
    (hs : o.sparse = true → n = 1 → m = 1) :
    (o.retensor n).nth = powArr o.kraus n ∧
      (o.sparse = true → (o.retensor n).nthConj = (o.retensor n).nth.conjT) ∧
      SameStatic o (o.retensor n) := by
  unfold KrausObj.retensor
  by_cases h1 : o.curN < n
  · rw [if_pos h1]
    have := fold_tensor (List.range' o.curN (n - o.curN)) o m hm h.nth h.conj
    rw [List.length_range', h.cur, show m + (n - m) = n by rw [h.cur] at h1; omega] at this
    rw [h.cur]
    exact ⟨this.1, this.2.1, this.2.2⟩
  · rw [if_neg h1]
    by_cases h2 : n < o.curN
    · rw [if_pos h2]
      by_cases h3 : n = 1
      · rw [if_pos h3]
        subst h3
        refine ⟨rfl, ?_, rfl, rfl, rfl, rfl, rfl, rfl, rfl⟩
        intro hsp
        have := hs hsp rfl
        rw [h.cur] at h2
        omega
      · rw [if_neg h3]
        have := fold_tensor (List.range (n - 2)) (o.setTensor o.kraus o.kraus) 2 (by omega)
          (by simp only [KrausObj.setTensor]; rfl)
          (by intro hs; simp only [KrausObj.setTensor] at hs ⊢; rw [if_pos hs])
        rw [List.length_range, show 2 + (n - 2) = n by omega] at this
        exact ⟨this.1, this.2.1, this.2.2⟩
    · rw [if_neg h2]
      have : n = m := by rw [h.cur] at h1 h2; omega
      subst this
      exact ⟨h.nth, h.conj, rfl, rfl, rfl, rfl, rfl, rfl, rfl⟩

theorem tensordot_conj (A : Arr3 ℂ) : ∃ e, Arr3.tensordot A.conjT A = .ok e :=
  ⟨_, if_pos (show A.conjT.cols = A.rows from rfl)⟩

theorem update_holds (o : KrausObj) (m n : ℕ) (hm : 1 ≤ m) (hn : 1 ≤ n) (h : Holds o m)
    (hs : o.sparse = true → n = 1 → m = 1) :
    (o.update n).1 = .ok () ∧ Holds (o.update n).2 n ∧ SameStatic o (o.update n).2 := by
  obtain ⟨h1, h2, h3⟩ := retensor_holds o m n hm hn h hs
  obtain ⟨e, he⟩ := tensordot_conj (o.retensor n).nth
  have hexc : ({ o.retensor n with curN := n } : KrausObj).exchange = .ok e := by
    unfold KrausObj.exchange
    simp only
    by_cases hsp : (o.retensor n).sparse = true
    · rw [if_pos hsp, h2 (h3.2.1 ▸ hsp)]
      exact he
    · rw [if_neg hsp]
      exact he
  unfold KrausObj.update
  simp only [hexc]
  refine ⟨trivial, ⟨rfl, ?_, ?_, he⟩, h3⟩
  · simp only [h1, h3.1]
  · intro hsp
    exact h2 (h3.2.1 ▸ hsp)

theorem sync_holds (o : KrausObj) (m n : ℕ) (hm : 1 ≤ m) (hn : 1 ≤ n) (h : Holds o m)
    (hs : o.sparse = true → n = 1 → m = 1) :
    (QChan.sync o n).1 = .ok () ∧ Holds (QChan.sync o n).2 n ∧ SameStatic o (QChan.sync o n).2 := by
  unfold QChan.sync
  by_cases hc : n ≠ o.curN
  · rw [if_pos hc]
    exact update_holds o m n hm hn h hs
  · rw [if_neg hc]
    push Not at hc
    refine ⟨rfl, ?_, rfl, rfl, rfl, rfl, rfl, rfl, rfl⟩
    rw [hc, h.cur]
    exact h

theorem call_after (o : KrausObj) (c : QChan.Call) :
    c.after o = (QChan.sync o c.uses).2 ∨ c.after o = (o.update c.uses).2 := by
  cases c with
  | channel rho n a =>
    left
    simp only [QChan.Call.after, QChan.Call.uses, QChan.channel]
    rcases QChan.sync o n with ⟨_ | _, o'⟩ <;> rfl
  | channelBatch rho n a =>
    left
    simp only [QChan.Call.after, QChan.Call.uses, QChan.channelBatch]
    rcases QChan.sync o n with ⟨_ | _, o'⟩ <;> rfl
  | exchange rho n =>
    left
    simp only [QChan.Call.after, QChan.Call.uses, QChan.entropyExchange]
    rcases QChan.sync o n with ⟨_ | _, o'⟩ <;> rfl
  | exchangeAdj rho n =>
    left
    simp only [QChan.Call.after, QChan.Call.uses, QChan.entropyExchangeAdj]
    rcases QChan.sync o n with ⟨_ | _, o'⟩ <;> rfl
  | update n => right; rfl

theorem call_holds (o : KrausObj) (m : ℕ) (c : QChan.Call) (hm : 1 ≤ m) (hn : 1 ≤ c.uses) (h : Holds o m)
    (hs : o.sparse = true → c.uses = 1 → m = 1) :
    Holds (c.after o) c.uses ∧ SameStatic o (c.after o) := by
  rcases call_after o c with h1 | h1
  · rw [h1]; exact (sync_holds o m _ hm hn h hs).2
  · rw [h1]; exact (update_holds o m _ hm hn h hs).2

/-- Whatever was asked for before, the object holds the operators of `n` uses, except that the conjugates and the
exchange array of a sparse object may be those of an earlier call if `n` is one. -/
structure Near (o : KrausObj) (n : ℕ) : Prop where
  cur : o.curN = n
  nth : o.nth = powArr o.kraus n
  whole : ¬ (o.sparse = true ∧ n = 1) → Holds o n

theorem Holds.near {o : KrausObj} {n : ℕ} (h : Holds o n) : Near o n := ⟨h.cur, h.nth, fun _ => h⟩

theorem retensor_near (o : KrausObj) (m n : ℕ) (hm : 1 ≤ m) (hn : 1 ≤ n) (h : Near o m) :
    (o.retensor n).nth = powArr o.kraus n ∧
      (¬ (o.sparse = true ∧ n = 1) → o.sparse = true → (o.retensor n).nthConj = (o.retensor n).nth.conjT) ∧
      SameStatic o (o.retensor n) := by
  unfold KrausObj.retensor
  by_cases h1 : o.curN < n
  · rw [if_pos h1]
    rw [h.cur] at h1 ⊢
    obtain ⟨t, ht⟩ : ∃ t, n - m = t + 1 := ⟨n - m - 1, by omega⟩
    rw [ht, List.range'_succ, List.foldl_cons]
    have := fold_tensor (List.range' (m + 1) t) (o.setTensor o.kraus o.nth) (m + 1) (by omega)
      (by simp only [KrausObj.setTensor]; rw [powArr_succ _ hm, ← h.nth])
      (by intro hs; simp only [KrausObj.setTensor] at hs ⊢; rw [if_pos hs])
    rw [List.length_range', show m + 1 + t = n by omega] at this
    exact ⟨this.1, fun _ => this.2.1, this.2.2⟩
  · rw [if_neg h1]
    by_cases h2 : n < o.curN
    · rw [if_pos h2]
      by_cases h3 : n = 1
      · rw [if_pos h3]
        subst h3
        refine ⟨rfl, ?_, rfl, rfl, rfl, rfl, rfl, rfl, rfl⟩
        intro hne hsp
        exact absurd ⟨hsp, rfl⟩ hne
      · rw [if_neg h3]
        have := fold_tensor (List.range (n - 2)) (o.setTensor o.kraus o.kraus) 2 (by omega)
          (by simp only [KrausObj.setTensor]; rfl)
          (by intro hs; simp only [KrausObj.setTensor] at hs ⊢; rw [if_pos hs])
        rw [List.length_range, show 2 + (n - 2) = n by omega] at this
        exact ⟨this.1, fun _ => this.2.1, this.2.2⟩
    · rw [if_neg h2]
      have : n = m := by rw [h.cur] at h1 h2; omega
      subst this
      exact ⟨h.nth, fun hne => (h.whole hne).conj, rfl, rfl, rfl, rfl, rfl, rfl, rfl⟩

theorem update_near (o : KrausObj) (m n : ℕ) (hm : 1 ≤ m) (hn : 1 ≤ n) (h : Near o m) :
    (¬ (o.sparse = true ∧ n = 1) → (o.update n).1 = .ok ()) ∧ Near (o.update n).2 n ∧ SameStatic o (o.update n).2 := by
  obtain ⟨h1, h2, h3⟩ := retensor_near o m n hm hn h
  obtain ⟨e, he⟩ := tensordot_conj (o.retensor n).nth
  have hexc : ¬ (o.sparse = true ∧ n = 1) → ({ o.retensor n with curN := n } : KrausObj).exchange = .ok e := by
    intro hne
    unfold KrausObj.exchange
    simp only
    by_cases hsp : (o.retensor n).sparse = true
    · rw [if_pos hsp, h2 hne (h3.2.1 ▸ hsp)]
      exact he
    · rw [if_neg hsp]
      exact he
  unfold KrausObj.update
  simp only
  cases hx : ({ o.retensor n with curN := n } : KrausObj).exchange with
  | ok x =>
    simp only
    refine ⟨fun _ => trivial, ⟨rfl, ?_, ?_⟩, h3⟩
    · simp only [h1, h3.1]
    · intro hne
      have hne' : ¬ (o.sparse = true ∧ n = 1) := by
        rintro ⟨p, q⟩
        exact hne ⟨h3.2.1.trans p, q⟩
      rw [hexc hne'] at hx
      injection hx with hx
      subst hx
      refine ⟨rfl, ?_, ?_, he⟩
      · simp only [h1, h3.1]
      · intro hsp
        exact h2 hne' (h3.2.1 ▸ hsp)
  | error x =>
    simp only
    refine ⟨?_, ⟨rfl, ?_, ?_⟩, h3⟩
    · intro hne
      rw [hexc hne] at hx
      cases hx
    · simp only [h1, h3.1]
    · intro hne
      have hne' : ¬ (o.sparse = true ∧ n = 1) := by
        rintro ⟨p, q⟩
        exact hne ⟨h3.2.1.trans p, q⟩
      rw [hexc hne'] at hx
      cases hx

theorem sync_near (o : KrausObj) (m n : ℕ) (hm : 1 ≤ m) (hn : 1 ≤ n) (h : Near o m) :
    (¬ (o.sparse = true ∧ n = 1) → (QChan.sync o n).1 = .ok ()) ∧ Near (QChan.sync o n).2 n ∧
      SameStatic o (QChan.sync o n).2 := by
  unfold QChan.sync
  by_cases hc : n ≠ o.curN
  · rw [if_pos hc]
    exact update_near o m n hm hn h
  · rw [if_neg hc]
    push Not at hc
    refine ⟨fun _ => rfl, ?_, rfl, rfl, rfl, rfl, rfl, rfl, rfl⟩
    rw [hc, h.cur]
    exact h

/-- After any calls for positive numbers of uses. -/
theorem history_near (o : KrausObj) (m : ℕ) (calls : List QChan.Call) (hm : 1 ≤ m) (h : Near o m)
    (hp : ∀ c ∈ calls, 1 ≤ c.uses) :
    ∃ m', 1 ≤ m' ∧ (m' = (m :: calls.map QChan.Call.uses).getLast (by simp)) ∧
      Near (QChan.history o calls) m' ∧ SameStatic o (QChan.history o calls) := by
  induction calls generalizing o m with
  | nil => exact ⟨m, hm, rfl, h, rfl, rfl, rfl, rfl, rfl, rfl, rfl⟩
  | cons c l ih =>
    have hn : 1 ≤ c.uses := hp _ (by simp)
    obtain ⟨h1, h2⟩ : Near (c.after o) c.uses ∧ SameStatic o (c.after o) := by
      rcases call_after o c with e | e
      · rw [e]; exact (sync_near o m _ hm hn h).2
      · rw [e]; exact (update_near o m _ hm hn h).2
    obtain ⟨m', a1, a2, a3, a4⟩ := ih (c.after o) c.uses hn h1 fun c hc => hp c (by simp [hc])
    refine ⟨m', a1, ?_, a3, h2.trans a4⟩
    rw [a2]
    simp

/-- A sparse object whose conjugates are those of `p` uses. -/
structure Stale (o : KrausObj) (m p : ℕ) : Prop where
  near : Near o m
  conj : o.nthConj = (powArr o.kraus p).conjT
  pos : 1 ≤ p
  eq : m ≠ 1 → p = m

theorem update_stale {o : KrausObj} {m p n : ℕ} (hs : o.sparse = true) (hm : 1 ≤ m) (hn : 1 ≤ n) (h : Stale o m p) :
    Stale (o.update n).2 n (if n = 1 then p else n) := by
  obtain ⟨-, g2, g3⟩ := update_near o m n hm hn h.near
  by_cases h1 : n = 1
  · subst h1
    rw [if_pos rfl]
    refine ⟨g2, ?_, h.pos, fun h => absurd rfl h⟩
    rw [g3.1, ← h.conj]
    have e : (o.update 1).2.nthConj = (o.retensor 1).nthConj := by
      unfold KrausObj.update
      simp only
      cases ({ o.retensor 1 with curN := 1 } : KrausObj).exchange <;> rfl
    rw [e]
    unfold KrausObj.retensor
    rw [if_neg (by rw [h.near.cur]; omega), if_pos rfl]
    split_ifs <;> rfl
  · rw [if_neg h1]
    have hH := g2.whole fun hc => h1 hc.2
    exact ⟨g2, by rw [hH.conj (g3.2.1.trans hs), hH.nth], hn, fun _ => rfl⟩

theorem sync_stale {o : KrausObj} {m p n : ℕ} (hs : o.sparse = true) (hm : 1 ≤ m) (hn : 1 ≤ n) (h : Stale o m p) :
    Stale (QChan.sync o n).2 n (if n = 1 then p else n) := by
  unfold QChan.sync
  by_cases hc : n ≠ o.curN
  · rw [if_pos hc]
    exact update_stale hs hm hn h
  · rw [if_neg hc]
    push Not at hc
    rw [h.near.cur] at hc
    subst hc
    by_cases h1 : n = 1
    · rw [if_pos h1]; exact h
    · rw [if_neg h1, ← h.eq h1]
      rw [← h.eq h1] at h
      exact h

theorem history_stale {o : KrausObj} {m p : ℕ} (calls : List QChan.Call) (hs : o.sparse = true) (hm : 1 ≤ m)
    (h : Stale o m p) (hp : ∀ c ∈ calls, 1 ≤ c.uses) :
    ∃ m' p', 1 ≤ m' ∧ Stale (QChan.history o calls) m' p' ∧ SameStatic o (QChan.history o calls) ∧
      ((∃ c ∈ calls, 2 ≤ c.uses) ∨ 2 ≤ p → 2 ≤ p') := by
  induction calls generalizing o m p with
  | nil =>
    refine ⟨m, p, hm, h, ⟨rfl, rfl, rfl, rfl, rfl, rfl, rfl⟩, ?_⟩
    rintro (⟨c, hc, -⟩ | h)
    · exact absurd hc (by simp)
    · exact h
  | cons c l ih =>
    have hn : 1 ≤ c.uses := hp _ (by simp)
    obtain ⟨h1, h2⟩ : Stale (c.after o) c.uses (if c.uses = 1 then p else c.uses) ∧ SameStatic o (c.after o) := by
      rcases call_after o c with e | e
      · rw [e]; exact ⟨sync_stale hs hm hn h, (sync_near o m _ hm hn h.near).2.2⟩
      · rw [e]; exact ⟨update_stale hs hm hn h, (update_near o m _ hm hn h.near).2.2⟩
    obtain ⟨m', p', a1, a2, a3, a4⟩ := ih (h2.2.1.trans hs) hn h1 fun c hc => hp c (by simp [hc])
    refine ⟨m', p', a1, a2, h2.trans a3, fun hor => a4 ?_⟩
    rcases hor with ⟨c', hc', h2'⟩ | hp2
    · rcases List.mem_cons.mp hc' with rfl | hc'
      · right
        rw [if_neg (by omega)]
        exact h2'
      · exact Or.inl ⟨c', hc', h2'⟩
    · right
      split_ifs with h1
      · exact hp2
      · omega

/-- After calls for one use. -/
theorem history_ones (o : KrausObj) (calls : List QChan.Call) (h : Holds o 1) (hp : ∀ c ∈ calls, c.uses = 1) :
    Holds (QChan.history o calls) 1 := by
  induction calls generalizing o with
  | nil => exact h
  | cons c l ih =>
    have hn : c.uses = 1 := hp _ (by simp)
    obtain ⟨h1, -⟩ := call_holds o 1 c le_rfl hn.ge h fun _ _ => rfl
    rw [hn] at h1
    exact ih (c.after o) h1 fun c hc => hp c (by simp [hc])

theorem history_holds (o : KrausObj) (calls : List QChan.Call) (h : Holds o 1)
    (hsafe : Spec.SafeUses o.sparse (1 :: calls.map QChan.Call.uses)) :
    ∃ m', 1 ≤ m' ∧ (m' = (1 :: calls.map QChan.Call.uses).getLast (by simp)) ∧
      Holds (QChan.history o calls) m' ∧ SameStatic o (QChan.history o calls) := by
  obtain ⟨m, h1, h2, h3, h4⟩ := history_near o 1 calls le_rfl h.near fun c hc => hsafe.1 _ (by
    simp only [List.mem_cons, List.mem_map]; exact Or.inr ⟨c, hc, rfl⟩)
  refine ⟨m, h1, h2, ?_, h4⟩
  by_cases hb : o.sparse = true ∧ m = 1
  · obtain ⟨hs, rfl⟩ := hb
    refine history_ones o calls h fun c hc => hsafe.2 hs ?_ _ (by
      simp only [List.mem_cons, List.mem_map]; exact Or.inr ⟨c, hc, rfl⟩)
    rw [List.getLast?_eq_some_getLast (by simp), ← h2]
  · exact h3.whole fun hc => hb ⟨h4.2.1 ▸ hc.1, hc.2⟩

theorem krausInit_ok {sp : Bool} {ops : Arr3 ℂ} {a b d e : ℕ} {orth : List ℕ} {o : KrausObj}
    (h : KrausObj.init sp ops a b d e orth = .ok o) :
    Holds o 1 ∧ o.kraus = ops ∧ o.sparse = sp ∧ o.numIn = a ∧ o.numOut = b ∧ o.dimIn = d ∧
      o.dimOut = e ∧ o.orth = orth ∧ (ops.len = 0 ∨ ops.cols = d ^ a) ∧
      (ops.len = 0 ∨ ops.rows = e ^ b) := by
  unfold KrausObj.init at h
  by_cases h1 : ops.len = 0 ∨ ops.cols = d ^ a
  · by_cases h2 : ops.len = 0 ∨ ops.rows = e ^ b
    · obtain ⟨x, hx⟩ := tensordot_conj ops
      simp only [pyAssert, if_pos h1, if_pos h2, KrausObj.exchange, ite_self, hx] at h
      simp only [bind, Except.bind, pure, Except.pure] at h
      injection h with h
      subst h
      exact ⟨⟨rfl, rfl, fun _ => rfl, hx⟩, rfl, rfl, rfl, rfl, rfl, rfl, rfl, h1, h2⟩
    · simp only [pyAssert, if_pos h1, if_neg h2] at h
      cases h
  · simp only [pyAssert, if_neg h1] at h
    cases h

theorem qchanInit_ok {sp : Bool} {ops : Arr3 ℂ} {a b d e : ℕ} {orth : List ℕ} {o : KrausObj}
    (h : QChan.init sp ops a b d e orth = .ok o) :
    Holds o 1 ∧ o.kraus = ops ∧ o.sparse = sp ∧ o.numIn = a ∧ o.numOut = b ∧ o.dimIn = d ∧
      o.dimOut = e ∧ o.orth = (if sp then [] else orth) ∧ 0 < ops.len ∧ ops.cols = d ^ a ∧
      ops.rows = e ^ b ∧ o.isTP := by
  unfold QChan.init at h
  rcases hk : KrausObj.init sp ops a b d e (if sp then [] else orth) with x | o'
  · rw [hk] at h; cases h
  · rw [hk] at h
    obtain ⟨h1, h2, h3, h4, h5, h6, h7, h8, h9, h10⟩ := krausInit_ok hk
    by_cases hl : ops.len = 0
    · simp only [bind, Except.bind, if_pos hl] at h
      cases h
    · by_cases ht : o'.isTP
      · simp only [bind, Except.bind, if_neg hl, pyAssert, if_pos ht, pure, Except.pure] at h
        injection h with h
        subst h
        exact ⟨h1, h2, h3, h4, h5, h6, h7, h8, by omega, h9.resolve_left hl, h10.resolve_left hl, ht⟩
      · simp only [bind, Except.bind, if_neg hl, pyAssert, if_neg ht] at h
        cases h

/-! ### The methods in terms of Mathlib matrices -/

theorem factors_holds {o : KrausObj} {n : ℕ} (h : Holds o n) (adj : Bool) :
    o.factors adj = if adj then (o.nth.conjT, o.nth) else (o.nth, o.nth.conjT) := by
  unfold KrausObj.factors
  by_cases hs : o.sparse = true
  · simp only [if_pos hs, h.conj hs]
  · simp only [if_neg hs]

theorem sandwich (A B : Arr3 ℂ) (rho : Arr ℂ) (l a b c d : ℕ) (hA : A.len = l) (hB : B.len = l)
    (hb : A.cols = b) (hr : rho.rows = b) (hc : rho.cols = c) (hBc : B.rows = c) (ha : A.rows = a)
    (hd : B.cols = d) :
    ∃ out, (do let p ← Arr3.matmul2 A rho; let q ← Arr3.matmul3 p B; return q.sum0) = Except.ok out ∧
      out.rows = a ∧ out.cols = d ∧
      out.mat a d = ∑ i, A.ops l a b i * rho.mat b c * B.ops l c d i := by
  have e1 : Arr3.matmul2 A rho = .ok ⟨A.len, A.rows, rho.cols, fun k i j =>
      ∑ t ∈ Finset.range A.cols, A.get k i t * rho.get t j⟩ := if_pos (hb.trans hr.symm)
  rw [e1]
  simp only [bind, Except.bind]
  unfold Arr3.matmul3
  simp only
  rw [if_pos ⟨hc.trans hBc.symm, Or.inl (hA.trans hB.symm)⟩]
  simp only [pure, Except.pure]
  refine ⟨_, rfl, ha, hd, ?_⟩
  subst hb hc hA
  ext i j
  simp only [Arr.mat_apply, Arr3.sum0, Matrix.sum_apply, Matrix.mul_apply, Arr3.ops]
  have hlen : (if A.len = 1 then B.len else A.len) = A.len := by
    rw [hB]; exact ite_self _
  rw [hlen, Finset.sum_range]
  apply Finset.sum_congr rfl
  intro k _
  have hk1 : (if A.len = 1 then 0 else (k : ℕ)) = k := by
    split_ifs with h
    · have := k.2; omega
    · rfl
  have hk2 : (if B.len = 1 then 0 else (k : ℕ)) = k := by rw [hB]; exact hk1
  rw [Finset.sum_range]
  apply Finset.sum_congr rfl
  intro p _
  rw [hk1, hk2, Finset.sum_range]

theorem ops_conjT (A : Arr3 ℂ) (l a b : ℕ) (i : Fin l) : A.conjT.ops l b a i = (A.ops l a b i)ᴴ := rfl

theorem nth_dims {o : KrausObj} {n : ℕ} (hn : 1 ≤ n) (h : Holds o n) :
    o.nth.len = o.kraus.len ^ n ∧ o.nth.rows = o.kraus.rows ^ n ∧ o.nth.cols = o.kraus.cols ^ n := by
  rw [h.nth]; exact powArr_dims _ hn

theorem nth_ops {o : KrausObj} {n : ℕ} (hn : 1 ≤ n) (h : Holds o n) :
    o.nth.ops (o.kraus.len ^ n) (o.kraus.rows ^ n) (o.kraus.cols ^ n) =
      Spec.tensorPow (o.kraus.ops o.kraus.len o.kraus.rows o.kraus.cols) n := by
  rw [h.nth]; exact powArr_ops _ hn

theorem channel_holds {o : KrausObj} {n : ℕ} (hn : 1 ≤ n) (h : Holds o n) (rho : Arr ℂ)
    (hr : rho.rows = o.kraus.cols ^ n) (hc : rho.cols = o.kraus.cols ^ n) :
    ∃ out, o.channel rho false = .ok out ∧ out.rows = o.kraus.rows ^ n ∧ out.cols = o.kraus.rows ^ n ∧
      out.mat (o.kraus.rows ^ n) (o.kraus.rows ^ n) =
        Spec.applyKraus (Spec.tensorPow (o.kraus.ops o.kraus.len o.kraus.rows o.kraus.cols) n)
          (rho.mat (o.kraus.cols ^ n) (o.kraus.cols ^ n)) := by
  obtain ⟨d1, d2, d3⟩ := nth_dims hn h
  obtain ⟨out, e1, e2, e3, e4⟩ := sandwich o.nth o.nth.conjT rho (o.kraus.len ^ n) (o.kraus.rows ^ n)
    (o.kraus.cols ^ n) (o.kraus.cols ^ n) (o.kraus.rows ^ n) d1 d1 d3 hr hc d3 d2 d2
  refine ⟨out, ?_, e2, e3, ?_⟩
  · unfold KrausObj.channel
    rw [factors_holds h]
    exact e1
  · rw [e4, Spec.applyKraus]
    simp only [ops_conjT, nth_ops hn h]

theorem channel_adj_holds {o : KrausObj} {n : ℕ} (hn : 1 ≤ n) (h : Holds o n) (rho : Arr ℂ)
    (hr : rho.rows = o.kraus.rows ^ n) (hc : rho.cols = o.kraus.rows ^ n) :
    ∃ out, o.channel rho true = .ok out ∧ out.rows = o.kraus.cols ^ n ∧ out.cols = o.kraus.cols ^ n ∧
      out.mat (o.kraus.cols ^ n) (o.kraus.cols ^ n) =
        Spec.adjointKraus (Spec.tensorPow (o.kraus.ops o.kraus.len o.kraus.rows o.kraus.cols) n)
          (rho.mat (o.kraus.rows ^ n) (o.kraus.rows ^ n)) := by
  obtain ⟨d1, d2, d3⟩ := nth_dims hn h
  obtain ⟨out, e1, e2, e3, e4⟩ := sandwich o.nth.conjT o.nth rho (o.kraus.len ^ n) (o.kraus.cols ^ n)
    (o.kraus.rows ^ n) (o.kraus.rows ^ n) (o.kraus.cols ^ n) d1 d1 d2 hr hc d2 d3 d3
  refine ⟨out, ?_, e2, e3, ?_⟩
  · unfold KrausObj.channel
    rw [factors_holds h]
    exact e1
  · rw [e4, Spec.adjointKraus]
    simp only [ops_conjT, nth_ops hn h]

/-- The state in which a call for `n` uses runs, after any safe history. -/
theorem reach {o : KrausObj} (h : Holds o 1) (calls : List QChan.Call) (n : ℕ)
    (hsafe : Spec.SafeUses o.sparse (calls.map QChan.Call.uses ++ [n])) :
    1 ≤ n ∧ (QChan.sync (QChan.history o calls) n).1 = .ok () ∧
      Holds (QChan.sync (QChan.history o calls) n).2 n ∧
      SameStatic o (QChan.sync (QChan.history o calls) n).2 := by
  obtain ⟨hp, hq⟩ := hsafe
  have hn : 1 ≤ n := hp n (by simp)
  obtain ⟨m, h1, h2, h3, h4⟩ := history_near o 1 calls le_rfl h.near fun c hc => hp _ (by
    simp only [List.mem_append, List.mem_map]; exact Or.inl ⟨c, hc, rfl⟩)
  by_cases hb : o.sparse = true ∧ n = 1
  · obtain ⟨hs, rfl⟩ := hb
    have h5 := history_ones o calls h fun c hc => hq hs (by simp) _ (by
      simp only [List.mem_append, List.mem_map]; exact Or.inl ⟨c, hc, rfl⟩)
    obtain ⟨g1, g2, g3⟩ := sync_holds (QChan.history o calls) 1 1 le_rfl le_rfl h5 fun _ _ => rfl
    exact ⟨hn, g1, g2, h4.trans g3⟩
  · obtain ⟨g1, g2, g3⟩ := sync_near (QChan.history o calls) m n h1 hn h3
    have hb' : ¬ ((QChan.history o calls).sparse = true ∧ n = 1) := fun hc => hb ⟨h4.2.1 ▸ hc.1, hc.2⟩
    exact ⟨hn, g1 hb', g2.whole (fun hc => hb' ⟨g3.2.1 ▸ hc.1, hc.2⟩), h4.trans g3⟩

/-! ### The entropy exchange -/

theorem exch_eq {o : KrausObj} {n : ℕ} (h : Holds o n) :
    o.exch = ⟨o.nth.len, o.nth.len, o.nth.cols, o.nth.cols, fun i j k l =>
      ∑ t ∈ Finset.range o.nth.rows, star (o.nth.get i t k) * o.nth.get j t l⟩ := by
  have := h.exch
  unfold Arr3.tensordot at this
  rw [if_pos (show o.nth.conjT.cols = o.nth.rows from rfl)] at this
  injection this with this
  exact this.symm

theorem exch_sum (A : Arr3 ℂ) (rho : Arr ℂ) (l r c : ℕ) (i j : Fin l) :
    (∑ k ∈ Finset.range c, ∑ x ∈ Finset.range c,
      (∑ t ∈ Finset.range r, star (A.get j t k) * A.get i t x) * rho.get x k) =
      Spec.entropyExchange (A.ops l r c) (rho.mat c c) i j := by
  simp only [Spec.entropyExchange, trace, diag_apply, Matrix.mul_apply, Arr3.ops, Arr.mat_apply,
    conjTranspose_apply, Finset.sum_range, Finset.sum_mul]
  rw [Finset.sum_comm]
  conv_rhs => rw [Finset.sum_comm]
  rw [Finset.sum_comm]
  apply Finset.sum_congr rfl; intro k _
  rw [Finset.sum_comm]
  apply Finset.sum_congr rfl; intro t _
  apply Finset.sum_congr rfl; intro x _
  ring

theorem exchange_holds {o : KrausObj} {n : ℕ} (hn : 1 ≤ n) (h : Holds o n)
    (ho : o.sparse = true ∨ o.orth = []) (rho : Arr ℂ)
    (hr : rho.rows = o.kraus.cols ^ n) (hc : rho.cols = o.kraus.cols ^ n) :
    ∃ W, o.entropyExchange rho n = .ok [W] ∧ W.rows = o.kraus.len ^ n ∧ W.cols = o.kraus.len ^ n ∧
      W.mat (o.kraus.len ^ n) (o.kraus.len ^ n) =
        Spec.entropyExchange (Spec.tensorPow (o.kraus.ops o.kraus.len o.kraus.rows o.kraus.cols) n)
          (rho.mat (o.kraus.cols ^ n) (o.kraus.cols ^ n)) := by
  obtain ⟨d1, d2, d3⟩ := nth_dims hn h
  have he := exch_eq h
  have hex3 : o.exch.d3 = rho.rows := by rw [he]; exact d3.trans hr.symm
  have hex2 : o.exch.d2 = rho.cols := by rw [he]; exact d3.trans hc.symm
  unfold KrausObj.entropyExchange
  by_cases hs : o.sparse = true
  · rw [if_pos hs]
    unfold KrausObj.exchangeSparse
    rw [if_pos hex3]
    refine ⟨_, rfl, by rw [he]; exact d1, by rw [he]; exact d1, ?_⟩
    rw [← nth_ops hn h]
    ext i j
    rw [← exch_sum o.nth rho, Arr.mat_apply]
    rw [he]
    simp only
    rw [d3, d2, hc, min_self]
  · rw [if_neg hs]
    have ho' : o.orth.length = 0 := by
      rcases ho with ho | ho
      · exact absurd ho hs
      · rw [ho]; rfl
    rw [if_pos ho']
    rw [exchangeBlock_eq hex3 hex2]
    refine ⟨_, rfl, ?_, ?_, ?_⟩
    · simp only [he, max_self, min_self, Nat.sub_zero]; exact d1
    · simp only [he, max_self, min_self, Nat.sub_zero]; exact d1
    · rw [← nth_ops hn h]
      ext i j
      rw [← exch_sum o.nth rho, Arr.mat_apply, he]
      simp only [Nat.zero_add]
      rw [d3, d2]

theorem exchange_adj_holds {o : KrausObj} {n : ℕ} (hn : 1 ≤ n) (h : Holds o n) (sigma : Arr ℂ)
    (hr : sigma.rows = o.kraus.len ^ n) (hc : sigma.cols = o.kraus.len ^ n) :
    ∃ out, o.entropyExchangeAdj sigma n = .ok out ∧ out.rows = o.kraus.cols ^ n ∧
      out.cols = o.kraus.cols ^ n ∧
      out.mat (o.kraus.cols ^ n) (o.kraus.cols ^ n) =
        Spec.entropyExchangeAdj (Spec.tensorPow (o.kraus.ops o.kraus.len o.kraus.rows o.kraus.cols) n)
          (sigma.mat (o.kraus.len ^ n) (o.kraus.len ^ n)) := by
  obtain ⟨d1, d2, d3⟩ := nth_dims hn h
  have he := exch_eq h
  by_cases hs : o.sparse = true
  · unfold KrausObj.entropyExchangeAdj
    rw [if_pos hs]
    simp only
    rw [if_pos ⟨by rw [hr, hc]; rfl, by rw [he]; exact d1, by rw [he]; exact d1⟩]
    refine ⟨_, rfl, by rw [he]; exact d3, by rw [he]; exact d3, ?_⟩
    rw [← nth_ops hn h]
    ext k l
    simp only [Arr.mat_apply, Spec.entropyExchangeAdj, Matrix.sum_apply, Matrix.smul_apply, smul_eq_mul,
      Matrix.mul_apply, conjTranspose_apply, Arr3.ops]
    rw [he]
    simp only
    rw [d1, d2, Finset.sum_range]
    apply Finset.sum_congr rfl; intro i _
    rw [Finset.sum_range]
    apply Finset.sum_congr rfl; intro j _
    rw [hc, KrausObj.numbKraus, Nat.add_comm, Nat.add_mul_div_right _ _ (lt_of_le_of_lt (Nat.zero_le _) j.2),
      Nat.div_eq_of_lt j.2, Nat.zero_add, Nat.add_mul_mod_self_right, Nat.mod_eq_of_lt j.2, mul_comm,
      Finset.sum_range]
  · rw [exchangeAdj_eq hs (by rw [he, hr]; exact d1) (by rw [he, hc]; exact d1)]
    refine ⟨_, rfl, by rw [he]; exact d3, by rw [he]; exact d3, ?_⟩
    rw [← nth_ops hn h]
    ext k l
    simp only [Arr.mat_apply, Spec.entropyExchangeAdj, Matrix.sum_apply, Matrix.smul_apply, smul_eq_mul,
      Matrix.mul_apply, conjTranspose_apply, Arr3.ops]
    rw [he]
    simp only
    rw [d1, d2, Finset.sum_range]
    apply Finset.sum_congr rfl; intro i _
    rw [Finset.sum_range]
    apply Finset.sum_congr rfl; intro j _
    rw [mul_comm, Finset.sum_range]

end PyQ
