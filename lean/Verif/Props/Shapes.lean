import Verif.Props.KrausBlocks
import Verif.Props.Entropy
import Verif.Props.Fidelity

/-!
# C87: matrices of the wrong shape
-/

namespace PyQ

open Matrix

variable {sp : Bool} {ops : Arr3 ℂ} {a b d e n : ℕ} {orth : List ℕ} {o : KrausObj} {calls : List QChan.Call}

/-- The object that the calls for `n` uses work on. -/
theorem api_state (h : QChan.init sp ops a b d e orth = .ok o)
    (hsafe : Spec.SafeUses sp (calls.map QChan.Call.uses ++ [n])) :
    ∃ o', QChan.sync (QChan.history o calls) n = (.ok (), o') ∧ Holds o' n ∧ 1 ≤ n ∧ o'.kraus = ops ∧ o'.sparse = sp ∧
      o'.orth = (if sp = true then [] else orth) ∧ o'.exch.d0 = ops.len ^ n ∧ o'.exch.d1 = ops.len ^ n ∧
      o'.exch.d2 = (d ^ a) ^ n ∧ o'.exch.d3 = (d ^ a) ^ n := by
  obtain ⟨h1, h2, h3, h4, h5, h6, h7, h8, h9, h10, h11, h12⟩ := qchanInit_ok h
  obtain ⟨hn, g1, g2, g3⟩ := reach h1 calls n (h3 ▸ hsafe)
  have hk : (QChan.sync (QChan.history o calls) n).2.kraus = ops := g3.1.trans h2
  obtain ⟨d1, -, d3⟩ := nth_dims hn g2
  have he := exch_eq g2
  rw [hk] at d1 d3
  rw [h10] at d3
  refine ⟨_, Prod.ext g1 rfl, g2, hn, hk, g3.2.1.trans h3, g3.2.2.2.2.2.2.trans h8, ?_⟩
  rw [he]
  exact ⟨d1, d1, d3, d3⟩

theorem exchangeBlock_error {x : Arr4 ℂ} {rho : Arr ℂ} {i j : ℕ}
    (hbad : einsumDim x.d2 rho.cols = .error .value ∨ einsumDim x.d3 rho.rows = .error .value) :
    KrausObj.exchangeBlock x rho i j = .error .value := by
  unfold KrausObj.exchangeBlock
  have herr : ∀ p q r, einsumDim p q = .error r → r = .value := by
    intro p q r hr
    unfold einsumDim at hr
    split_ifs at hr
    injection hr with hr
    exact hr.symm
  rcases hbad with hb | hb
  · rw [hb]; rfl
  · rcases hc : einsumDim x.d2 rho.cols with r | m
    · rw [herr _ _ _ hc]; rfl
    · simp only [bind, Except.bind]
      rw [hb]

/-- C87.  `coherent_information(rho, n)` and `fidelity_two_states(rho, n)` raise `ValueError` for every matrix whose
number of rows or columns is not the input dimension of `n` uses, for dense and sparse channels and after any calls. -/
theorem C87_wrong_shape {eig : Eigvalsh} {sqrtm : Sqrtm} (h : QChan.init sp ops a b d e orth = .ok o)
    (hsafe : Spec.SafeUses sp (calls.map QChan.Call.uses ++ [n])) (rho : Arr ℂ)
    (hbad : rho.rows ≠ (d ^ a) ^ n ∨ rho.cols ≠ (d ^ a) ^ n) (reg : Bool) :
    (QChan.coherentInformation eig (QChan.history o calls) rho n reg).1 = .error .value ∧
      (QChan.fidelityTwoStates sqrtm (QChan.history o calls) rho n).1 = .error .value := by
  have hx := C23_wrong_shape h calls n hsafe rho hbad
  rcases hch : QChan.channel (QChan.history o calls) rho n false with ⟨y, o'⟩
  rw [hch] at hx
  simp only at hx
  subst hx
  unfold QChan.coherentInformation QChan.fidelityTwoStates
  rw [hch]
  exact ⟨rfl, rfl⟩

/-- C87.  `entropy_exchange(rho, n)` of a sparse channel raises `ValueError` if the number of rows is wrong. -/
theorem C87_exchange_sparse (h : QChan.init true ops a b d e orth = .ok o)
    (hsafe : Spec.SafeUses true (calls.map QChan.Call.uses ++ [n])) (rho : Arr ℂ) (hbad : rho.rows ≠ (d ^ a) ^ n) :
    (QChan.entropyExchange (QChan.history o calls) rho n).1 = .error .value := by
  obtain ⟨o', h1, -, -, -, h3, -, -, -, -, h4⟩ := api_state h hsafe
  unfold QChan.entropyExchange
  rw [h1]
  simp only [KrausObj.entropyExchange, h3, if_true, KrausObj.exchangeSparse]
  rw [if_neg (by rw [h4]; exact fun hh => hbad hh.symm)]
  rfl

/-- C87 is false for the columns of a sparse channel: with the right number of rows and any number of columns
`entropy_exchange(rho, n)` returns the exchange matrix of the square matrix that is cut off or filled up with zeros. -/
theorem C87_exchange_columns_refuted (h : QChan.init true ops a b d e orth = .ok o)
    (hsafe : Spec.SafeUses true (calls.map QChan.Call.uses ++ [n])) (rho : Arr ℂ) (hr : rho.rows = (d ^ a) ^ n) :
    ∃ W, (QChan.entropyExchange (QChan.history o calls) rho n).1 = .ok [W] ∧ W.rows = ops.len ^ n ∧
      W.cols = ops.len ^ n ∧ W.mat (ops.len ^ n) (ops.len ^ n) =
        Spec.entropyExchange (Spec.tensorPow (ops.ops ops.len (e ^ b) (d ^ a)) n)
          (Matrix.of fun i j => if (j : ℕ) < rho.cols then rho.get i j else 0) := by
  obtain ⟨W, w1, w2, w3, w4⟩ := api_exchange h (Or.inl rfl) calls n hsafe
    ⟨(d ^ a) ^ n, (d ^ a) ^ n, fun i j => if j < rho.cols then rho.get i j else 0⟩ rfl rfl
  refine ⟨W, ?_, w2, w3, w4⟩
  rw [← w1]
  obtain ⟨o', h1, -, -, -, h3, -, -, -, h2, h4⟩ := api_state h hsafe
  unfold QChan.entropyExchange
  rw [h1]
  simp only [KrausObj.entropyExchange, h3, if_true, KrausObj.exchangeSparse]
  rw [if_pos (by rw [h4, hr]), if_pos h4, h2, min_self]
  simp only [bind, Except.bind, pure, Except.pure]
  congr 4
  funext i j
  have hsub : Finset.range (min ((d ^ a) ^ n) rho.cols) ⊆ Finset.range ((d ^ a) ^ n) :=
    Finset.range_subset_range.mpr (Nat.min_le_left _ _)
  rw [← Finset.sum_subset hsub]
  · refine Finset.sum_congr rfl fun k hk => Finset.sum_congr rfl fun l _ => ?_
    rw [Finset.mem_range] at hk
    rw [if_pos (by omega)]
  · intro k hk hk'
    rw [Finset.mem_range] at hk hk'
    refine Finset.sum_eq_zero fun l _ => ?_
    rw [if_neg (by omega), mul_zero]

/-- C87.  `entropy_exchange(rho, n)` of a dense channel raises `ValueError` for a wrong number of rows or columns that is
not one, with any groups of orthogonal operators, if the input space is not one-dimensional. -/
theorem C87_exchange_dense_partial (h : QChan.init false ops a b d e orth = .ok o)
    (hsafe : Spec.SafeUses false (calls.map QChan.Call.uses ++ [n])) (rho : Arr ℂ) (hone : (d ^ a) ^ n ≠ 1)
    (hbad : (rho.rows ≠ (d ^ a) ^ n ∧ rho.rows ≠ 1) ∨ (rho.cols ≠ (d ^ a) ^ n ∧ rho.cols ≠ 1)) :
    (QChan.entropyExchange (QChan.history o calls) rho n).1 = .error .value := by
  obtain ⟨o', h1, -, hn, -, h3, h5, -, -, h2, h4⟩ := api_state h hsafe
  have hblock : ∀ i j, KrausObj.exchangeBlock o'.exch rho i j = .error .value := by
    intro i j
    apply exchangeBlock_error
    rw [h2, h4]
    rcases hbad with hb | hb
    · exact Or.inr (einsumDim_error (Ne.symm hb.1) hone hb.2)
    · exact Or.inl (einsumDim_error (Ne.symm hb.1) hone hb.2)
  rw [if_neg (by simp)] at h5
  unfold QChan.entropyExchange
  rw [h1]
  simp only [KrausObj.entropyExchange, h3, Bool.false_eq_true, if_false]
  rw [h5]
  cases orth with
  | nil =>
    rw [if_pos (by simp), hblock]
    rfl
  | cons i is =>
    rw [if_neg (by simp), if_neg (by omega)]
    unfold KrausObj.orthLoop
    simp only [hblock]
    rfl

/-- C87 is false for single numbers and a dense channel: numpy repeats the number, and `entropy_exchange(rho, n)` returns
the exchange matrix of the matrix with this number in every entry. -/
theorem C87_exchange_broadcast_refuted (h : QChan.init false ops a b d e [] = .ok o)
    (hsafe : Spec.SafeUses false (calls.map QChan.Call.uses ++ [n])) (rho : Arr ℂ) (hr : rho.rows = 1)
    (hc : rho.cols = 1) :
    ∃ W, (QChan.entropyExchange (QChan.history o calls) rho n).1 = .ok [W] ∧ W.rows = ops.len ^ n ∧
      W.cols = ops.len ^ n ∧ W.mat (ops.len ^ n) (ops.len ^ n) =
        Spec.entropyExchange (Spec.tensorPow (ops.ops ops.len (e ^ b) (d ^ a)) n)
          (Matrix.of fun _ _ => rho.get 0 0) := by
  obtain ⟨W, w1, w2, w3, w4⟩ := api_exchange h (Or.inr rfl) calls n hsafe
    ⟨(d ^ a) ^ n, (d ^ a) ^ n, fun _ _ => rho.get 0 0⟩ rfl rfl
  refine ⟨W, ?_, w2, w3, w4⟩
  rw [← w1]
  obtain ⟨o', h1, -, hn, -, h3, h5, -, -, h2, h4⟩ := api_state h hsafe
  unfold QChan.entropyExchange
  rw [h1]
  simp only [KrausObj.entropyExchange, h3, h5, Bool.false_eq_true, if_false, List.length_nil, if_true]
  rw [exchangeBlock_eq (rho := ⟨(d ^ a) ^ n, (d ^ a) ^ n, fun _ _ => rho.get 0 0⟩) h4 h2]
  unfold KrausObj.exchangeBlock
  rw [hr, hc, einsumDim_one, einsumDim_one]
  simp only [bind, Except.bind, pure, Except.pure]
  congr 4
  funext i j
  refine Finset.sum_congr rfl fun k hk => Finset.sum_congr rfl fun l hl => ?_
  rw [Finset.mem_range] at hk hl
  rw [einsumIdx_lt hk, einsumIdx_lt hl]
  rfl

/-- C87.  `entropy_exchange(rho, n, adjoint=True)` of a sparse channel raises `ValueError` exactly if the number of
entries is wrong: a matrix of another shape with as many entries is reshaped. -/
theorem C87_adjoint_sparse (h : QChan.init true ops a b d e orth = .ok o)
    (hsafe : Spec.SafeUses true (calls.map QChan.Call.uses ++ [n])) (sigma : Arr ℂ) :
    (sigma.rows * sigma.cols ≠ ops.len ^ n * ops.len ^ n →
      (QChan.entropyExchangeAdj (QChan.history o calls) sigma n).1 = .error .value) ∧
    (sigma.rows * sigma.cols = ops.len ^ n * ops.len ^ n →
      ∃ X, (QChan.entropyExchangeAdj (QChan.history o calls) sigma n).1 = .ok X ∧
        X.rows = (d ^ a) ^ n ∧ X.cols = (d ^ a) ^ n) := by
  obtain ⟨o', h1, -, -, hk, h3, -, e0, e1, e2, e3⟩ := api_state h hsafe
  unfold QChan.entropyExchangeAdj
  rw [h1]
  simp only [KrausObj.entropyExchangeAdj, h3, if_true, KrausObj.numbKraus, hk]
  constructor
  · intro hne
    rw [if_neg (fun hh => hne hh.1)]
  · intro heq
    rw [if_pos ⟨heq, e0, e1⟩]
    exact ⟨_, rfl, e2, e3⟩

/-- C87.  `entropy_exchange(rho, n, adjoint=True)` of a dense channel with more than one operator raises `ValueError` for a
wrong number of rows or columns that is not one. -/
theorem C87_adjoint_dense_partial (h : QChan.init false ops a b d e orth = .ok o)
    (hsafe : Spec.SafeUses false (calls.map QChan.Call.uses ++ [n])) (sigma : Arr ℂ) (hone : ops.len ^ n ≠ 1)
    (hbad : (sigma.rows ≠ ops.len ^ n ∧ sigma.rows ≠ 1) ∨
      (sigma.rows = ops.len ^ n ∧ sigma.cols ≠ ops.len ^ n ∧ sigma.cols ≠ 1)) :
    (QChan.entropyExchangeAdj (QChan.history o calls) sigma n).1 = .error .value := by
  obtain ⟨o', h1, -, -, hk, h3, -, e0, e1, e2, e3⟩ := api_state h hsafe
  unfold QChan.entropyExchangeAdj
  rw [h1]
  simp only [KrausObj.entropyExchangeAdj, h3, Bool.false_eq_true, if_false]
  rw [e0, e1]
  rcases hbad with hb | hb
  · rw [einsumDim_error (Ne.symm hb.1) hone hb.2]
    rfl
  · rw [hb.1, einsumDim_self, einsumDim_error (Ne.symm hb.2.1) hone hb.2.2]
    rfl

/-- C87.  A batch of matrices with a wrong number of rows or columns that is not one raises `ValueError` for a dense
channel. -/
theorem C87_batch_partial (h : QChan.init false ops a b d e orth = .ok o)
    (hsafe : Spec.SafeUses false (calls.map QChan.Call.uses ++ [n])) (rho : Arr3 ℂ) (hone : (d ^ a) ^ n ≠ 1)
    (hbad : (rho.rows ≠ (d ^ a) ^ n ∧ rho.rows ≠ 1) ∨
      (rho.rows = (d ^ a) ^ n ∧ rho.cols ≠ (d ^ a) ^ n ∧ rho.cols ≠ 1)) :
    (QChan.channelBatch (QChan.history o calls) rho n false).1 = .error .value := by
  obtain ⟨h1, h2, h3, h4, h5, h6, h7, h8, h9, h10, h11, h12⟩ := qchanInit_ok h
  obtain ⟨o', x1, x2, hn, hk, -⟩ := api_state h hsafe
  obtain ⟨d1, -, d3⟩ := nth_dims hn x2
  rw [hk, h10] at d3
  unfold QChan.channelBatch
  rw [x1]
  simp only
  unfold KrausObj.channelBatchDense
  rw [factors_holds x2]
  simp only [Bool.false_eq_true, if_false]
  rw [d3]
  rcases hbad with hb | hb
  · rw [einsumDim_error (Ne.symm hb.1) hone hb.2]
    rfl
  · rw [hb.1, einsumDim_self, show o'.nth.conjT.rows = o'.nth.cols from rfl, d3,
      einsumDim_error hb.2.1 hb.2.2 hone, show o'.nth.conjT.len = o'.nth.len from rfl, einsumDim_self]
    rfl

/-! ### C30: every block that `orthogonal_kraus` selects -/

/-- `W` is the block of `full` on the rows and columns `s, ..., t - 1`. -/
def Spec.IsBlock {N : ℕ} (full : Matrix (Fin N) (Fin N) ℂ) (s t : ℕ) (W : Arr ℂ) : Prop :=
  W.rows = min t N - s ∧ W.cols = min t N - s ∧
    ∀ i j : ℕ, ∀ hi : s + i < N, ∀ hj : s + j < N, W.get i j = full ⟨s + i, hi⟩ ⟨s + j, hj⟩

theorem orthLoop_blocks {o' : KrausObj} {rho : Arr ℂ} {N : ℕ} {full : Matrix (Fin N) (Fin N) ℂ}
    (hb : ∀ s t, ∃ W, KrausObj.exchangeBlock o'.exch rho s t = .ok W ∧ Spec.IsBlock full s t W) :
    ∀ (orth : List ℕ) (count : ℕ), ∃ Ws, o'.orthLoop rho n orth count =
        .ok (Ws, count + orth.sum * o'.kraus.len ^ (n - 1)) ∧ Ws.length = orth.length ∧
      ∀ t : ℕ, ∀ h₁ : t < orth.length, ∀ h₂ : t < Ws.length, Spec.IsBlock full
        (count + (orth.take t).sum * o'.kraus.len ^ (n - 1)) (orth[t] * o'.kraus.len ^ (n - 1)) Ws[t]
  | [], count => ⟨[], by simp [KrausObj.orthLoop], rfl, fun t h => absurd h (by simp)⟩
  | g :: gs, count => by
    obtain ⟨W, w1, w2⟩ := hb count (g * o'.kraus.len ^ (n - 1))
    obtain ⟨Ws, x1, x2, x3⟩ := orthLoop_blocks hb gs (count + g * o'.kraus.len ^ (n - 1))
    refine ⟨W :: Ws, ?_, by simp [x2], ?_⟩
    · unfold KrausObj.orthLoop KrausObj.numbKraus
      simp only [w1, x1, bind, Except.bind, pure, Except.pure, List.sum_cons]
      rw [Nat.add_mul, Nat.add_assoc]
    · intro t h₁ h₂
      cases t with
      | zero => simpa using w2
      | succ t =>
        have := x3 t (by simpa using h₁) (by simpa using h₂)
        simp only [List.take_succ_cons, List.sum_cons, List.getElem_cons_succ]
        rw [Nat.add_mul, ← Nat.add_assoc]
        exact this

/-- C30.  What `entropy_exchange` returns for groups `orth = [g₁, ..., gₖ]`, with `L` operators and `n` uses: one block
for every group and a last one.  The block of group `t` starts behind the earlier groups and *stops at* row
`gₜ L^(n-1)`; the last one consists of the last `(g₁ + ... + gₖ) L^(n-1)` rows, and of the last
`(g₁ + ... + gₖ - L) L^(n-1)` rows if the groups have more than `L` members. -/
theorem C30_blocks (h : QChan.init false ops a b d e orth = .ok o) (hne : orth ≠ [])
    (hsafe : Spec.SafeUses false (calls.map QChan.Call.uses ++ [n])) (rho : Arr ℂ)
    (hr : rho.rows = (d ^ a) ^ n) (hc : rho.cols = (d ^ a) ^ n)
    (full : Matrix (Fin (ops.len ^ n)) (Fin (ops.len ^ n)) ℂ)
    (hfull : full = Spec.entropyExchange (Spec.tensorPow (ops.ops ops.len (e ^ b) (d ^ a)) n)
      (rho.mat ((d ^ a) ^ n) ((d ^ a) ^ n))) :
    ∃ Ws V, (QChan.entropyExchange (QChan.history o calls) rho n).1 = .ok (Ws ++ [V]) ∧ Ws.length = orth.length ∧
      (∀ t : ℕ, ∀ h₁ : t < orth.length, ∀ h₂ : t < Ws.length, Spec.IsBlock full
        ((orth.take t).sum * ops.len ^ (n - 1)) (orth[t] * ops.len ^ (n - 1)) Ws[t]) ∧
      Spec.IsBlock full (ops.len ^ n - (if orth.sum ≤ ops.len then orth.sum else orth.sum - ops.len) * ops.len ^ (n - 1))
        (ops.len ^ n) V := by
  obtain ⟨h1, h2, h3, h4, h5, h6, h7, h8, h9, h10, h11, h12⟩ := qchanInit_ok h
  obtain ⟨o', x1, x2, hn, hk, hs', ho', e0, e1, e2, e3⟩ := api_state h hsafe
  rw [if_neg (by simp)] at ho'
  have hb : ∀ s t, ∃ W, KrausObj.exchangeBlock o'.exch rho s t = .ok W ∧ Spec.IsBlock full s t W := by
    intro s t
    obtain ⟨W, w1, w2, w3, w4⟩ := exchangeBlock_holds hn x2 rho (by rw [hk, h10, hr]) (by rw [hk, h10, hc]) s t
    rw [hk, h10, h11] at w4
    rw [hk] at w2 w3
    rw [hfull]
    exact ⟨W, w1, w2, w3, w4⟩
  obtain ⟨Ws, l1, l2, l3⟩ := orthLoop_blocks (n := n) hb orth 0
  rw [hk] at l1 l3
  simp only [Nat.zero_add] at l1 l3
  have hpow : ops.len ^ n = ops.len * ops.len ^ (n - 1) := by rw [← pow_succ', Nat.sub_add_cancel hn]
  have hpos : 0 < ops.len ^ (n - 1) := Nat.pow_pos h9
  obtain ⟨V, v1, v2⟩ := hb (ops.len ^ n - (if orth.sum ≤ ops.len then orth.sum else orth.sum - ops.len) *
    ops.len ^ (n - 1)) (ops.len ^ n)
  refine ⟨Ws, V, ?_, l2, l3, v2⟩
  unfold QChan.entropyExchange
  rw [x1]
  simp only [KrausObj.entropyExchange, hs', Bool.false_eq_true, if_false, ho']
  rw [if_neg (by simpa using hne), if_neg (by omega), l1]
  simp only [bind, Except.bind, pure, Except.pure, KrausObj.numbKraus, hk, e0, e1, max_self]
  have hdiff : (if orth.sum * ops.len ^ (n - 1) ≤ ops.len ^ n then ops.len ^ n - orth.sum * ops.len ^ (n - 1) else
      ops.len ^ n - (orth.sum * ops.len ^ (n - 1) - ops.len ^ n)) =
      ops.len ^ n - (if orth.sum ≤ ops.len then orth.sum else orth.sum - ops.len) * ops.len ^ (n - 1) := by
    by_cases hle : orth.sum ≤ ops.len
    · rw [if_pos hle, if_pos (by rw [hpow]; exact Nat.mul_le_mul_right _ hle)]
    · rw [if_neg hle, if_neg (by
        rw [hpow, not_le]; exact Nat.mul_lt_mul_of_pos_right (not_le.mp hle) hpos), Nat.sub_mul, ← hpow]
  rw [hdiff, v1]

/-- With three groups the second block is wrong: for equal groups it is empty, whatever the channel and the state. -/
theorem C30_three_groups_refuted (g : ℕ) (h : QChan.init false ops a b d e [g, g] = .ok o)
    (hsafe : Spec.SafeUses false (calls.map QChan.Call.uses ++ [n])) (rho : Arr ℂ)
    (hr : rho.rows = (d ^ a) ^ n) (hc : rho.cols = (d ^ a) ^ n) :
    ∃ U W V, (QChan.entropyExchange (QChan.history o calls) rho n).1 = .ok [U, W, V] ∧ W.rows = 0 ∧ W.cols = 0 := by
  obtain ⟨Ws, V, h1, h2, h3, -⟩ := C30_blocks h (by simp) hsafe rho hr hc _ rfl
  obtain ⟨U, W, rfl⟩ := List.length_eq_two.mp h2
  obtain ⟨b1, b2, -⟩ := h3 1 (by simp) (by simp)
  refine ⟨U, W, V, h1, ?_, ?_⟩
  · rw [show W.rows = _ from b1]
    simp only [List.take_succ_cons, List.take_zero, List.sum_cons, List.sum_nil, Nat.add_zero,
      List.getElem_cons_succ, List.getElem_cons_zero]
    omega
  · rw [show W.cols = _ from b2]
    simp only [List.take_succ_cons, List.take_zero, List.sum_cons, List.sum_nil, Nat.add_zero,
      List.getElem_cons_succ, List.getElem_cons_zero]
    omega

/-- The constructor accepts groups with more members than there are operators, and the whole matrix is then returned
together with a part of it: with `g > L` the first block has all `L^n` rows and the last one is not empty. -/
theorem C30_excess_refuted (g : ℕ) (h : QChan.init false ops a b d e [g] = .ok o) (hg : ops.len < g)
    (hsafe : Spec.SafeUses false (calls.map QChan.Call.uses ++ [n])) (rho : Arr ℂ)
    (hr : rho.rows = (d ^ a) ^ n) (hc : rho.cols = (d ^ a) ^ n) :
    ∃ W V, (QChan.entropyExchange (QChan.history o calls) rho n).1 = .ok [W, V] ∧ W.rows = ops.len ^ n ∧
      V.rows = min ((g - ops.len) * ops.len ^ (n - 1)) (ops.len ^ n) ∧ 0 < V.rows := by
  obtain ⟨Ws, V, h1, h2, h3, h4⟩ := C30_blocks h (by simp) hsafe rho hr hc _ rfl
  obtain ⟨W, rfl⟩ := List.length_eq_one_iff.mp h2
  have hn : 1 ≤ n := hsafe.1 n (by simp)
  have h9 : 0 < ops.len := (qchanInit_ok h).2.2.2.2.2.2.2.2.1
  have hpow : ops.len ^ n = ops.len * ops.len ^ (n - 1) := by rw [← pow_succ', Nat.sub_add_cancel hn]
  have hpos : 0 < ops.len ^ (n - 1) := Nat.pow_pos h9
  have hNpos : 0 < ops.len ^ n := Nat.pow_pos h9
  have b1 := (h3 0 (by simp) (by simp)).1
  have hv := h4.1
  have hsum : [g].sum = g := by simp
  rw [if_neg (by omega), hsum, min_self] at hv
  have hle : ops.len ^ n ≤ g * ops.len ^ (n - 1) := by rw [hpow]; exact Nat.mul_le_mul_right _ hg.le
  have hpos' : 0 < (g - ops.len) * ops.len ^ (n - 1) := Nat.mul_pos (by omega) hpos
  refine ⟨W, V, h1, ?_, ?_, ?_⟩
  · rw [show W.rows = _ from b1]
    simp only [List.take_zero, List.sum_nil, Nat.zero_mul, List.getElem_cons_zero, Nat.sub_zero]
    exact min_eq_right hle
  · rw [hv]; omega
  · rw [hv]; omega

/-! ### Cases that meet the hypotheses -/

/-- The three theorems on groups apply to the dephasing channel with one, two and three groups. -/
example : (∃ o W V, QChan.init false dephOps 1 1 2 2 [3] = .ok o ∧
      (QChan.entropyExchange o (Arr.eye 4) 2).1 = .ok [W, V] ∧ W.rows = 4 ∧ V.rows = 2) ∧
    ∃ o U W V, QChan.init false dephOps 1 1 2 2 [1, 1] = .ok o ∧
      (QChan.entropyExchange o (Arr.eye 4) 2).1 = .ok [U, W, V] ∧ W.rows = 0 := by
  constructor
  · obtain ⟨o, ho⟩ := deph_ok false [3]
    obtain ⟨W, V, h1, h2, h3, -⟩ := C30_excess_refuted (calls := []) (n := 2) 3 ho (by decide) ⟨by simp, by simp⟩
      (Arr.eye 4) rfl rfl
    exact ⟨o, W, V, ho, h1, h2, h3⟩
  · obtain ⟨o, ho⟩ := deph_ok false [1, 1]
    obtain ⟨U, W, V, h1, h2, -⟩ := C30_three_groups_refuted (calls := []) (n := 2) 1 ho ⟨by simp, by simp⟩
      (Arr.eye 4) rfl rfl
    exact ⟨o, U, W, V, ho, h1, h2⟩

/-- The wrong shapes for the dephasing channel: a 3 x 2 matrix is refused by the dense and the sparse object, a 2 x 3
matrix by the dense one only, a single number by the sparse one only. -/
example : ∃ od os, QChan.init false dephOps 1 1 2 2 [] = .ok od ∧ QChan.init true dephOps 1 1 2 2 [] = .ok os ∧
    (∀ f, (QChan.entropyExchange od ⟨3, 2, f⟩ 1).1 = .error .value) ∧
    (∀ f, (QChan.entropyExchange os ⟨3, 2, f⟩ 1).1 = .error .value) ∧
    (∀ f, (QChan.entropyExchange od ⟨2, 3, f⟩ 1).1 = .error .value) ∧
    (∀ f, ∃ W, (QChan.entropyExchange os ⟨2, 3, f⟩ 1).1 = .ok [W]) ∧
    (∀ f, ∃ W, (QChan.entropyExchange od ⟨1, 1, f⟩ 1).1 = .ok [W]) ∧
    (∀ f, (QChan.entropyExchange os ⟨1, 1, f⟩ 1).1 = .error .value) := by
  obtain ⟨od, hd⟩ := deph_ok false []
  obtain ⟨os, hs⟩ := deph_ok true []
  have sd : Spec.SafeUses false (List.map QChan.Call.uses [] ++ [1]) := ⟨by simp, by simp⟩
  have ss : Spec.SafeUses true (List.map QChan.Call.uses [] ++ [1]) := ⟨by simp, by simp⟩
  refine ⟨od, os, hd, hs, fun f => ?_, fun f => ?_, fun f => ?_, fun f => ?_, fun f => ?_, fun f => ?_⟩
  · exact C87_exchange_dense_partial hd sd ⟨3, 2, f⟩ (by norm_num) (Or.inl (by norm_num))
  · exact C87_exchange_sparse hs ss ⟨3, 2, f⟩ (by norm_num)
  · exact C87_exchange_dense_partial hd sd ⟨2, 3, f⟩ (by norm_num) (Or.inr (by norm_num))
  · obtain ⟨W, hW, -⟩ := C87_exchange_columns_refuted hs ss ⟨2, 3, f⟩ rfl
    exact ⟨W, hW⟩
  · obtain ⟨W, hW, -⟩ := C87_exchange_broadcast_refuted hd sd ⟨1, 1, f⟩ rfl rfl
    exact ⟨W, hW⟩
  · exact C87_exchange_sparse hs ss ⟨1, 1, f⟩ (by norm_num)

/-- The adjoint: the sparse dephasing channel accepts a vector of four entries, the dense one does not. -/
example : ∃ od os, QChan.init false dephOps 1 1 2 2 [] = .ok od ∧ QChan.init true dephOps 1 1 2 2 [] = .ok os ∧
    (∀ f, (QChan.entropyExchangeAdj od ⟨4, 1, f⟩ 1).1 = .error .value) ∧
    (∀ f, ∃ X, (QChan.entropyExchangeAdj os ⟨4, 1, f⟩ 1).1 = .ok X) ∧
    (∀ f, (QChan.channelBatch od ⟨5, 3, 2, f⟩ 1 false).1 = .error .value) := by
  obtain ⟨od, hd⟩ := deph_ok false []
  obtain ⟨os, hs⟩ := deph_ok true []
  have sd : Spec.SafeUses false (List.map QChan.Call.uses [] ++ [1]) := ⟨by simp, by simp⟩
  have ss : Spec.SafeUses true (List.map QChan.Call.uses [] ++ [1]) := ⟨by simp, by simp⟩
  refine ⟨od, os, hd, hs, fun f => ?_, fun f => ?_, fun f => ?_⟩
  · exact C87_adjoint_dense_partial hd sd ⟨4, 1, f⟩ (by decide)
      (Or.inl (show (4 : ℕ) ≠ 2 ^ 1 ∧ (4 : ℕ) ≠ 1 by decide))
  · obtain ⟨X, hX, -⟩ := (C87_adjoint_sparse hs ss ⟨4, 1, f⟩).2 (show 4 * 1 = 2 ^ 1 * 2 ^ 1 by decide)
    exact ⟨X, hX⟩
  · exact C87_batch_partial hd sd ⟨5, 3, 2, f⟩ (by decide)
      (Or.inl (show (3 : ℕ) ≠ (2 ^ 1) ^ 1 ∧ (3 : ℕ) ≠ 1 by decide))

end PyQ
