import Verif.Props.Shapes

/-!
# C87: what a dense channel does with every matrix, of whatever shape
-/

namespace PyQ

open Matrix

namespace Spec

/-- An axis of size `s` is accepted where size `N` is expected. -/
def Fits (N s : ℕ) : Prop := s = N ∨ s = 1 ∨ N = 1

/-- What is read at position `i` of an axis of size `s` where size `N` is expected: the entry `i` if the sizes agree, the only entry
if there is one, and all entries, which are added, if one is expected. -/
def reads (N s i : ℕ) : Finset ℕ := if s = N then {i} else if s = 1 then {0} else Finset.range s

/-- The `N` by `N` matrix that a matrix of another shape is taken for. -/
noncomputable def fitted (N : ℕ) (rho : Arr ℂ) : Arr ℂ :=
  ⟨N, N, fun i j => ∑ r ∈ reads N rho.rows i, ∑ c ∈ reads N rho.cols j, rho.get r c⟩

/-- The same for every matrix of a batch. -/
noncomputable def fittedBatch (N : ℕ) (rho : Arr3 ℂ) : Arr3 ℂ :=
  ⟨rho.len, N, N, fun b i j => ∑ r ∈ reads N rho.rows i, ∑ c ∈ reads N rho.cols j, rho.get b r c⟩

instance (N s : ℕ) : Decidable (Fits N s) := inferInstanceAs (Decidable (_ ∨ _ ∨ _))

end Spec

open Spec

theorem einsumDim_cases (N s : ℕ) : (Fits N s ∧ ∃ m, einsumDim N s = .ok m) ∨ (¬ Fits N s ∧ einsumDim N s = .error .value) := by
  by_cases h : Fits N s
  · refine Or.inl ⟨h, ?_⟩
    rcases h with h | h | h
    · exact ⟨N, einsumDim_of_eq h.symm⟩
    · exact ⟨N, by rw [h]; exact einsumDim_one N⟩
    · unfold einsumDim
      by_cases h' : N = s
      · exact ⟨N, by rw [if_pos h']⟩
      · exact ⟨s, by rw [if_neg h', if_pos h]⟩
  · refine Or.inr ⟨h, einsumDim_error (fun e => h (Or.inl e.symm)) (fun e => h (Or.inr (Or.inr e))) fun e => h (Or.inr (Or.inl e))⟩

theorem einsum_reads {N s m : ℕ} (h : einsumDim N s = .ok m) (f g : ℕ → ℂ) :
    ∑ k ∈ Finset.range m, f (einsumIdx N k) * g (einsumIdx s k) =
      ∑ k ∈ Finset.range N, f k * ∑ c ∈ reads N s k, g c := by
  unfold einsumDim at h
  unfold reads
  by_cases h1 : N = s
  · rw [if_pos h1] at h
    injection h with h
    subst h1 h
    refine Finset.sum_congr rfl fun k hk => ?_
    rw [einsumIdx_lt (Finset.mem_range.mp hk), if_pos rfl, Finset.sum_singleton]
  · rw [if_neg h1] at h
    by_cases h2 : N = 1
    · rw [if_pos h2] at h
      injection h with h
      subst h2 h
      rw [Finset.sum_range_one, if_neg (Ne.symm h1), if_neg (Ne.symm h1), Finset.mul_sum]
      refine Finset.sum_congr rfl fun k hk => ?_
      rw [einsumIdx_lt (Finset.mem_range.mp hk)]
      rfl
    · rw [if_neg h2] at h
      by_cases h3 : s = 1
      · rw [if_pos h3] at h
        injection h with h
        subst h h3
        refine Finset.sum_congr rfl fun k hk => ?_
        rw [einsumIdx_lt (Finset.mem_range.mp hk), if_neg (Ne.symm h1), if_pos rfl, Finset.sum_singleton]
        rfl
      · rw [if_neg h3] at h
        exact absurd h (by simp)

theorem exchangeBlock_fitted {x : Arr4 ℂ} {rho : Arr ℂ} {N : ℕ} (h2 : x.d2 = N) (h3 : x.d3 = N) (i j : ℕ) :
    KrausObj.exchangeBlock x rho i j =
      if Fits N rho.rows ∧ Fits N rho.cols then KrausObj.exchangeBlock x (fitted N rho) i j else .error .value := by
  rcases einsumDim_cases N rho.cols with ⟨c1, m, c2⟩ | ⟨c1, c2⟩
  · rcases einsumDim_cases N rho.rows with ⟨r1, l, r2⟩ | ⟨r1, r2⟩
    · rw [if_pos ⟨r1, c1⟩, exchangeBlock_eq (rho := fitted N rho) h3 h2]
      unfold KrausObj.exchangeBlock
      rw [h2, h3, c2, r2]
      simp only [bind, Except.bind, pure, Except.pure]
      congr 2
      funext p q
      calc ∑ k ∈ Finset.range m, ∑ t ∈ Finset.range l, x.get (i + q) (i + p) (einsumIdx N k) (einsumIdx N t) *
            rho.get (einsumIdx rho.rows t) (einsumIdx rho.cols k)
          = ∑ k ∈ Finset.range m, ∑ t ∈ Finset.range N, x.get (i + q) (i + p) (einsumIdx N k) t *
            ∑ r ∈ reads N rho.rows t, rho.get r (einsumIdx rho.cols k) :=
            Finset.sum_congr rfl fun k _ => einsum_reads r2 (fun t => x.get (i + q) (i + p) (einsumIdx N k) t)
              fun r => rho.get r (einsumIdx rho.cols k)
        _ = ∑ t ∈ Finset.range N, ∑ k ∈ Finset.range m, x.get (i + q) (i + p) (einsumIdx N k) t *
            ∑ r ∈ reads N rho.rows t, rho.get r (einsumIdx rho.cols k) := Finset.sum_comm
        _ = ∑ t ∈ Finset.range N, ∑ k ∈ Finset.range N, x.get (i + q) (i + p) k t *
            ∑ c ∈ reads N rho.cols k, ∑ r ∈ reads N rho.rows t, rho.get r c :=
            Finset.sum_congr rfl fun t _ => einsum_reads c2 (fun k => x.get (i + q) (i + p) k t)
              fun c => ∑ r ∈ reads N rho.rows t, rho.get r c
        _ = _ := by
            rw [Finset.sum_comm]
            refine Finset.sum_congr rfl fun k _ => Finset.sum_congr rfl fun t _ => ?_
            rw [Finset.sum_comm]
            rfl
    · rw [if_neg (fun hh => r1 hh.1)]
      exact exchangeBlock_error (Or.inr (by rw [h3]; exact r2))
  · rw [if_neg (fun hh => c1 hh.2)]
    exact exchangeBlock_error (Or.inl (by rw [h2]; exact c2))

theorem orthLoop_fitted {o : KrausObj} {rho : Arr ℂ} {N n : ℕ} (h2 : o.exch.d2 = N) (h3 : o.exch.d3 = N)
    (hf : Fits N rho.rows ∧ Fits N rho.cols) : ∀ (orth : List ℕ) (count : ℕ),
    o.orthLoop rho n orth count = o.orthLoop (fitted N rho) n orth count
  | [], _ => rfl
  | g :: gs, count => by
    have hb : ∀ i j, KrausObj.exchangeBlock o.exch rho i j = KrausObj.exchangeBlock o.exch (fitted N rho) i j := fun i j => by
      rw [exchangeBlock_fitted h2 h3, if_pos hf]
    unfold KrausObj.orthLoop
    simp only [orthLoop_fitted h2 h3 hf gs, hb]

variable {sp : Bool} {ops : Arr3 ℂ} {a b d e n : ℕ} {orth : List ℕ} {o : KrausObj} {calls : List QChan.Call}

/-- **C87, exactly, for `entropy_exchange` of a dense channel**.  A matrix is refused with `ValueError` exactly if its number of rows
or of columns is neither the input dimension `N` of `n` uses nor one, and `N` is not one.  Every other matrix is taken for the
`N` by `N` matrix `fitted N rho`: a single row or column is repeated, and where one is expected all are added. -/
theorem C87_exchange_dense_exact (h : QChan.init false ops a b d e orth = .ok o)
    (hsafe : SafeUses false (calls.map QChan.Call.uses ++ [n])) (rho : Arr ℂ) :
    (QChan.entropyExchange (QChan.history o calls) rho n).1 =
      if Fits ((d ^ a) ^ n) rho.rows ∧ Fits ((d ^ a) ^ n) rho.cols then
        (QChan.entropyExchange (QChan.history o calls) (fitted ((d ^ a) ^ n) rho) n).1 else .error .value := by
  obtain ⟨o', h1, -, hn, -, h3, h5, -, -, h2, h4⟩ := api_state h hsafe
  rw [if_neg (by simp)] at h5
  have hb := fun i j => exchangeBlock_fitted (rho := rho) h2 h4 i j
  unfold QChan.entropyExchange
  rw [h1]
  simp only [KrausObj.entropyExchange, h3, Bool.false_eq_true, if_false, h5]
  by_cases hf : Fits ((d ^ a) ^ n) rho.rows ∧ Fits ((d ^ a) ^ n) rho.cols
  · rw [if_pos hf]
    simp only [hb, if_pos hf, orthLoop_fitted h2 h4 hf]
  · rw [if_neg hf]
    simp only [if_neg hf] at hb
    cases orth with
    | nil =>
      rw [if_pos (by simp), hb]
      rfl
    | cons i is =>
      rw [if_neg (by simp), if_neg (by omega)]
      unfold KrausObj.orthLoop
      simp only [hb]
      rfl

/-- **C87, exactly, for `entropy_exchange(..., adjoint=True)` of a dense channel**, where the number of operators of `n` uses is
expected. -/
theorem C87_adjoint_dense_exact (h : QChan.init false ops a b d e orth = .ok o)
    (hsafe : SafeUses false (calls.map QChan.Call.uses ++ [n])) (sigma : Arr ℂ) :
    (QChan.entropyExchangeAdj (QChan.history o calls) sigma n).1 =
      if Fits (ops.len ^ n) sigma.rows ∧ Fits (ops.len ^ n) sigma.cols then
        (QChan.entropyExchangeAdj (QChan.history o calls) (fitted (ops.len ^ n) sigma) n).1 else .error .value := by
  obtain ⟨o', h1, -, -, hk, h3, -, e0, e1, e2, e3⟩ := api_state h hsafe
  unfold QChan.entropyExchangeAdj
  rw [h1]
  simp only [KrausObj.entropyExchangeAdj, h3, Bool.false_eq_true, if_false]
  rw [e0, e1, show (fitted (ops.len ^ n) sigma).rows = ops.len ^ n from rfl,
    show (fitted (ops.len ^ n) sigma).cols = ops.len ^ n from rfl, einsumDim_self]
  generalize ops.len ^ n = N
  rcases einsumDim_cases N sigma.rows with ⟨r1, l, r2⟩ | ⟨r1, r2⟩
  · rcases einsumDim_cases N sigma.cols with ⟨c1, m, c2⟩ | ⟨c1, c2⟩
    · rw [if_pos ⟨r1, c1⟩, r2, c2]
      simp only [bind, Except.bind, pure, Except.pure]
      congr 2
      funext k t
      calc ∑ i ∈ Finset.range l, ∑ j ∈ Finset.range m, o'.exch.get (einsumIdx N i) (einsumIdx N j) k t *
            sigma.get (einsumIdx sigma.rows i) (einsumIdx sigma.cols j)
          = ∑ i ∈ Finset.range l, ∑ j ∈ Finset.range N, o'.exch.get (einsumIdx N i) j k t *
            ∑ c ∈ reads N sigma.cols j, sigma.get (einsumIdx sigma.rows i) c :=
            Finset.sum_congr rfl fun i _ => einsum_reads c2 (fun j => o'.exch.get (einsumIdx N i) j k t)
              fun c => sigma.get (einsumIdx sigma.rows i) c
        _ = ∑ j ∈ Finset.range N, ∑ i ∈ Finset.range l, o'.exch.get (einsumIdx N i) j k t *
            ∑ c ∈ reads N sigma.cols j, sigma.get (einsumIdx sigma.rows i) c := Finset.sum_comm
        _ = ∑ j ∈ Finset.range N, ∑ i ∈ Finset.range N, o'.exch.get i j k t *
            ∑ r ∈ reads N sigma.rows i, ∑ c ∈ reads N sigma.cols j, sigma.get r c :=
            Finset.sum_congr rfl fun j _ => einsum_reads r2 (fun i => o'.exch.get i j k t)
              fun r => ∑ c ∈ reads N sigma.cols j, sigma.get r c
        _ = _ := by
            rw [Finset.sum_comm]
            refine Finset.sum_congr rfl fun i hi => Finset.sum_congr rfl fun j hj => ?_
            rw [einsumIdx_lt (Finset.mem_range.mp hi), einsumIdx_lt (Finset.mem_range.mp hj)]
            rfl
    · rw [if_neg (fun hh => c1 hh.2), r2, c2]
      rfl
  · rw [if_neg (fun hh => r1 hh.1), r2]
    rfl

/-- **C87, exactly, for `channel` of a dense channel on a batch**. -/
theorem C87_batch_exact (h : QChan.init false ops a b d e orth = .ok o)
    (hsafe : SafeUses false (calls.map QChan.Call.uses ++ [n])) (rho : Arr3 ℂ) :
    (QChan.channelBatch (QChan.history o calls) rho n false).1 =
      if Fits ((d ^ a) ^ n) rho.rows ∧ Fits ((d ^ a) ^ n) rho.cols then
        (QChan.channelBatch (QChan.history o calls) (fittedBatch ((d ^ a) ^ n) rho) n false).1 else .error .value := by
  obtain ⟨h1, h2, h3, h4, h5, h6, h7, h8, h9, h10, h11, h12⟩ := qchanInit_ok h
  obtain ⟨o', x1, x2, hn, hk, -⟩ := api_state h hsafe
  obtain ⟨d1, -, d3⟩ := nth_dims hn x2
  rw [hk, h10] at d3
  unfold QChan.channelBatch
  rw [x1]
  simp only
  unfold KrausObj.channelBatchDense
  rw [factors_holds x2]
  simp only [Bool.false_eq_true, if_false]
  rw [d3, show o'.nth.conjT.rows = o'.nth.cols from rfl, show o'.nth.conjT.len = o'.nth.len from rfl, d3,
    show (fittedBatch ((d ^ a) ^ n) rho).rows = (d ^ a) ^ n from rfl,
    show (fittedBatch ((d ^ a) ^ n) rho).cols = (d ^ a) ^ n from rfl, einsumDim_self, einsumDim_self]
  generalize (d ^ a) ^ n = N
  have hsymm : einsumDim rho.cols N = einsumDim N rho.cols := by
    unfold einsumDim
    by_cases q1 : N = rho.cols
    · rw [if_pos q1, if_pos q1.symm, q1]
    · rw [if_neg q1, if_neg (Ne.symm q1)]
      by_cases q2 : N = 1
      · rw [if_pos q2]
        by_cases q3 : rho.cols = 1
        · exact absurd (q2.trans q3.symm) q1
        · rw [if_neg q3, if_pos q2]
      · rw [if_neg q2, if_neg q2]
  rw [hsymm]
  rcases einsumDim_cases N rho.rows with ⟨r1, l, r2⟩ | ⟨r1, r2⟩
  · rcases einsumDim_cases N rho.cols with ⟨c1, m, c2⟩ | ⟨c1, c2⟩
    · rw [if_pos ⟨r1, c1⟩, r2, c2]
      simp only [bind, Except.bind, pure, Except.pure]
      congr 2
      funext t j q
      refine Finset.sum_congr rfl fun i _ => ?_
      calc ∑ p ∈ Finset.range m, (∑ k ∈ Finset.range l, o'.nth.get (einsumIdx o'.nth.len i) j (einsumIdx N k) *
            rho.get t (einsumIdx rho.rows k) (einsumIdx rho.cols p)) *
              o'.nth.conjT.get (einsumIdx o'.nth.len i) (einsumIdx N p) q
          = ∑ p ∈ Finset.range m, o'.nth.conjT.get (einsumIdx o'.nth.len i) (einsumIdx N p) q *
              ∑ k ∈ Finset.range N, o'.nth.get (einsumIdx o'.nth.len i) j k *
                ∑ r ∈ reads N rho.rows k, rho.get t r (einsumIdx rho.cols p) := by
            refine Finset.sum_congr rfl fun p _ => ?_
            rw [mul_comm]
            congr 1
            exact einsum_reads r2 (fun k => o'.nth.get (einsumIdx o'.nth.len i) j k) fun r => rho.get t r (einsumIdx rho.cols p)
        _ = ∑ p ∈ Finset.range N, o'.nth.conjT.get (einsumIdx o'.nth.len i) p q *
              ∑ c ∈ reads N rho.cols p, ∑ k ∈ Finset.range N, o'.nth.get (einsumIdx o'.nth.len i) j k *
                ∑ r ∈ reads N rho.rows k, rho.get t r c :=
            einsum_reads c2 (fun p => o'.nth.conjT.get (einsumIdx o'.nth.len i) p q)
              fun c => ∑ k ∈ Finset.range N, o'.nth.get (einsumIdx o'.nth.len i) j k * ∑ r ∈ reads N rho.rows k, rho.get t r c
        _ = _ := by
            refine Finset.sum_congr rfl fun p hp => ?_
            rw [einsumIdx_lt (Finset.mem_range.mp hp), mul_comm, Finset.sum_comm]
            congr 1
            refine Finset.sum_congr rfl fun k hk => ?_
            rw [einsumIdx_lt (Finset.mem_range.mp hk), ← Finset.mul_sum, Finset.sum_comm]
            rfl
    · rw [if_neg (fun hh => c1 hh.2), r2, c2]
      rfl
  · rw [if_neg (fun hh => r1 hh.1), r2]
    rfl

/-- A single row is repeated: the dense dephasing channel takes `[[x, y]]` for `[[x, y], [x, y]]`, and refuses three columns. -/
example : ∃ o, QChan.init false dephOps 1 1 2 2 [] = .ok o ∧
    (∀ f, (QChan.entropyExchange o ⟨1, 2, f⟩ 1).1 =
      (QChan.entropyExchange o (fitted 2 ⟨1, 2, f⟩) 1).1 ∧ ∀ i j, (fitted 2 ⟨1, 2, f⟩).get i j = f 0 j) ∧
    ∀ f, (QChan.entropyExchange o ⟨1, 3, f⟩ 1).1 = .error .value := by
  obtain ⟨o, ho⟩ := deph_ok false []
  have hs : SafeUses false (List.map QChan.Call.uses [] ++ [1]) := ⟨by simp, by simp⟩
  refine ⟨o, ho, fun f => ⟨?_, fun i j => ?_⟩, fun f => ?_⟩
  · have := C87_exchange_dense_exact ho hs ⟨1, 2, f⟩
    rw [if_pos ⟨Or.inr (Or.inl rfl), Or.inl rfl⟩] at this
    exact this
  · simp [fitted, reads]
  · have := C87_exchange_dense_exact ho hs ⟨1, 3, f⟩
    exact this.trans (if_neg (show ¬ (Fits 2 1 ∧ Fits 2 3) by decide))

end PyQ
