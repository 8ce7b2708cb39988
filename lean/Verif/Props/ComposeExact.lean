import Verif.Props.Channel

/-!
# C32, exactly: when sums and products of channels are constructed

The theorems say for every two accepted channels whether `+` and `*` construct a channel, and which exception they raise otherwise.
-/

namespace PyQ

open Matrix

variable {sp₁ sp₂ : Bool} {ops₁ ops₂ : Arr3 ℂ} {a₁ b₁ d₁ e₁ a₂ b₂ d₂ e₂ : ℕ} {orth₁ orth₂ : List ℕ}
  {s o : KrausObj}

theorem Spec.nearlyTP_equiv {ι κ : Type} [Fintype ι] [Fintype κ] {m n : ℕ} (f : κ ≃ ι) (K : ι → Matrix (Fin m) (Fin n) ℂ) :
    Spec.NearlyTP (fun k => K (f k)) ↔ Spec.NearlyTP K := by
  unfold Spec.NearlyTP
  rw [f.sum_comp fun i => (K i)ᴴ * K i]

theorem init_of_not_nearly (sp : Bool) (A : Arr3 ℂ) (a b d e : ℕ) (hl : 0 < A.len) (hr : A.rows = e ^ b) (hc : A.cols = d ^ a)
    (h : ¬ Spec.NearlyTP (A.ops A.len (e ^ b) (d ^ a))) : QChan.init sp A a b d e [] = .error .assertion := by
  refine init_not_tp sp A a b d e [] hl hc hr ?_
  rintro o rfl ht
  exact h ((isTP_iff o (e ^ b) (d ^ a) hr hc).1 ht)

/-- C32, exactly, for `A + B`: it is constructed exactly when the dimension between the two agrees and the products of the operators
preserve the trace up to the tolerance of the constructor; it then has the input dimension of `B` and the output dimension of `A`.
If the dimensions disagree `TypeError` is raised, and otherwise `AssertionError`. -/
theorem C32_add_exact (hs : QChan.init sp₁ ops₁ a₁ b₁ d₁ e₁ orth₁ = .ok s)
    (ho : QChan.init sp₂ ops₂ a₂ b₂ d₂ e₂ orth₂ = .ok o) (cs co : List QChan.Call) :
    (d₁ ^ a₁ ≠ e₂ ^ b₂ → QChan.add (QChan.history s cs) (QChan.history o co) = .error .type) ∧
    (d₁ ^ a₁ = e₂ ^ b₂ →
      (¬ Spec.NearlyTP (fun k : Fin ops₁.len × Fin ops₂.len =>
        ops₁.ops ops₁.len (e₁ ^ b₁) (d₁ ^ a₁) k.1 * ops₂.ops ops₂.len (d₁ ^ a₁) (d₂ ^ a₂) k.2) →
          QChan.add (QChan.history s cs) (QChan.history o co) = .error .assertion) ∧
      (Spec.NearlyTP (fun k : Fin ops₁.len × Fin ops₂.len =>
        ops₁.ops ops₁.len (e₁ ^ b₁) (d₁ ^ a₁) k.1 * ops₂.ops ops₂.len (d₁ ^ a₁) (d₂ ^ a₂) k.2) →
          ∃ t, QChan.add (QChan.history s cs) (QChan.history o co) = .ok t ∧
            QChan.inputDimension t = d₂ ^ a₂ ∧ QChan.outputDimension t = e₁ ^ b₁)) := by
  refine ⟨C32_add_mismatch hs ho cs co, fun hmid => ?_⟩
  obtain ⟨-, h2, h3, -, h5, -, h7, -, h9, h10, h11, -⟩ := qchanInit_ok hs
  obtain ⟨-, g2, g3, g4, -, g6, -, -, g9, g10, g11, -⟩ := qchanInit_ok ho
  obtain ⟨p1, p2, p3, p4, p5, p6, p7⟩ := history_static s cs
  obtain ⟨q1, q2, q3, q4, q5, q6, q7⟩ := history_static o co
  have hlen : (ops₁.compose ops₂).len = ops₁.len * ops₂.len := rfl
  have hadd : QChan.add (QChan.history s cs) (QChan.history o co) =
      QChan.init (sp₁ || sp₂) (ops₁.compose ops₂) a₂ b₁ d₂ e₁ [] := by
    unfold QChan.add
    rw [p1, p2, p4, p6, q1, q2, q3, q5, h2, h3, h5, h7, g2, g3, g4, g6]
    unfold serialConcat
    rw [if_neg]
    · rfl
    · rintro ⟨-, -, hne⟩
      exact hne (by rw [g11, h10, hmid])
  have hiff : Spec.NearlyTP ((ops₁.compose ops₂).ops (ops₁.compose ops₂).len (e₁ ^ b₁) (d₂ ^ a₂)) ↔
      Spec.NearlyTP (fun k : Fin ops₁.len × Fin ops₂.len =>
        ops₁.ops ops₁.len (e₁ ^ b₁) (d₁ ^ a₁) k.1 * ops₂.ops ops₂.len (d₁ ^ a₁) (d₂ ^ a₂) k.2) := by
    rw [hlen, compose_ops ops₁ ops₂ ops₁.len ops₂.len (e₁ ^ b₁) (d₁ ^ a₁) (d₂ ^ a₂) h10 rfl]
    exact Spec.nearlyTP_equiv finProdFinEquiv.symm (fun k : Fin ops₁.len × Fin ops₂.len =>
      ops₁.ops ops₁.len (e₁ ^ b₁) (d₁ ^ a₁) k.1 * ops₂.ops ops₂.len (d₁ ^ a₁) (d₂ ^ a₂) k.2)
  rw [hadd]
  refine ⟨fun h => init_of_not_nearly _ _ _ _ _ _ (Nat.mul_pos h9 g9) h11 g10 (fun hh => h (hiff.1 hh)), fun h => ?_⟩
  obtain ⟨t, ht⟩ := (qchanInit_iff (sp₁ || sp₂) (ops₁.compose ops₂) a₂ b₁ d₂ e₁ []).2 ⟨Nat.mul_pos h9 g9, h11, g10, hiff.2 h⟩
  obtain ⟨t1, -, -, t4, t5, t6, t7, -⟩ := qchanInit_ok ht
  refine ⟨t, ht, ?_, ?_⟩
  · unfold QChan.inputDimension
    rw [t4, t6, t1.cur, pow_one]
  · unfold QChan.outputDimension
    rw [t5, t7, t1.cur, pow_one]

/-- C32: it is enough that the *outer* channel preserves the trace exactly; the inner one may be any accepted channel. -/
theorem C32_add_outer (hs : QChan.init sp₁ ops₁ a₁ b₁ d₁ e₁ orth₁ = .ok s)
    (ho : QChan.init sp₂ ops₂ a₂ b₂ d₂ e₂ orth₂ = .ok o) (cs co : List QChan.Call)
    (h₁ : Spec.TracePreserving (ops₁.ops ops₁.len (e₁ ^ b₁) (d₁ ^ a₁))) (hmid : d₁ ^ a₁ = e₂ ^ b₂) :
    ∃ t, QChan.add (QChan.history s cs) (QChan.history o co) = .ok t ∧
      QChan.inputDimension t = d₂ ^ a₂ ∧ QChan.outputDimension t = e₁ ^ b₁ := by
  refine ((C32_add_exact hs ho cs co).2 hmid).2 ?_
  obtain ⟨-, -, -, h4⟩ := (qchanInit_iff sp₂ ops₂ a₂ b₂ d₂ e₂ orth₂).1 ⟨o, ho⟩
  rw [← hmid] at h4
  unfold Spec.NearlyTP at h4 ⊢
  have : ∑ k : Fin ops₁.len × Fin ops₂.len,
      (ops₁.ops ops₁.len (e₁ ^ b₁) (d₁ ^ a₁) k.1 * ops₂.ops ops₂.len (d₁ ^ a₁) (d₂ ^ a₂) k.2)ᴴ *
        (ops₁.ops ops₁.len (e₁ ^ b₁) (d₁ ^ a₁) k.1 * ops₂.ops ops₂.len (d₁ ^ a₁) (d₂ ^ a₂) k.2) =
      ∑ j, (ops₂.ops ops₂.len (d₁ ^ a₁) (d₂ ^ a₂) j)ᴴ * ops₂.ops ops₂.len (d₁ ^ a₁) (d₂ ^ a₂) j := by
    rw [Fintype.sum_prod_type_right]
    refine Finset.sum_congr rfl fun j _ => ?_
    have e1 : ∀ i, (ops₁.ops ops₁.len (e₁ ^ b₁) (d₁ ^ a₁) i * ops₂.ops ops₂.len (d₁ ^ a₁) (d₂ ^ a₂) j)ᴴ *
        (ops₁.ops ops₁.len (e₁ ^ b₁) (d₁ ^ a₁) i * ops₂.ops ops₂.len (d₁ ^ a₁) (d₂ ^ a₂) j) =
        (ops₂.ops ops₂.len (d₁ ^ a₁) (d₂ ^ a₂) j)ᴴ *
          ((ops₁.ops ops₁.len (e₁ ^ b₁) (d₁ ^ a₁) i)ᴴ * ops₁.ops ops₁.len (e₁ ^ b₁) (d₁ ^ a₁) i) *
            ops₂.ops ops₂.len (d₁ ^ a₁) (d₂ ^ a₂) j := by
      intro i
      rw [conjTranspose_mul]
      simp only [Matrix.mul_assoc]
    simp only [e1]
    rw [← Matrix.sum_mul, ← Matrix.mul_sum, h₁, Matrix.mul_one]
  rw [this]
  exact h4

/-- C32, exactly, for `A * B`: it is constructed exactly when the products of the dimensions of single particles are the dimensions of the
channels and the tensor products of the operators preserve the trace up to the tolerance; it raises `AssertionError` otherwise. -/
theorem C32_mul_exact (hs : QChan.init sp₁ ops₁ a₁ b₁ d₁ e₁ orth₁ = .ok s)
    (ho : QChan.init sp₂ ops₂ a₂ b₂ d₂ e₂ orth₂ = .ok o) (cs co : List QChan.Call) :
    (d₁ ^ a₁ * d₂ ^ a₂ = d₁ * d₂ ∧ e₁ ^ b₁ * e₂ ^ b₂ = e₁ * e₂ ∧
      Spec.NearlyTP (fun k : Fin ops₁.len × Fin ops₂.len =>
        Spec.kron (ops₁.ops ops₁.len (e₁ ^ b₁) (d₁ ^ a₁) k.1) (ops₂.ops ops₂.len (e₂ ^ b₂) (d₂ ^ a₂) k.2)) →
      ∃ t, QChan.mul (QChan.history s cs) (QChan.history o co) = .ok t ∧
        QChan.inputDimension t = d₁ ^ a₁ * d₂ ^ a₂ ∧ QChan.outputDimension t = e₁ ^ b₁ * e₂ ^ b₂) ∧
    (¬ (d₁ ^ a₁ * d₂ ^ a₂ = d₁ * d₂ ∧ e₁ ^ b₁ * e₂ ^ b₂ = e₁ * e₂ ∧
      Spec.NearlyTP (fun k : Fin ops₁.len × Fin ops₂.len =>
        Spec.kron (ops₁.ops ops₁.len (e₁ ^ b₁) (d₁ ^ a₁) k.1) (ops₂.ops ops₂.len (e₂ ^ b₂) (d₂ ^ a₂) k.2))) →
      QChan.mul (QChan.history s cs) (QChan.history o co) = .error .assertion) := by
  obtain ⟨-, -, -, -, -, -, -, -, h9, h10, h11, -⟩ := qchanInit_ok hs
  obtain ⟨-, -, -, -, -, -, -, -, g9, g10, g11, -⟩ := qchanInit_ok ho
  have hlen : (ops₁.kron ops₂).len = ops₁.len * ops₂.len := rfl
  have hcols : (ops₁.kron ops₂).cols = d₁ ^ a₁ * d₂ ^ a₂ := by rw [← h10, ← g10]; rfl
  have hrows : (ops₁.kron ops₂).rows = e₁ ^ b₁ * e₂ ^ b₂ := by rw [← h11, ← g11]; rfl
  have hiff : Spec.NearlyTP ((ops₁.kron ops₂).ops (ops₁.kron ops₂).len (e₁ ^ b₁ * e₂ ^ b₂) (d₁ ^ a₁ * d₂ ^ a₂)) ↔
      Spec.NearlyTP (fun k : Fin ops₁.len × Fin ops₂.len =>
        Spec.kron (ops₁.ops ops₁.len (e₁ ^ b₁) (d₁ ^ a₁) k.1) (ops₂.ops ops₂.len (e₂ ^ b₂) (d₂ ^ a₂) k.2)) := by
    rw [hlen, kron_ops ops₁ ops₂ ops₁.len ops₂.len (e₁ ^ b₁) (e₂ ^ b₂) (d₁ ^ a₁) (d₂ ^ a₂) rfl g11 g10]
    exact Spec.nearlyTP_equiv finProdFinEquiv.symm (fun k : Fin ops₁.len × Fin ops₂.len =>
        Spec.kron (ops₁.ops ops₁.len (e₁ ^ b₁) (d₁ ^ a₁) k.1) (ops₂.ops ops₂.len (e₂ ^ b₂) (d₂ ^ a₂) k.2))
  rw [mul_inv hs ho cs co]
  constructor
  · rintro ⟨hd, he, hn⟩
    rw [← hiff, hd, he] at hn
    obtain ⟨t, ht⟩ := (qchanInit_iff (sp₁ || sp₂) (ops₁.kron ops₂) 1 1 (d₁ * d₂) (e₁ * e₂) []).2
      ⟨Nat.mul_pos h9 g9, by rw [hrows, he, pow_one], by rw [hcols, hd, pow_one], by rw [pow_one, pow_one]; exact hn⟩
    obtain ⟨t1, -, -, t4, t5, t6, t7, -⟩ := qchanInit_ok ht
    refine ⟨t, ht, ?_, ?_⟩
    · unfold QChan.inputDimension
      rw [t4, t6, t1.cur, pow_one, pow_one, hd]
    · unfold QChan.outputDimension
      rw [t5, t7, t1.cur, pow_one, pow_one, he]
  · intro hno
    by_cases hd : d₁ ^ a₁ * d₂ ^ a₂ = d₁ * d₂
    · by_cases he : e₁ ^ b₁ * e₂ ^ b₂ = e₁ * e₂
      · refine init_of_not_nearly _ _ 1 1 _ _ (Nat.mul_pos h9 g9) (by rw [hrows, he, pow_one]) (by rw [hcols, hd, pow_one]) ?_
        intro hn
        rw [pow_one, pow_one, ← hd, ← he] at hn
        exact hno ⟨hd, he, hiff.1 hn⟩
      · exact (init_bad_shape _ _ 1 1 _ _ [] (Nat.mul_pos h9 g9) (Or.inr (by rw [hrows, pow_one]; exact he))).2
    · exact (init_bad_shape _ _ 1 1 _ _ [] (Nat.mul_pos h9 g9) (Or.inl (by rw [hcols, pow_one]; exact hd))).2

/-- C32 for `A * B` of channels of one particle each: it is enough that one of the two preserves the trace exactly; the other may be any
accepted channel. -/
theorem C32_mul_one (hs : QChan.init sp₁ ops₁ 1 1 d₁ e₁ orth₁ = .ok s)
    (ho : QChan.init sp₂ ops₂ 1 1 d₂ e₂ orth₂ = .ok o) (cs co : List QChan.Call)
    (h : Spec.TracePreserving (ops₁.ops ops₁.len (e₁ ^ 1) (d₁ ^ 1)) ∨
      Spec.TracePreserving (ops₂.ops ops₂.len (e₂ ^ 1) (d₂ ^ 1))) :
    ∃ t, QChan.mul (QChan.history s cs) (QChan.history o co) = .ok t ∧
      QChan.inputDimension t = d₁ ^ 1 * d₂ ^ 1 ∧ QChan.outputDimension t = e₁ ^ 1 * e₂ ^ 1 := by
  refine (C32_mul_exact hs ho cs co).1 ⟨by rw [pow_one, pow_one], by rw [pow_one, pow_one], ?_⟩
  obtain ⟨-, -, -, n₁⟩ := (qchanInit_iff sp₁ ops₁ 1 1 d₁ e₁ orth₁).1 ⟨s, hs⟩
  obtain ⟨-, -, -, n₂⟩ := (qchanInit_iff sp₂ ops₂ 1 1 d₂ e₂ orth₂).1 ⟨o, ho⟩
  generalize ops₁.ops ops₁.len (e₁ ^ 1) (d₁ ^ 1) = K at *
  generalize ops₂.ops ops₂.len (e₂ ^ 1) (d₂ ^ 1) = L at *
  unfold Spec.NearlyTP at *
  have hsum : ∑ k : Fin ops₁.len × Fin ops₂.len, (Spec.kron (K k.1) (L k.2))ᴴ * Spec.kron (K k.1) (L k.2) =
      Spec.kron (∑ i, (K i)ᴴ * K i) (∑ j, (L j)ᴴ * L j) := by
    rw [← Spec.kron_sum (fun i => (K i)ᴴ * K i) (fun j => (L j)ᴴ * L j), Spec.sum_finProd
      (fun i j => Spec.kron ((K i)ᴴ * K i) ((L j)ᴴ * L j)), Fintype.sum_prod_type]
    simp only [Spec.kron_conjTranspose, Spec.kron_mul]
  rw [hsum, ← Spec.kron_one]
  intro i j
  rcases h with h | h
  · rw [Spec.TracePreserving] at h
    have := n₂ i.modNat j.modNat
    rw [Matrix.sub_apply] at this ⊢
    rw [h]
    unfold Spec.kron
    rw [← mul_sub, norm_mul]
    refine lt_of_le_of_lt (mul_le_of_le_one_left (norm_nonneg _) ?_) this
    rw [Matrix.one_apply]
    split <;> simp
  · rw [Spec.TracePreserving] at h
    have := n₁ i.divNat j.divNat
    rw [Matrix.sub_apply] at this ⊢
    rw [h]
    unfold Spec.kron
    rw [← sub_mul, norm_mul]
    refine lt_of_le_of_lt (mul_le_of_le_one_right (norm_nonneg _) ?_) this
    rw [Matrix.one_apply]
    split <;> simp

theorem krausInit_shape (sp : Bool) (A : Arr3 ℂ) (a b d e : ℕ) (hl : 0 < A.len) :
    (∃ t, KrausObj.init sp A a b d e [] = .ok t) ↔ A.cols = d ^ a ∧ A.rows = e ^ b := by
  constructor
  · rintro ⟨t, ht⟩
    obtain ⟨-, -, -, -, -, -, -, -, t9, t10⟩ := krausInit_ok ht
    exact ⟨t9.resolve_left hl.ne', t10.resolve_left hl.ne'⟩
  · rintro ⟨hc, hr⟩
    obtain ⟨x, hx⟩ := tensordot_conj A
    unfold KrausObj.init
    simp only [pyAssert, if_pos (Or.inr hc : A.len = 0 ∨ A.cols = d ^ a),
      if_pos (Or.inr hr : A.len = 0 ∨ A.rows = e ^ b), KrausObj.exchange, ite_self, hx]
    exact ⟨_, rfl⟩

/-- C32, exactly, for `DenseKraus + DenseKraus` and `SparseKraus + SparseKraus`: constructed exactly when the dimension between the two
agrees and the number of particles of the outer input and of the inner output, which the code uses, give the right dimensions. -/
theorem C32_kraus_add_exact {kind : Bool} (hs : QChan.init kind ops₁ a₁ b₁ d₁ e₁ orth₁ = .ok s)
    (ho : QChan.init kind ops₂ a₂ b₂ d₂ e₂ orth₂ = .ok o) :
    (∃ t, s.add o = .ok t) ↔ d₁ ^ a₁ = e₂ ^ b₂ ∧ d₂ ^ a₂ = d₂ ^ a₁ ∧ e₁ ^ b₁ = e₁ ^ b₂ := by
  obtain ⟨-, h2, h3, h4, h5, h6, h7, -, h9, h10, h11, -⟩ := qchanInit_ok hs
  obtain ⟨-, g2, g3, g4, g5, g6, g7, -, g9, g10, g11, -⟩ := qchanInit_ok ho
  by_cases hmid : d₁ ^ a₁ = e₂ ^ b₂
  · have hadd : s.add o = KrausObj.init kind (ops₁.compose ops₂) a₁ b₂ d₂ e₁ [] := by
      have hcat : serialConcat ops₁ ops₂ = .ok (ops₁.compose ops₂) := by
        unfold serialConcat
        rw [if_neg]
        rintro ⟨-, -, hne⟩
        exact hne (by rw [g11, h10, hmid])
      unfold KrausObj.add
      rw [h2, h3, h4, h6, h7, g2, g3, g5, g6, g7, hcat]
      simp only [if_true, pyAssert, bind, Except.bind]
      rw [if_neg (show ¬ d₁ ^ a₁ ≠ e₂ ^ b₂ by rw [hmid]; simp)]
      cases kind <;> simp only [Bool.false_eq_true, if_false, if_true]
    rw [hadd, krausInit_shape _ _ _ _ _ _ (Nat.mul_pos h9 g9)]
    have hc : (ops₁.compose ops₂).cols = d₂ ^ a₂ := g10
    have hr : (ops₁.compose ops₂).rows = e₁ ^ b₁ := h11
    rw [hc, hr]
    exact ⟨fun h => ⟨hmid, h⟩, fun h => h.2⟩
  · constructor
    · rintro ⟨t, ht⟩
      exfalso
      unfold KrausObj.add at ht
      rw [h3, h4, h6, g3, g5, g7] at ht
      simp only [pyAssert, bind, Except.bind] at ht
      cases kind <;> simp [hmid] at ht
    · exact fun h => absurd h.1 hmid

/-- C32, exactly, for `DenseKraus * DenseKraus` and `SparseKraus * SparseKraus`. -/
theorem C32_kraus_mul_exact {kind : Bool} (hs : QChan.init kind ops₁ a₁ b₁ d₁ e₁ orth₁ = .ok s)
    (ho : QChan.init kind ops₂ a₂ b₂ d₂ e₂ orth₂ = .ok o) :
    (∃ t, s.mul o = .ok t) ↔ d₁ ^ a₁ * d₂ ^ a₂ = d₁ * d₂ ∧ e₁ ^ b₁ * e₂ ^ b₂ = e₁ * e₂ := by
  obtain ⟨-, h2, h3, h4, h5, h6, h7, -, h9, h10, h11, -⟩ := qchanInit_ok hs
  obtain ⟨-, g2, g3, g4, g5, g6, g7, -, g9, g10, g11, -⟩ := qchanInit_ok ho
  have hcols : (ops₁.kron ops₂).cols = d₁ ^ a₁ * d₂ ^ a₂ := by rw [← h10, ← g10]; rfl
  have hrows : (ops₁.kron ops₂).rows = e₁ ^ b₁ * e₂ ^ b₂ := by rw [← h11, ← g11]; rfl
  have hmul : s.mul o = KrausObj.init kind (ops₁.kron ops₂) 1 1 (d₂ * d₁) (e₂ * e₁) [] := by
    unfold KrausObj.mul parallelConcat
    rw [h2, h3, h6, h7, g2, g3, g6, g7]
    simp [pyAssert, bind, Except.bind]
  rw [hmul, krausInit_shape _ _ _ _ _ _ (Nat.mul_pos h9 g9), hcols, hrows, pow_one, pow_one, mul_comm d₂, mul_comm e₂]

/-- The hypotheses of `C32_add_outer` and `C32_mul_one` are met by the dephasing channel with the accepted operator `(1 + 4e-6) 1`, which
does not preserve the trace exactly, and the sum with itself of which is refused (`C32_tolerance_refuted`). -/
example : ∃ s o t u, QChan.init false dephOps 1 1 2 2 [] = .ok s ∧ QChan.init false (scalOps (1 + 4 / 10 ^ 6)) 1 1 2 2 [] = .ok o ∧
    QChan.add s o = .ok t ∧ QChan.mul o s = .ok u ∧ QChan.inputDimension t = 2 ∧ QChan.inputDimension u = 4 := by
  obtain ⟨s, hs⟩ := deph_ok false []
  obtain ⟨o, ho, -⟩ := C32_tolerance_refuted
  obtain ⟨t, ht, hd, -⟩ := C32_add_outer hs ho [] [] dephOps_tp rfl
  obtain ⟨u, hu, hd', -⟩ := C32_mul_one ho hs [] [] (Or.inr dephOps_tp)
  exact ⟨s, o, t, u, hs, ho, ht, hu, hd, hd'⟩

end PyQ
