import Verif.Lemmas.KrausCompose
import Verif.Props.Kraus

/-!
# C25, C26, C32: serial and parallel concatenation

`QChan.add` is `AnalyticQChan.__add__`, `QChan.mul` is `AnalyticQChan.__mul__`, `KrausObj.add` is
`DenseKraus.__add__` / `SparseKraus.__add__`.
-/

namespace PyQ

open Matrix

variable {sp₁ sp₂ : Bool} {ops₁ ops₂ : Arr3 ℂ} {a₁ b₁ d₁ e₁ a₂ b₂ d₂ e₂ : ℕ} {orth₁ orth₂ : List ℕ}
  {s o t : KrausObj}

/-- What a successful `s + o` is. -/
theorem add_inv (hs : QChan.init sp₁ ops₁ a₁ b₁ d₁ e₁ orth₁ = .ok s)
    (ho : QChan.init sp₂ ops₂ a₂ b₂ d₂ e₂ orth₂ = .ok o) (cs co : List QChan.Call)
    (ht : QChan.add (QChan.history s cs) (QChan.history o co) = .ok t) :
    QChan.init (sp₁ || sp₂) (ops₁.compose ops₂) a₂ b₁ d₂ e₁ [] = .ok t ∧ d₁ ^ a₁ = e₂ ^ b₂ := by
  obtain ⟨h1, h2, h3, h4, h5, h6, h7, h8, h9, h10, h11, h12⟩ := qchanInit_ok hs
  obtain ⟨g1, g2, g3, g4, g5, g6, g7, g8, g9, g10, g11, g12⟩ := qchanInit_ok ho
  obtain ⟨p1, p2, p3, p4, p5, p6, p7⟩ := history_static s cs
  obtain ⟨q1, q2, q3, q4, q5, q6, q7⟩ := history_static o co
  unfold QChan.add at ht
  rw [p1, p2, p4, p6, q1, q2, q3, q5, h2, h3, h5, h7, g2, g3, g4, g6] at ht
  rcases hc : serialConcat ops₁ ops₂ with x | k
  · rw [hc] at ht; cases ht
  · rw [hc] at ht
    obtain ⟨hk, hd⟩ := serialConcat_ok h9 g9 hc
    subst hk
    exact ⟨ht, by rw [← h10, ← g11]; exact hd⟩

/-- C25.  `(A + B).channel(rho, n) = A.channel(B.channel(rho, n), n)` for every `n`, whenever the sum is
constructed, after any safe histories of the three objects; the number of operators multiplies. -/
theorem C25_composition (hs : QChan.init sp₁ ops₁ a₁ b₁ d₁ e₁ orth₁ = .ok s)
    (ho : QChan.init sp₂ ops₂ a₂ b₂ d₂ e₂ orth₂ = .ok o) (cs co : List QChan.Call)
    (ht : QChan.add (QChan.history s cs) (QChan.history o co) = .ok t) (c₁ c₂ c₃ : List QChan.Call) (n : ℕ)
    (h₁ : Spec.SafeUses sp₂ (c₁.map QChan.Call.uses ++ [n]))
    (h₂ : Spec.SafeUses sp₁ (c₂.map QChan.Call.uses ++ [n]))
    (h₃ : Spec.SafeUses (sp₁ || sp₂) (c₃.map QChan.Call.uses ++ [n])) (rho : Arr ℂ)
    (hr : rho.rows = (d₂ ^ a₂) ^ n) (hc : rho.cols = (d₂ ^ a₂) ^ n) :
    t.numbKraus = s.numbKraus * o.numbKraus ∧
    ∃ x y z, (QChan.channel (QChan.history o c₁) rho n false).1 = .ok x ∧
      (QChan.channel (QChan.history s c₂) x n false).1 = .ok y ∧
      (QChan.channel (QChan.history t c₃) rho n false).1 = .ok z ∧ Arr.Same z y := by
  obtain ⟨hti, hmid⟩ := add_inv hs ho cs co ht
  obtain ⟨-, gs, -, -, -, -, -, -, h9, h10, h11, -⟩ := qchanInit_ok hs
  obtain ⟨-, go, -, -, -, -, -, -, g9, g10, g11, -⟩ := qchanInit_ok ho
  obtain ⟨-, gt, -⟩ := qchanInit_ok hti
  refine ⟨by unfold KrausObj.numbKraus; rw [gt, gs, go]; rfl, ?_⟩
  obtain ⟨x, x1, x2, x3, x4⟩ := api_channel ho c₁ n h₁ rho hr hc
  obtain ⟨y, y1, y2, y3, y4⟩ := api_channel hs c₂ n h₂ x (by rw [hmid]; exact x2) (by rw [hmid]; exact x3)
  obtain ⟨z, z1, z2, z3, z4⟩ := api_channel hti c₃ n h₃ rho hr hc
  refine ⟨x, y, z, x1, y1, z1, ?_⟩
  rw [Arr.same_iff_mat, z2, z3, y2, y3]
  refine ⟨rfl, rfl, ?_⟩
  have hlen : (ops₁.compose ops₂).len = ops₁.len * ops₂.len := rfl
  rw [z4, hlen, compose_ops ops₁ ops₂ ops₁.len ops₂.len (e₁ ^ b₁) (d₁ ^ a₁) (d₂ ^ a₂) h10 rfl,
    Spec.applyKraus_comp_pow, y4]
  congr 1
  rw [hmid, ← x4]

/-- C25.  The composition of two exactly trace preserving channels is exactly trace preserving. -/
theorem C25_trace_preserving (hs : QChan.init sp₁ ops₁ a₁ b₁ d₁ e₁ orth₁ = .ok s)
    (ho : QChan.init sp₂ ops₂ a₂ b₂ d₂ e₂ orth₂ = .ok o) (cs co : List QChan.Call)
    (ht : QChan.add (QChan.history s cs) (QChan.history o co) = .ok t)
    (h₁ : Spec.TracePreserving (ops₁.ops ops₁.len (e₁ ^ b₁) (d₁ ^ a₁)))
    (h₂ : Spec.TracePreserving (ops₂.ops ops₂.len (e₂ ^ b₂) (d₂ ^ a₂))) :
    Spec.TracePreserving (t.kraus.ops t.kraus.len (e₁ ^ b₁) (d₂ ^ a₂)) := by
  obtain ⟨hti, hmid⟩ := add_inv hs ho cs co ht
  obtain ⟨-, gs, -, -, -, -, -, -, h9, h10, h11, -⟩ := qchanInit_ok hs
  obtain ⟨-, gt, -⟩ := qchanInit_ok hti
  have hlen : (ops₁.compose ops₂).len = ops₁.len * ops₂.len := rfl
  rw [gt, hlen, compose_ops ops₁ ops₂ ops₁.len ops₂.len (e₁ ^ b₁) (d₁ ^ a₁) (d₂ ^ a₂) h10 rfl]
  rw [hmid] at h₁ ⊢
  exact Spec.tp_comp _ _ h₁ h₂

/-- C25.  Composition is associative: `(A + B) + C` and `A + (B + C)` are the same channel. -/
theorem C25_associative {sp₃ : Bool} {ops₃ : Arr3 ℂ} {a₃ b₃ d₃ e₃ : ℕ} {orth₃ : List ℕ}
    {q so oq l r : KrausObj}
    (hs : QChan.init sp₁ ops₁ a₁ b₁ d₁ e₁ orth₁ = .ok s)
    (ho : QChan.init sp₂ ops₂ a₂ b₂ d₂ e₂ orth₂ = .ok o)
    (hq : QChan.init sp₃ ops₃ a₃ b₃ d₃ e₃ orth₃ = .ok q)
    (h1 : QChan.add s o = .ok so) (h2 : QChan.add so q = .ok l)
    (h3 : QChan.add o q = .ok oq) (h4 : QChan.add s oq = .ok r)
    (n : ℕ) (hn : 1 ≤ n) (rho : Arr ℂ)
    (hr : rho.rows = (d₃ ^ a₃) ^ n) (hc : rho.cols = (d₃ ^ a₃) ^ n) :
    ∃ x y, (QChan.channel l rho n false).1 = .ok x ∧ (QChan.channel r rho n false).1 = .ok y ∧
      Arr.Same x y := by
  have safe : ∀ sp : Bool, Spec.SafeUses sp (([] : List QChan.Call).map QChan.Call.uses ++ [n]) := by
    intro sp
    refine ⟨fun m hm => ?_, fun _ => by simp⟩
    simp only [List.map_nil, List.nil_append, List.mem_cons, List.not_mem_nil, or_false] at hm
    omega
  obtain ⟨i1, m1⟩ := add_inv hs ho [] [] h1
  obtain ⟨i3, m3⟩ := add_inv ho hq [] [] h3
  obtain ⟨-, x, y, z, x1, y1, z1, zz⟩ := C25_composition i1 hq [] [] h2 [] [] [] n (safe _) (safe _) (safe _)
    rho hr hc
  obtain ⟨x', x2, x3, x4, -⟩ := api_channel hq [] n (safe _) rho hr hc
  have ex : x' = x := by
    have : (Except.ok x' : Except PyErr (Arr ℂ)) = .ok x := x2.symm.trans x1
    injection this
  subst ex
  obtain ⟨i2, m2⟩ := add_inv i1 hq [] [] h2
  obtain ⟨-, u, v, w, u1, v1, w1, ww⟩ := C25_composition hs ho [] [] h1 [] [] [] n (safe _) (safe _) (safe _)
    x' (by rw [m2]; exact x3) (by rw [m2]; exact x4)
  obtain ⟨-, x'', y'', z'', xx, yy, zz', zz''⟩ := C25_composition hs i3 [] [] h4 [] [] [] n (safe _) (safe _)
    (safe _) rho hr hc
  obtain ⟨-, p, p', p'', hp, hp', hp'', hpp⟩ := C25_composition ho hq [] [] h3 [] [] [] n (safe _) (safe _)
    (safe _) rho hr hc
  have e1 : p = x' := by
    have : (Except.ok p : Except PyErr (Arr ℂ)) = .ok x' := hp.symm.trans x2
    injection this
  subst e1
  have e2 : p' = u := by
    have : (Except.ok p' : Except PyErr (Arr ℂ)) = .ok u := hp'.symm.trans u1
    injection this
  subst e2
  have e3 : y = w := by
    have : (Except.ok y : Except PyErr (Arr ℂ)) = .ok w := y1.symm.trans w1
    injection this
  subst e3
  have e4 : p'' = x'' := by
    have : (Except.ok p'' : Except PyErr (Arr ℂ)) = .ok x'' := hp''.symm.trans xx
    injection this
  subst e4
  refine ⟨z, z'', z1, zz', zz.trans (ww.trans (Arr.Same.trans ?_ zz''.symm))⟩
  -- `s` sends equal matrices to equal matrices
  obtain ⟨po1, po2, po3⟩ : p'.rows = (d₁ ^ a₁) ^ n ∧ p'.cols = (d₁ ^ a₁) ^ n ∧ True := by
    obtain ⟨k, k1, k2, k3, -⟩ := api_channel ho [] n (safe _) p (by rw [m3]; exact x3) (by rw [m3]; exact x4)
    have : p' = k := by
      have : (Except.ok p' : Except PyErr (Arr ℂ)) = .ok k := hp'.symm.trans k1
      injection this
    subst this
    exact ⟨by rw [m1]; exact k2, by rw [m1]; exact k3, trivial⟩
  obtain ⟨k, k1, k2, k3, k4⟩ := api_channel hs [] n (safe _) p' po1 po2
  obtain ⟨j, j1, j2, j3, j4⟩ := api_channel hs [] n (safe _) p'' (hpp.1.trans po1) (hpp.2.1.trans po2)
  have ek : k = v := by
    have : (Except.ok k : Except PyErr (Arr ℂ)) = .ok v := k1.symm.trans v1
    injection this
  have ej : j = y'' := by
    have : (Except.ok j : Except PyErr (Arr ℂ)) = .ok y'' := j1.symm.trans yy
    injection this
  subst ek ej
  rw [Arr.same_iff_mat, k2, k3, j2, j3]
  refine ⟨rfl, rfl, ?_⟩
  rw [k4, j4]
  congr 1
  have := (Arr.same_iff_mat p'' p').mp hpp
  rw [hpp.1, hpp.2.1, po1, po2] at this
  exact this.2.2.symm

/-! ### C32 for `+`, and examples for C25 -/

/-- C32.  For exactly trace preserving channels with matching dimensions `A + B` is constructed, with the
input dimension of `B` and the output dimension of `A`. -/
theorem C32_add (hs : QChan.init sp₁ ops₁ a₁ b₁ d₁ e₁ orth₁ = .ok s)
    (ho : QChan.init sp₂ ops₂ a₂ b₂ d₂ e₂ orth₂ = .ok o) (cs co : List QChan.Call)
    (h₁ : Spec.TracePreserving (ops₁.ops ops₁.len (e₁ ^ b₁) (d₁ ^ a₁)))
    (h₂ : Spec.TracePreserving (ops₂.ops ops₂.len (e₂ ^ b₂) (d₂ ^ a₂)))
    (hmid : d₁ ^ a₁ = e₂ ^ b₂) :
    ∃ t, QChan.add (QChan.history s cs) (QChan.history o co) = .ok t ∧
      QChan.inputDimension t = d₂ ^ a₂ ∧ QChan.outputDimension t = e₁ ^ b₁ := by
  obtain ⟨-, h2, h3, -, h5, -, h7, -, h9, h10, h11, -⟩ := qchanInit_ok hs
  obtain ⟨-, g2, g3, g4, -, g6, -, -, g9, g10, g11, -⟩ := qchanInit_ok ho
  obtain ⟨p1, p2, p3, p4, p5, p6, p7⟩ := history_static s cs
  obtain ⟨q1, q2, q3, q4, q5, q6, q7⟩ := history_static o co
  have hlen : (ops₁.compose ops₂).len = ops₁.len * ops₂.len := rfl
  obtain ⟨t, ht⟩ := init_exact (sp₁ || sp₂) (ops₁.compose ops₂) a₂ b₁ d₂ e₁ []
    (Nat.mul_pos h9 g9) g10 h11 (by
      rw [hlen, compose_ops ops₁ ops₂ ops₁.len ops₂.len (e₁ ^ b₁) (d₁ ^ a₁) (d₂ ^ a₂) h10 rfl]
      rw [hmid] at h₁ ⊢
      exact Spec.tp_comp _ _ h₁ h₂)
  refine ⟨t, ?_, ?_, ?_⟩
  · unfold QChan.add
    rw [p1, p2, p4, p6, q1, q2, q3, q5, h2, h3, h5, h7, g2, g3, g4, g6]
    unfold serialConcat
    rw [if_neg]
    · exact ht
    · rintro ⟨-, -, hne⟩
      exact hne (by rw [g11, h10, hmid])
  · obtain ⟨t1, -, -, t4, t5, t6, t7, -⟩ := qchanInit_ok ht
    unfold QChan.inputDimension
    rw [t4, t6, t1.cur, pow_one]
  · obtain ⟨t1, -, -, t4, t5, t6, t7, -⟩ := qchanInit_ok ht
    unfold QChan.outputDimension
    rw [t5, t7, t1.cur, pow_one]

/-- C32, error branch: channels whose dimensions do not match raise `TypeError`. -/
theorem C32_add_mismatch (hs : QChan.init sp₁ ops₁ a₁ b₁ d₁ e₁ orth₁ = .ok s)
    (ho : QChan.init sp₂ ops₂ a₂ b₂ d₂ e₂ orth₂ = .ok o) (cs co : List QChan.Call)
    (hmid : d₁ ^ a₁ ≠ e₂ ^ b₂) :
    QChan.add (QChan.history s cs) (QChan.history o co) = .error .type := by
  obtain ⟨-, h2, h3, -, h5, -, h7, -, h9, h10, h11, -⟩ := qchanInit_ok hs
  obtain ⟨-, g2, g3, g4, -, g6, -, -, g9, g10, g11, -⟩ := qchanInit_ok ho
  obtain ⟨p1, p2, p3, p4, p5, p6, p7⟩ := history_static s cs
  obtain ⟨q1, q2, q3, q4, q5, q6, q7⟩ := history_static o co
  unfold QChan.add
  rw [p1, q1, h2, g2]
  unfold serialConcat
  rw [if_pos ⟨h9.ne', g9.ne', fun h => hmid (by rw [← h10, ← g11, h])⟩]
  rfl

/-- C25 and C32 apply to the dephasing channel after itself, one object dense and one sparse. -/
example : ∃ s o t, QChan.init false dephOps 1 1 2 2 [] = .ok s ∧ QChan.init true dephOps 1 1 2 2 [] = .ok o ∧
    QChan.add s o = .ok t ∧ t.numbKraus = 4 := by
  obtain ⟨s, hs⟩ := deph_ok false []
  obtain ⟨o, ho⟩ := deph_ok true []
  obtain ⟨t, ht, -⟩ := C32_add hs ho [] [] dephOps_tp dephOps_tp rfl
  obtain ⟨hn, -⟩ := C25_composition hs ho [] [] ht [] [] [] 1 ⟨by simp, by simp⟩ ⟨by simp, by simp⟩
    ⟨by simp, by simp⟩ (Arr.eye 2) rfl rfl
  refine ⟨s, o, t, hs, ho, ht, ?_⟩
  rw [hn, KrausObj.numbKraus, KrausObj.numbKraus, (qchanInit_ok hs).2.1, (qchanInit_ok ho).2.1]
  rfl

/-! ### The tolerance of the trace check -/

/-- One operator, `z` times the identity of a qubit. -/
noncomputable def scalOps (z : ℝ) : Arr3 ℂ := ⟨1, 2, 2, fun _ i j => if i = j then (z : ℂ) else 0⟩

theorem isTP_scalar (o : KrausObj) (z : ℝ) (hl : o.kraus.len = 1) (hr : o.kraus.rows = 2)
    (hc : o.kraus.cols = 2) (h : ∀ i < 2, ∀ j < 2, o.kraus.get 0 i j = if i = j then (z : ℂ) else 0) :
    o.isTP ↔ |z ^ 2 - 1| < 1 / 10 ^ 5 := by
  have key : ∀ k (hk : k < 2) m (hm : m < 2), o.traceCond.get k m = if k = m then ((z ^ 2 : ℝ) : ℂ) else 0 := by
    intro k hk m hm
    rw [traceCond_get o ⟨k, hc ▸ hk⟩ ⟨m, hc ▸ hm⟩]
    simp only [Matrix.sum_apply, Matrix.mul_apply, conjTranspose_apply, Arr3.ops]
    rw [Fin.sum_univ_eq_sum_range (fun i => ∑ j : Fin o.kraus.rows, star (o.kraus.get i j k) * o.kraus.get i j m),
      hl]
    simp only [Finset.sum_range_one]
    rw [Fin.sum_univ_eq_sum_range (fun j => star (o.kraus.get 0 j k) * o.kraus.get 0 j m), hr]
    simp only [Finset.sum_range_succ, Finset.sum_range_zero, zero_add]
    rw [h 0 (by omega) k hk, h 1 (by omega) k hk, h 0 (by omega) m hm, h 1 (by omega) m hm]
    have hk' : k = 0 ∨ k = 1 := by omega
    have hm' : m = 0 ∨ m = 1 := by omega
    rcases hk' with rfl | rfl <;> rcases hm' with rfl | rfl <;> simp [pow_two]
  unfold KrausObj.isTP
  rw [hc]
  constructor
  · intro H
    have := H 0 (by omega) 0 (by omega)
    rw [key 0 (by omega) 0 (by omega), if_pos rfl, if_pos rfl] at this
    rw [show ((z ^ 2 : ℝ) : ℂ) - 1 = ((z ^ 2 - 1 : ℝ) : ℂ) by push_cast; ring, Complex.norm_real] at this
    exact this
  · intro H k hk m hm
    rw [key k hk m hm]
    by_cases hkm : k = m
    · rw [if_pos hkm, if_pos hkm,
        show ((z ^ 2 : ℝ) : ℂ) - 1 = ((z ^ 2 - 1 : ℝ) : ℂ) by push_cast; ring, Complex.norm_real]
      exact H
    · rw [if_neg hkm, if_neg hkm, sub_zero, norm_zero]
      norm_num

/-- C32 is not true for all constructible channels: the trace check allows an error of `1e-5`, and the
sum of two channels that use most of that allowance is rejected with `AssertionError`. -/
theorem C32_tolerance_refuted :
    ∃ s, QChan.init false (scalOps (1 + 4 / 10 ^ 6)) 1 1 2 2 [] = .ok s ∧
      QChan.add s s = .error .assertion := by
  obtain ⟨s, hs⟩ := init_tp false (scalOps (1 + 4 / 10 ^ 6)) 1 1 2 2 [] (by decide) rfl rfl (by
    intro o ho
    rw [isTP_scalar o (1 + 4 / 10 ^ 6) (by rw [ho]; rfl) (by rw [ho]; rfl) (by rw [ho]; rfl)
      (by intro i _ j _; rw [ho]; rfl), abs_lt]
    constructor <;> norm_num)
  refine ⟨s, hs, ?_⟩
  obtain ⟨-, h2, h3, h4, h5, h6, h7, -⟩ := qchanInit_ok hs
  unfold QChan.add
  rw [h2, h3, h4, h5, h6, h7]
  have hcat : serialConcat (scalOps (1 + 4 / 10 ^ 6)) (scalOps (1 + 4 / 10 ^ 6)) =
      .ok ((scalOps (1 + 4 / 10 ^ 6)).compose (scalOps (1 + 4 / 10 ^ 6))) := by
    unfold serialConcat
    rw [if_neg]
    rintro ⟨-, -, h⟩
    exact h rfl
  rw [hcat]
  simp only [bind, Except.bind]
  refine init_not_tp _ _ 1 1 2 2 [] Nat.one_pos rfl rfl ?_
  intro o ho
  rw [isTP_scalar o ((1 + 4 / 10 ^ 6) ^ 2) (by rw [ho]; rfl) (by rw [ho]; rfl) (by rw [ho]; rfl) ?_, not_lt]
  · rw [le_abs]
    left
    norm_num
  · intro i hi j hj
    rw [ho]
    simp only [Arr3.compose, scalOps, Finset.sum_range_succ, Finset.sum_range_zero, zero_add]
    have hi' : i = 0 ∨ i = 1 := by omega
    have hj' : j = 0 ∨ j = 1 := by omega
    rcases hi' with rfl | rfl <;> rcases hj' with rfl | rfl <;> simp [pow_two]

/-! ### C26 -/

/-- What a successful `s * o` is. -/
theorem mul_inv (hs : QChan.init sp₁ ops₁ a₁ b₁ d₁ e₁ orth₁ = .ok s)
    (ho : QChan.init sp₂ ops₂ a₂ b₂ d₂ e₂ orth₂ = .ok o) (cs co : List QChan.Call) :
    QChan.mul (QChan.history s cs) (QChan.history o co) =
      QChan.init (sp₁ || sp₂) (ops₁.kron ops₂) 1 1 (d₁ * d₂) (e₁ * e₂) [] := by
  obtain ⟨-, h2, h3, -, h5, h6, h7, -, h9, h10, h11, -⟩ := qchanInit_ok hs
  obtain ⟨-, g2, g3, g4, -, g6, g7, -, g9, g10, g11, -⟩ := qchanInit_ok ho
  obtain ⟨p1, p2, p3, p4, p5, p6, p7⟩ := history_static s cs
  obtain ⟨q1, q2, q3, q4, q5, q6, q7⟩ := history_static o co
  unfold QChan.mul parallelConcat
  rw [p1, p2, p5, p6, q1, q2, q5, q6, h2, h3, h6, h7, g2, g3, g6, g7]

/-- C26.  `(A * B).channel(kron(rho, sigma), 1) = kron(A.channel(rho, 1), B.channel(sigma, 1))` whenever
the product is constructed; the number of operators multiplies. -/
theorem C26_parallel (hs : QChan.init sp₁ ops₁ a₁ b₁ d₁ e₁ orth₁ = .ok s)
    (ho : QChan.init sp₂ ops₂ a₂ b₂ d₂ e₂ orth₂ = .ok o) (cs co : List QChan.Call)
    (ht : QChan.mul (QChan.history s cs) (QChan.history o co) = .ok t) (c₁ c₂ c₃ : List QChan.Call)
    (h₁ : Spec.SafeUses sp₁ (c₁.map QChan.Call.uses ++ [1]))
    (h₂ : Spec.SafeUses sp₂ (c₂.map QChan.Call.uses ++ [1]))
    (h₃ : Spec.SafeUses (sp₁ || sp₂) (c₃.map QChan.Call.uses ++ [1])) (rho sigma : Arr ℂ)
    (hr : rho.rows = d₁ ^ a₁) (hc : rho.cols = d₁ ^ a₁)
    (hr' : sigma.rows = d₂ ^ a₂) (hc' : sigma.cols = d₂ ^ a₂) :
    t.numbKraus = s.numbKraus * o.numbKraus ∧
    ∃ x y z, (QChan.channel (QChan.history s c₁) rho 1 false).1 = .ok x ∧
      (QChan.channel (QChan.history o c₂) sigma 1 false).1 = .ok y ∧
      (QChan.channel (QChan.history t c₃) (rho.kron sigma) 1 false).1 = .ok z ∧
      Arr.Same z (x.kron y) := by
  rw [mul_inv hs ho cs co] at ht
  obtain ⟨-, gs, -, -, -, -, -, -, h9, h10, h11, -⟩ := qchanInit_ok hs
  obtain ⟨-, go, -, -, -, -, -, -, g9, g10, g11, -⟩ := qchanInit_ok ho
  obtain ⟨-, gt, -, -, -, -, -, -, k9, k10, k11, -⟩ := qchanInit_ok ht
  rw [pow_one] at k10 k11
  have kc : d₁ ^ a₁ * d₂ ^ a₂ = d₁ * d₂ := by rw [← k10, ← h10, ← g10]; rfl
  have kr : e₁ ^ b₁ * e₂ ^ b₂ = e₁ * e₂ := by rw [← k11, ← h11, ← g11]; rfl
  refine ⟨by unfold KrausObj.numbKraus; rw [gt, gs, go]; rfl, ?_⟩
  obtain ⟨x, x1, x2, x3, x4⟩ := api_channel_one hs c₁ h₁ rho hr hc
  obtain ⟨y, y1, y2, y3, y4⟩ := api_channel_one ho c₂ h₂ sigma hr' hc'
  obtain ⟨z, z1, z2, z3, z4⟩ := api_channel_one ht c₃ h₃ (rho.kron sigma)
    (by simp only [Arr.rows_kron, hr, hr', pow_one]; exact kc)
    (by simp only [Arr.cols_kron, hc, hc', pow_one]; exact kc)
  refine ⟨x, y, z, x1, y1, z1, ?_⟩
  rw [pow_one] at z2 z3
  rw [pow_one, pow_one] at z4
  rw [Arr.same_iff_mat, z2, z3, Arr.rows_kron, Arr.cols_kron, x2, x3, y2, y3, kr]
  refine ⟨rfl, rfl, ?_⟩
  have hlen : (ops₁.kron ops₂).len = ops₁.len * ops₂.len := rfl
  rw [z4, hlen]
  rw [← kc, ← kr, kron_ops ops₁ ops₂ ops₁.len ops₂.len (e₁ ^ b₁) (e₂ ^ b₂) (d₁ ^ a₁) (d₂ ^ a₂) rfl g11 g10,
    arr_kron_mat rho sigma _ _ _ _ hr' hc', arr_kron_mat x y _ _ _ _ y2 y3, Spec.applyKraus_kron, x4, y4]

/-- C26.  The product of two exactly trace preserving channels is exactly trace preserving. -/
theorem C26_trace_preserving (hs : QChan.init sp₁ ops₁ a₁ b₁ d₁ e₁ orth₁ = .ok s)
    (ho : QChan.init sp₂ ops₂ a₂ b₂ d₂ e₂ orth₂ = .ok o) (cs co : List QChan.Call)
    (ht : QChan.mul (QChan.history s cs) (QChan.history o co) = .ok t)
    (h₁ : Spec.TracePreserving (ops₁.ops ops₁.len (e₁ ^ b₁) (d₁ ^ a₁)))
    (h₂ : Spec.TracePreserving (ops₂.ops ops₂.len (e₂ ^ b₂) (d₂ ^ a₂))) :
    Spec.TracePreserving
      (t.kraus.ops t.kraus.len (e₁ ^ b₁ * e₂ ^ b₂) (d₁ ^ a₁ * d₂ ^ a₂)) := by
  rw [mul_inv hs ho cs co] at ht
  obtain ⟨-, go, -, -, -, -, -, -, g9, g10, g11, -⟩ := qchanInit_ok ho
  obtain ⟨-, gt, -⟩ := qchanInit_ok ht
  have hlen : (ops₁.kron ops₂).len = ops₁.len * ops₂.len := rfl
  rw [gt, hlen, kron_ops ops₁ ops₂ ops₁.len ops₂.len (e₁ ^ b₁) (e₂ ^ b₂) (d₁ ^ a₁) (d₂ ^ a₂) rfl g11 g10]
  exact Spec.tp_kron _ _ h₁ h₂

/-- C26.  `n` uses of a channel on a product of `n` matrices give the product of the `n` outputs. -/
theorem C26_product_state (hs : QChan.init sp₁ ops₁ a₁ b₁ d₁ e₁ orth₁ = .ok s) (n : ℕ) (hn : 1 ≤ n)
    (R : Fin n → Arr ℂ) (hR : ∀ t, (R t).rows = d₁ ^ a₁ ∧ (R t).cols = d₁ ^ a₁) (rho : Arr ℂ)
    (hr : rho.rows = (d₁ ^ a₁) ^ n) (hc : rho.cols = (d₁ ^ a₁) ^ n)
    (hprod : rho.mat ((d₁ ^ a₁) ^ n) ((d₁ ^ a₁) ^ n) =
      Spec.tensorProd fun t => (R t).mat (d₁ ^ a₁) (d₁ ^ a₁)) :
    ∃ (X : Fin n → Arr ℂ) (out : Arr ℂ), (∀ t, (QChan.channel s (R t) 1 false).1 = .ok (X t)) ∧
      (QChan.channel s rho n false).1 = .ok out ∧
      out.mat ((e₁ ^ b₁) ^ n) ((e₁ ^ b₁) ^ n) =
        Spec.tensorProd fun t => (X t).mat (e₁ ^ b₁) (e₁ ^ b₁) := by
  have hX : ∀ t, ∃ x, (QChan.channel s (R t) 1 false).1 = .ok x ∧ x.mat (e₁ ^ b₁) (e₁ ^ b₁) =
      Spec.applyKraus (ops₁.ops ops₁.len (e₁ ^ b₁) (d₁ ^ a₁)) ((R t).mat (d₁ ^ a₁) (d₁ ^ a₁)) := by
    intro t
    obtain ⟨x, x1, _, _, x4⟩ := api_channel_one hs [] ⟨by simp, by simp⟩ (R t) (hR t).1 (hR t).2
    exact ⟨x, x1, x4⟩
  choose X hX1 hX2 using hX
  obtain ⟨out, o1, _, _, o4⟩ := api_channel hs [] n ⟨by simpa using hn, by simp⟩ rho hr hc
  refine ⟨X, out, hX1, o1, ?_⟩
  rw [o4, hprod, Spec.applyKraus_tensor]
  simp only [hX2]

/-- C32.  Channels on one particle each: `A * B` is constructed, with the products of the dimensions. -/
theorem C32_mul_partial (hs : QChan.init sp₁ ops₁ 1 1 d₁ e₁ orth₁ = .ok s)
    (ho : QChan.init sp₂ ops₂ 1 1 d₂ e₂ orth₂ = .ok o) (cs co : List QChan.Call)
    (h₁ : Spec.TracePreserving (ops₁.ops ops₁.len (e₁ ^ 1) (d₁ ^ 1)))
    (h₂ : Spec.TracePreserving (ops₂.ops ops₂.len (e₂ ^ 1) (d₂ ^ 1))) :
    ∃ t, QChan.mul (QChan.history s cs) (QChan.history o co) = .ok t ∧
      QChan.inputDimension t = d₁ * d₂ ∧ QChan.outputDimension t = e₁ * e₂ := by
  obtain ⟨-, gs, -, -, -, -, -, -, h9, h10, h11, -⟩ := qchanInit_ok hs
  obtain ⟨-, go, -, -, -, -, -, -, g9, g10, g11, -⟩ := qchanInit_ok ho
  rw [pow_one] at h10 h11 g10 g11
  rw [pow_one, pow_one] at h₁ h₂
  have hlen : (ops₁.kron ops₂).len = ops₁.len * ops₂.len := rfl
  obtain ⟨t, ht⟩ := init_exact (sp₁ || sp₂) (ops₁.kron ops₂) 1 1 (d₁ * d₂) (e₁ * e₂) []
    (Nat.mul_pos h9 g9) (by rw [pow_one, ← h10, ← g10]; rfl) (by rw [pow_one, ← h11, ← g11]; rfl) (by
      rw [hlen, pow_one, pow_one, kron_ops ops₁ ops₂ ops₁.len ops₂.len e₁ e₂ d₁ d₂ rfl g11 g10]
      exact Spec.tp_kron _ _ h₁ h₂)
  refine ⟨t, (mul_inv hs ho cs co).trans ht, ?_, ?_⟩
  · obtain ⟨t1, -, -, t4, t5, t6, t7, -⟩ := qchanInit_ok ht
    unfold QChan.inputDimension
    rw [t4, t6, t1.cur, pow_one, pow_one]
  · obtain ⟨t1, -, -, t4, t5, t6, t7, -⟩ := qchanInit_ok ht
    unfold QChan.outputDimension
    rw [t5, t7, t1.cur, pow_one, pow_one]

/-- C26 and C32 apply to the dephasing channel with itself. -/
example : ∃ s t, QChan.init false dephOps 1 1 2 2 [] = .ok s ∧ QChan.mul s s = .ok t ∧
    QChan.inputDimension t = 4 := by
  obtain ⟨s, hs⟩ := deph_ok false []
  obtain ⟨t, ht, h1, -⟩ := C32_mul_partial hs hs [] [] dephOps_tp dephOps_tp
  exact ⟨s, t, hs, ht, h1⟩

/-- C32 is false for `*`: the product of channels on several particles is never constructed, because the
dimensions of a single particle are multiplied instead of the full dimensions. -/
theorem C32_mul_refuted (hs : QChan.init sp₁ ops₁ a₁ b₁ d₁ e₁ orth₁ = .ok s)
    (ho : QChan.init sp₂ ops₂ a₂ b₂ d₂ e₂ orth₂ = .ok o) (cs co : List QChan.Call)
    (h : d₁ ^ a₁ * d₂ ^ a₂ ≠ d₁ * d₂) :
    QChan.mul (QChan.history s cs) (QChan.history o co) = .error .assertion := by
  obtain ⟨-, gs, -, -, -, -, -, -, h9, h10, h11, -⟩ := qchanInit_ok hs
  obtain ⟨-, go, -, -, -, -, -, -, g9, g10, g11, -⟩ := qchanInit_ok ho
  rw [mul_inv hs ho cs co]
  refine (init_bad_shape _ _ 1 1 _ _ [] (Nat.mul_pos h9 g9) (Or.inl ?_)).2
  rw [pow_one]
  intro hh
  apply h
  rw [← hh, ← h10, ← g10]
  rfl

/-- The identity of `m` qubits. -/
def idOps (m : ℕ) : Arr3 ℂ := ⟨1, 2 ^ m, 2 ^ m, fun _ i j => if i = j then 1 else 0⟩

theorem idOps_tp (m : ℕ) : Spec.TracePreserving ((idOps m).ops (idOps m).len (2 ^ m) (2 ^ m)) := by
  unfold Spec.TracePreserving
  change ∑ i : Fin 1, ((idOps m).ops 1 (2 ^ m) (2 ^ m) i)ᴴ * (idOps m).ops 1 (2 ^ m) (2 ^ m) i = 1
  have : ∀ i, (idOps m).ops 1 (2 ^ m) (2 ^ m) i = 1 := by
    intro i
    ext x y
    simp only [idOps, Arr3.ops, Matrix.one_apply, Fin.ext_iff]
  simp [this]

/-- The two-qubit identity channel is a witness: it exists, and its product with itself is rejected. -/
example : ∃ s, QChan.init false (idOps 2) 2 2 2 2 [] = .ok s ∧ QChan.mul s s = .error .assertion := by
  obtain ⟨s, hs⟩ := init_exact false (idOps 2) 2 2 2 2 [] (by decide) rfl rfl (idOps_tp 2)
  exact ⟨s, hs, C32_mul_refuted hs hs [] [] (by norm_num)⟩

/-- C32 for `DenseKraus + DenseKraus` and `SparseKraus + SparseKraus`: the constructed object is asked for the input particles of the left
operand, so the sum fails with `AssertionError` whenever that gives another input dimension, although the
dimensions match. -/
theorem C32_kraus_add_refuted {kind : Bool} (hs : QChan.init kind ops₁ a₁ b₁ d₁ e₁ orth₁ = .ok s)
    (ho : QChan.init kind ops₂ a₂ b₂ d₂ e₂ orth₂ = .ok o) (hmid : d₁ ^ a₁ = e₂ ^ b₂)
    (h : d₂ ^ a₂ ≠ d₂ ^ a₁) : s.add o = .error .assertion := by
  obtain ⟨-, h2, h3, h4, h5, h6, h7, -, h9, h10, h11, -⟩ := qchanInit_ok hs
  obtain ⟨-, g2, g3, g4, g5, g6, g7, -, g9, g10, g11, -⟩ := qchanInit_ok ho
  unfold KrausObj.add
  rw [h2, h3, h4, h6, h7, g2, g3, g5, g6, g7]
  have hcat : serialConcat ops₁ ops₂ = .ok (ops₁.compose ops₂) := by
    unfold serialConcat
    rw [if_neg]
    rintro ⟨-, -, hne⟩
    exact hne (by rw [g11, h10, hmid])
  rw [hcat]
  simp only [if_true, pyAssert, bind, Except.bind]
  rw [if_neg (show ¬ d₁ ^ a₁ ≠ e₂ ^ b₂ by rw [hmid]; simp)]
  cases kind <;> simp only [Bool.false_eq_true, if_false, if_true]
  all_goals
  exact (init_bad_shape _ (ops₁.compose ops₂) a₁ b₂ d₂ e₁ [] (Nat.mul_pos h9 g9)
    (Or.inl (by rw [show (ops₁.compose ops₂).cols = ops₂.cols from rfl, g10]; exact h))).1

/-- C32 for `DenseKraus + DenseKraus` and `SparseKraus + SparseKraus`: with equal numbers of particles everywhere and matching dimensions
the sum is constructed and holds the composed operators. -/
theorem C32_kraus_add_partial {kind : Bool} (hs : QChan.init kind ops₁ a₁ a₁ d₁ e₁ orth₁ = .ok s)
    (ho : QChan.init kind ops₂ a₁ a₁ d₂ e₂ orth₂ = .ok o) (hmid : d₁ ^ a₁ = e₂ ^ a₁) :
    ∃ t, s.add o = .ok t ∧ t.kraus = ops₁.compose ops₂ ∧ t.dimIn ^ t.numIn = d₂ ^ a₁ ∧
      t.dimOut ^ t.numOut = e₁ ^ a₁ := by
  obtain ⟨-, h2, h3, h4, h5, h6, h7, -, h9, h10, h11, -⟩ := qchanInit_ok hs
  obtain ⟨-, g2, g3, g4, g5, g6, g7, -, g9, g10, g11, -⟩ := qchanInit_ok ho
  have hcat : serialConcat ops₁ ops₂ = .ok (ops₁.compose ops₂) := by
    unfold serialConcat
    rw [if_neg]
    rintro ⟨-, -, hne⟩
    exact hne (by rw [g11, h10, hmid])
  obtain ⟨x, hx⟩ := tensordot_conj (ops₁.compose ops₂)
  have hinit : ∃ t, KrausObj.init kind (ops₁.compose ops₂) a₁ a₁ d₂ e₁ [] = .ok t := by
    unfold KrausObj.init
    simp only [pyAssert, if_pos (Or.inr g10 : (ops₁.compose ops₂).len = 0 ∨ (ops₁.compose ops₂).cols = d₂ ^ a₁),
      if_pos (Or.inr h11 : (ops₁.compose ops₂).len = 0 ∨ (ops₁.compose ops₂).rows = e₁ ^ a₁),
      KrausObj.exchange, ite_self, hx]
    exact ⟨_, rfl⟩
  obtain ⟨t, ht⟩ := hinit
  obtain ⟨-, t2, -, t4, t5, t6, t7, -⟩ := krausInit_ok ht
  refine ⟨t, ?_, t2, by rw [t4, t6], by rw [t5, t7]⟩
  unfold KrausObj.add
  rw [h2, h3, h4, h6, h7, g2, g3, g5, g6, g7, hcat]
  simp only [if_true, pyAssert, bind, Except.bind]
  rw [if_neg (show ¬ d₁ ^ a₁ ≠ e₂ ^ a₁ by rw [hmid]; simp)]
  cases kind <;> simp only [Bool.false_eq_true, if_false, if_true]
  all_goals
  exact ht

/-- C32 for sums of objects of different kinds: a sparse object refuses a dense one with `AssertionError`; a dense object
looks at the dimensions first, so that a sparse one gives `TypeError` if they differ and `AssertionError` otherwise. -/
theorem C32_kraus_add_kinds (hs : s.sparse = true) (ho : o.sparse = false) :
    s.add o = .error .assertion ∧
      o.add s = .error (if o.dimIn ^ o.numIn ≠ s.dimOut ^ s.numOut then .type else .assertion) := by
  constructor
  · unfold KrausObj.add pyAssert
    rw [hs, ho]
    simp [bind, Except.bind]
  · unfold KrausObj.add pyAssert
    rw [hs, ho]
    by_cases h : o.dimIn ^ o.numIn ≠ s.dimOut ^ s.numOut
    · simp [h]
    · rw [if_neg h, if_neg h]
      simp [bind, Except.bind]

/-- C32 for products of objects of different kinds: `AssertionError`, whichever is on the left. -/
theorem C32_kraus_mul_kinds (h : s.sparse ≠ o.sparse) : s.mul o = .error .assertion := by
  unfold KrausObj.mul pyAssert
  rw [if_neg (Ne.symm h)]
  rfl

/-- C32 for `DenseKraus * DenseKraus` and `SparseKraus * SparseKraus`: for one particle on each side the product is constructed,
holds the tensor products of the operators, and its dimensions are the products. -/
theorem C32_kraus_mul_partial {kind : Bool} (hs : QChan.init kind ops₁ 1 1 d₁ e₁ orth₁ = .ok s)
    (ho : QChan.init kind ops₂ 1 1 d₂ e₂ orth₂ = .ok o) :
    ∃ t, s.mul o = .ok t ∧ t.kraus = ops₁.kron ops₂ ∧ t.sparse = kind ∧ t.dimIn ^ t.numIn = d₁ * d₂ ∧
      t.dimOut ^ t.numOut = e₁ * e₂ := by
  obtain ⟨-, h2, h3, h4, h5, h6, h7, -, h9, h10, h11, -⟩ := qchanInit_ok hs
  obtain ⟨-, g2, g3, g4, g5, g6, g7, -, g9, g10, g11, -⟩ := qchanInit_ok ho
  obtain ⟨x, hx⟩ := tensordot_conj (ops₁.kron ops₂)
  have c1 : (ops₁.kron ops₂).cols = (d₂ * d₁) ^ 1 := by
    show ops₁.cols * ops₂.cols = _
    rw [h10, g10]; ring
  have c2 : (ops₁.kron ops₂).rows = (e₂ * e₁) ^ 1 := by
    show ops₁.rows * ops₂.rows = _
    rw [h11, g11]; ring
  have hinit : ∃ t, KrausObj.init kind (ops₁.kron ops₂) 1 1 (d₂ * d₁) (e₂ * e₁) [] = .ok t := by
    unfold KrausObj.init
    simp only [pyAssert, if_pos (Or.inr c1 : (ops₁.kron ops₂).len = 0 ∨ (ops₁.kron ops₂).cols = (d₂ * d₁) ^ 1),
      if_pos (Or.inr c2 : (ops₁.kron ops₂).len = 0 ∨ (ops₁.kron ops₂).rows = (e₂ * e₁) ^ 1),
      KrausObj.exchange, ite_self, hx]
    exact ⟨_, rfl⟩
  obtain ⟨t, ht⟩ := hinit
  obtain ⟨-, t2, t3, t4, t5, t6, t7, -⟩ := krausInit_ok ht
  refine ⟨t, ?_, t2, t3, by rw [t4, t6, pow_one, mul_comm], by rw [t5, t7, pow_one, mul_comm]⟩
  unfold KrausObj.mul pyAssert
  rw [if_pos (by rw [h3, g3])]
  rw [h2, h3, h6, h7, g2, g6, g7]
  exact ht

/-- C32 for `DenseKraus * DenseKraus` and `SparseKraus * SparseKraus`: the numbers of particles are set to one without changing
the dimensions of a particle, so the product fails with `AssertionError` when that gives another dimension. -/
theorem C32_kraus_mul_refuted {kind : Bool} (hs : QChan.init kind ops₁ a₁ b₁ d₁ e₁ orth₁ = .ok s)
    (ho : QChan.init kind ops₂ a₂ b₂ d₂ e₂ orth₂ = .ok o) (h : d₁ ^ a₁ * d₂ ^ a₂ ≠ d₁ * d₂ ∨ e₁ ^ b₁ * e₂ ^ b₂ ≠ e₁ * e₂) :
    s.mul o = .error .assertion := by
  obtain ⟨-, h2, h3, h4, h5, h6, h7, -, h9, h10, h11, -⟩ := qchanInit_ok hs
  obtain ⟨-, g2, g3, g4, g5, g6, g7, -, g9, g10, g11, -⟩ := qchanInit_ok ho
  unfold KrausObj.mul
  rw [show pyAssert (o.sparse = s.sparse) = .ok () by unfold pyAssert; rw [if_pos (by rw [h3, g3])], ok_bind',
    h2, h3, h6, h7, g2, g6, g7]
  refine (init_bad_shape kind (ops₁.kron ops₂) 1 1 (d₂ * d₁) (e₂ * e₁) [] (Nat.mul_pos h9 g9) ?_).1
  rcases h with h | h
  · left
    show ops₁.cols * ops₂.cols ≠ _
    rw [h10, g10, pow_one, mul_comm d₂]
    exact h
  · right
    show ops₁.rows * ops₂.rows ≠ _
    rw [h11, g11, pow_one, mul_comm e₂]
    exact h

/-- The partial trace of the second of two qubits, with operators `1 ⊗ <k|`. -/
def ptraceOps : Arr3 ℂ := ⟨2, 2, 4, fun k i j => if j = 2 * i + k then 1 else 0⟩

theorem ptraceOps_tp : Spec.TracePreserving (ptraceOps.ops ptraceOps.len (2 ^ 1) (2 ^ 2)) := by
  unfold Spec.TracePreserving
  change ∑ i : Fin 2, (ptraceOps.ops 2 2 4 i)ᴴ * ptraceOps.ops 2 2 4 i = (1 : Matrix (Fin 4) (Fin 4) ℂ)
  ext i j
  simp only [ptraceOps, Matrix.sum_apply, Matrix.mul_apply, conjTranspose_apply, Arr3.ops, Matrix.one_apply]
  fin_cases i <;> fin_cases j <;> simp [Fin.sum_univ_two]

/-- A witness for `C32_kraus_add_refuted`: the one-qubit identity after the partial trace of two qubits;
`AnalyticQChan` constructs the same sum. -/
example : ∃ s o t, QChan.init false (idOps 1) 1 1 2 2 [] = .ok s ∧
    QChan.init false ptraceOps 2 1 2 2 [] = .ok o ∧ s.add o = .error .assertion ∧
    QChan.add s o = .ok t := by
  obtain ⟨s, hs⟩ := init_exact false (idOps 1) 1 1 2 2 [] (by decide) rfl rfl (idOps_tp 1)
  obtain ⟨o, ho⟩ := init_exact false ptraceOps 2 1 2 2 [] (by decide) rfl rfl ptraceOps_tp
  obtain ⟨t, ht, -⟩ := C32_add hs ho [] [] (idOps_tp 1) ptraceOps_tp rfl
  exact ⟨s, o, t, hs, ho, C32_kraus_add_refuted hs ho rfl (by norm_num), ht⟩

/-- Witnesses for `C32_kraus_mul_partial` and `C32_kraus_mul_refuted`: the product of one-qubit identities is constructed,
that of a two-qubit channel and a one-qubit identity is not. -/
example : ∃ s o t, QChan.init false (idOps 1) 1 1 2 2 [] = .ok s ∧ QChan.init false ptraceOps 2 1 2 2 [] = .ok o ∧
    s.mul s = .ok t ∧ t.dimIn ^ t.numIn = 4 ∧ o.mul s = .error .assertion := by
  obtain ⟨s, hs⟩ := init_exact false (idOps 1) 1 1 2 2 [] (by decide) rfl rfl (idOps_tp 1)
  obtain ⟨o, ho⟩ := init_exact false ptraceOps 2 1 2 2 [] (by decide) rfl rfl ptraceOps_tp
  obtain ⟨t, ht, -, -, h4, -⟩ := C32_kraus_mul_partial hs hs
  exact ⟨s, o, t, hs, ho, ht, h4, C32_kraus_mul_refuted ho hs (Or.inl (by norm_num))⟩

end PyQ
