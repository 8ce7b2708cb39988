import Verif.Props.Channel

/-!
# C83: sums and products with a Choi matrix on the right, for any numbers of particles

`B.channel` itself is wrong when `B` has different numbers of input and output particles (C118).  The sums and products do not
use it, and are right for these too.  The example at the end of `Props/Channel` meets the hypotheses.
-/

namespace PyQ

open Matrix
open scoped ComplexOrder

variable {chk : QutipChecks} {sp₁ sp₂ : Bool} {ops₁ : Arr3 ℂ} {a₁ b₁ d₁ e₁ a₂ b₂ d₂ e₂ : ℕ} {orth₁ : List ℕ} {s : KrausObj}
  {C : Arr ℂ} {o : ChoiObj} {eigh : Eigh} {t : Chan}

/-- C83.  The sum `A + B` for any numbers of input and output particles of `B`: composition with the channel of the Choi matrix
`C - R`, where `0 ≤ R ≤ 1e-8`, and `R = 0` if no eigenvalue is in `(0, 1e-8]`. -/
theorem C83_add_any (heigh : eigh.Correct) (hs : QChan.init sp₁ ops₁ a₁ b₁ d₁ e₁ orth₁ = .ok s) (cs : List QChan.Call)
    (ho : ChoiObj.init chk C a₂ b₂ d₂ e₂ = .ok o) (hsq : C.rows = C.cols)
    (hpos : (C.mat (d₂ ^ a₂ * e₂ ^ b₂) (d₂ ^ a₂ * e₂ ^ b₂)).PosSemidef)
    (ht : Chan.add chk eigh (Chan.history ⟨sp₁, .kraus s⟩ cs) ⟨sp₂, .choi o⟩ = .ok t) :
    ∃ R : Matrix (Fin (d₂ ^ a₂ * e₂ ^ b₂)) (Fin (d₂ ^ a₂ * e₂ ^ b₂)) ℂ,
      R.PosSemidef ∧ (((1 / 10 ^ 8 : ℝ) : ℂ) • (1 : Matrix _ _ ℂ) - R).PosSemidef ∧
      ((∀ i < d₂ ^ a₂ * e₂ ^ b₂, (eigh C).1 i ≤ 0 ∨ (1 : ℝ) / 10 ^ 8 < (eigh C).1 i) → R = 0) ∧
      ∀ (c₂ c₃ : List QChan.Call), Spec.SafeUses sp₁ (c₂.map QChan.Call.uses ++ [1]) →
        Spec.SafeUses (sp₁ || sp₂) (c₃.map QChan.Call.uses ++ [1]) →
        ∀ rho x : Arr ℂ, rho.rows = d₂ ^ a₂ → rho.cols = d₂ ^ a₂ → x.rows = e₂ ^ b₂ → x.cols = e₂ ^ b₂ →
          x.mat (e₂ ^ b₂) (e₂ ^ b₂) = Spec.choiChannel (C.mat (d₂ ^ a₂ * e₂ ^ b₂) (d₂ ^ a₂ * e₂ ^ b₂) - R)
            (rho.mat (d₂ ^ a₂) (d₂ ^ a₂)) →
          ∃ y z, (Chan.channel (Chan.history ⟨sp₁, .kraus s⟩ c₂) x 1 false).1 = .ok y ∧
            (Chan.channel (t.history c₃) rho 1 false).1 = .ok z ∧ Arr.Same z y := by
  obtain ⟨hmid, A, k, R, rfl, hk, x3, x4, x5, r1, r2, r3⟩ := add_choi heigh hs cs ho hsq hpos ht
  refine ⟨R, r1, r2, r3, ?_⟩
  intro c₂ c₃ h₂ h₃ rho x hr hc hxr hxc hx
  obtain ⟨-, -, -, -, -, -, -, -, h9, h10, h11, -⟩ := qchanInit_ok hs
  obtain ⟨y, y1, y2, y3, y4⟩ := api_channel_one hs c₂ h₂ x (by rw [hmid]; exact hxr) (by rw [hmid]; exact hxc)
  obtain ⟨z, z1, z2, z3, z4⟩ := api_channel_one hk c₃ h₃ rho hr hc
  refine ⟨y, z, y1, z1, ?_⟩
  rw [Arr.same_iff_mat, z2, z3, y2, y3]
  refine ⟨rfl, rfl, ?_⟩
  rw [← x5, Spec.choiChannel_choi] at hx
  have hlen : (ops₁.compose A).len = ops₁.len * A.len := rfl
  rw [z4, hlen, compose_ops ops₁ A ops₁.len A.len (e₁ ^ b₁) (d₁ ^ a₁) (d₂ ^ a₂) h10 rfl, Spec.applyKraus_serial, y4]
  congr 1
  rw [hmid, ← hx]

/-- C83.  The product `A * B` for any numbers of input and output particles of `B`: on products it acts as `A` and the channel of
the Choi matrix `C - R`, where `0 ≤ R ≤ 1e-8`, and `R = 0` if no eigenvalue is in `(0, 1e-8]`. -/
theorem C83_mul_any (heigh : eigh.Correct) (hs : QChan.init sp₁ ops₁ a₁ b₁ d₁ e₁ orth₁ = .ok s) (cs : List QChan.Call)
    (ho : ChoiObj.init chk C a₂ b₂ d₂ e₂ = .ok o) (hsq : C.rows = C.cols)
    (hpos : (C.mat (d₂ ^ a₂ * e₂ ^ b₂) (d₂ ^ a₂ * e₂ ^ b₂)).PosSemidef)
    (ht : Chan.mul chk eigh (Chan.history ⟨sp₁, .kraus s⟩ cs) ⟨sp₂, .choi o⟩ = .ok t) :
    ∃ R : Matrix (Fin (d₂ ^ a₂ * e₂ ^ b₂)) (Fin (d₂ ^ a₂ * e₂ ^ b₂)) ℂ,
      R.PosSemidef ∧ (((1 / 10 ^ 8 : ℝ) : ℂ) • (1 : Matrix _ _ ℂ) - R).PosSemidef ∧
      ((∀ i < d₂ ^ a₂ * e₂ ^ b₂, (eigh C).1 i ≤ 0 ∨ (1 : ℝ) / 10 ^ 8 < (eigh C).1 i) → R = 0) ∧
      ∀ (c₂ c₃ : List QChan.Call), Spec.SafeUses sp₁ (c₂.map QChan.Call.uses ++ [1]) →
        Spec.SafeUses (sp₁ || sp₂) (c₃.map QChan.Call.uses ++ [1]) →
        ∀ rho sigma y : Arr ℂ, rho.rows = d₁ ^ a₁ → rho.cols = d₁ ^ a₁ → sigma.rows = d₂ ^ a₂ → sigma.cols = d₂ ^ a₂ →
          y.rows = e₂ ^ b₂ → y.cols = e₂ ^ b₂ →
          y.mat (e₂ ^ b₂) (e₂ ^ b₂) = Spec.choiChannel (C.mat (d₂ ^ a₂ * e₂ ^ b₂) (d₂ ^ a₂ * e₂ ^ b₂) - R)
            (sigma.mat (d₂ ^ a₂) (d₂ ^ a₂)) →
          ∃ x z, (Chan.channel (Chan.history ⟨sp₁, .kraus s⟩ c₂) rho 1 false).1 = .ok x ∧
            (Chan.channel (t.history c₃) (rho.kron sigma) 1 false).1 = .ok z ∧ Arr.Same z (x.kron y) := by
  obtain ⟨R, r1, r2, r3, hA⟩ := choi_krausArray (sp := sp₂) eigh heigh ho hsq hpos
  rw [chanMul_eq hs] at ht
  rcases hA with ⟨A, x1, g9, g11, g10, x5⟩ | ⟨hA, -⟩
  swap
  · rw [hA] at ht
    cases ht
  rw [x1] at ht
  obtain ⟨rfl, -⟩ := choiInit_ok ho
  simp only [bind, Except.bind, Chan.dimIn, Chan.dimOut] at ht
  rcases hk : QChan.init (sp₁ || sp₂) (ops₁.kron A) 1 1 (d₁ * d₂) (e₁ * e₂) [] with x | k
  · rw [hk] at ht; cases ht
  rw [hk] at ht
  simp only [pure, Except.pure] at ht
  injection ht with ht
  subst ht
  refine ⟨R, r1, r2, r3, ?_⟩
  intro c₂ c₃ h₂ h₃ rho sigma y hr hc hr' hc' y2 y3 y4
  obtain ⟨-, -, -, -, -, -, -, -, h9, h10, h11, -⟩ := qchanInit_ok hs
  obtain ⟨-, -, -, -, -, -, -, -, k9, k10, k11, -⟩ := qchanInit_ok hk
  rw [pow_one] at k10 k11
  have kc : d₁ ^ a₁ * d₂ ^ a₂ = d₁ * d₂ := by rw [← k10, ← h10, ← g10]; rfl
  have kr : e₁ ^ b₁ * e₂ ^ b₂ = e₁ * e₂ := by rw [← k11, ← h11, ← g11]; rfl
  obtain ⟨x, w1, w2, w3, w4⟩ := api_channel_one hs c₂ h₂ rho hr hc
  obtain ⟨z, z1, z2, z3, z4⟩ := api_channel_one hk c₃ h₃ (rho.kron sigma)
    (by simp only [Arr.rows_kron, hr, hr', pow_one]; exact kc)
    (by simp only [Arr.cols_kron, hc, hc', pow_one]; exact kc)
  refine ⟨x, z, w1, z1, ?_⟩
  rw [pow_one] at z2 z3
  rw [pow_one, pow_one] at z4
  rw [Arr.same_iff_mat, z2, z3, Arr.rows_kron, Arr.cols_kron, w2, w3, y2, y3, kr]
  refine ⟨rfl, rfl, ?_⟩
  rw [← x5, Spec.choiChannel_choi] at y4
  have hlen : (ops₁.kron A).len = ops₁.len * A.len := rfl
  rw [z4, hlen]
  rw [← kc, ← kr, kron_ops ops₁ A ops₁.len A.len (e₁ ^ b₁) (e₂ ^ b₂) (d₁ ^ a₁) (d₂ ^ a₂) rfl g11 g10,
    arr_kron_mat rho sigma _ _ _ _ hr' hc', arr_kron_mat x y _ _ _ _ y2 y3, Spec.applyKraus_kron, w4, y4]

end PyQ
