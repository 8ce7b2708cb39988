import Verif.Lemmas.RateLaws
import Verif.Props.Rate
import Verif.Props.Degradable

/-! # C127, C128: channels side by side and noise before a channel, for every number of uses -/

namespace PyQ

open Matrix Spec
open scoped ComplexOrder

namespace Spec

/-- The base `p * q` digits of `x` are pairs: the base `p` digits of `u` and the base `q` digits of `w`, place by place. -/
def Sides {p q n : ℕ} (x : Fin ((p * q) ^ n)) (u : Fin (p ^ n)) (w : Fin (q ^ n)) : Prop :=
  ∀ t, (digit x t).val = (digit u t).val * q + (digit w t).val

/-- `Q n` is, up to the cut-off of small eigenvalues, the best coherent information of `n` uses of a channel with `l` operators
from dimension `N` to dimension `M`: `coherent_information` exceeds it for no state and comes within every `δ` of it. -/
def BestValue (sp : Bool) (o : KrausObj) (l N M : ℕ) (Q : ℕ → ℝ) : Prop :=
  ∀ (eig : Eigvalsh), eig.Correct → ∀ (c : List QChan.Call) (n : ℕ), SafeUses sp (c.map QChan.Call.uses ++ [n]) →
    (∀ rho : Arr ℂ, rho.rows = N ^ n → rho.cols = N ^ n → IsDensity (rho.mat (N ^ n) (N ^ n)) →
      ∃ v, (QChan.coherentInformation eig (QChan.history o c) rho n false).1 = .ok v ∧ v ≤ Q n + (l ^ n : ℕ) * (4 / 10 ^ 9)) ∧
    ∀ δ > 0, ∃ rho : Arr ℂ, rho.rows = N ^ n ∧ rho.cols = N ^ n ∧ IsDensity (rho.mat (N ^ n) (N ^ n)) ∧
      ∃ v, (QChan.coherentInformation eig (QChan.history o c) rho n false).1 = .ok v ∧ Q n - δ - (M ^ n : ℕ) * (4 / 10 ^ 9) ≤ v

/-- `C` is the limit of the values per use, and no number of uses exceeds it. -/
def RateOf (Q : ℕ → ℝ) (C : ℝ) : Prop :=
  (∀ n, 1 ≤ n → Q n / n ≤ C) ∧ Filter.Tendsto (fun n : ℕ => Q n / n) Filter.atTop (nhds C)

end Spec

theorem sides_unzip {p q n : ℕ} (x : Fin ((p * q) ^ n)) : Sides x (unzip p q n x).divNat (unzip p q n x).modNat := by
  intro t
  rw [unzip_div, unzip_mod]
  exact (Nat.div_add_mod' _ _).symm

theorem sides_eq {p q n : ℕ} {x : Fin ((p * q) ^ n)} {u : Fin (p ^ n)} {w : Fin (q ^ n)} (h : Sides x u w) :
    (unzip p q n x).divNat = u ∧ (unzip p q n x).modNat = w := by
  constructor <;> refine digit_injective (funext fun t => Fin.ext ?_)
  · rw [unzip_div]
    show (digit x t).val / q = _
    rw [h t, mul_comm, Nat.mul_add_div (Nat.pos_of_ne_zero fun h0 => by subst h0; exact absurd (digit w t).2 (by simp)),
      Nat.div_eq_of_lt (digit w t).2, add_zero]
  · rw [unzip_mod]
    show (digit x t).val % q = _
    rw [h t, mul_comm, Nat.mul_add_mod, Nat.mod_eq_of_lt (digit w t).2]

theorem sides_mat {p q n : ℕ} {rho sigma tau : Arr ℂ}
    (hprod : ∀ (x y : Fin ((p * q) ^ n)) (u v : Fin (p ^ n)) (w z : Fin (q ^ n)), Sides x u w → Sides y v z →
      tau.get x y = rho.get u v * sigma.get w z) :
    tau.mat ((p * q) ^ n) ((p * q) ^ n) =
      (kron (rho.mat (p ^ n) (p ^ n)) (sigma.mat (q ^ n) (q ^ n))).submatrix (unzip p q n) (unzip p q n) := by
  ext x y
  exact hprod x y _ _ _ _ (sides_unzip x) (sides_unzip y)

theorem bestInfo_bestValue {sp : Bool} {ops : Arr3 ℂ} {a b d e : ℕ} {orth : List ℕ} {o : KrausObj}
    (h : QChan.init sp ops a b d e orth = .ok o) (ho : sp = true ∨ orth = [])
    (htp : TracePreserving (ops.ops ops.len (e ^ b) (d ^ a))) (hd : 0 < d) :
    BestValue sp o ops.len (d ^ a) (e ^ b) (bestInfo (ops.ops ops.len (e ^ b) (d ^ a))) := by
  have hb : 0 < d ^ a := by positivity
  intro eig heig c n hs
  constructor
  · intro rho hr hc hrho
    obtain ⟨v, v0, v1, -⟩ := api_info heig h ho htp c n hs rho hr hc hrho
    have := le_bestInfo htp n hrho
    exact ⟨v, v0, by linarith⟩
  · intro δ hδ
    obtain ⟨ρ, hρ, hn⟩ := bestInfo_near (K := ops.ops ops.len (e ^ b) (d ^ a)) hb n hδ
    have hm : (Arr.ofMat ρ).mat ((d ^ a) ^ n) ((d ^ a) ^ n) = ρ := Arr.ofMat_mat ρ
    obtain ⟨v, v0, -, v2⟩ := api_info heig h ho htp c n hs (Arr.ofMat ρ) rfl rfl (by rw [hm]; exact hρ)
    rw [hm] at v2
    exact ⟨Arr.ofMat ρ, rfl, rfl, by rw [hm]; exact hρ, v, v0, by linarith⟩

/-! ### C127: side by side -/

section Side

variable {sp₁ sp₂ : Bool} {ops₁ ops₂ : Arr3 ℂ} {d₁ e₁ d₂ e₂ : ℕ} {orth₁ orth₂ : List ℕ} {s o t : KrausObj}

/-- **C127 (output)**.  `n` uses of `A * B` on an `n`-use state of `A` next to an `n`-use state of `B`, regrouped use by use, give
the output of `n` uses of `A` next to that of `n` uses of `B`, also for states that are correlated between the uses. -/
theorem C127_channel (hs : QChan.init sp₁ ops₁ 1 1 d₁ e₁ orth₁ = .ok s) (ho : QChan.init sp₂ ops₂ 1 1 d₂ e₂ orth₂ = .ok o)
    (cs co : List QChan.Call) (ht : QChan.mul (QChan.history s cs) (QChan.history o co) = .ok t)
    (c c₁ c₂ : List QChan.Call) (n : ℕ) (hsf : SafeUses (sp₁ || sp₂) (c.map QChan.Call.uses ++ [n]))
    (hsf₁ : SafeUses sp₁ (c₁.map QChan.Call.uses ++ [n])) (hsf₂ : SafeUses sp₂ (c₂.map QChan.Call.uses ++ [n])) (rho sigma tau : Arr ℂ)
    (hr : rho.rows = d₁ ^ n) (hc : rho.cols = d₁ ^ n) (hr' : sigma.rows = d₂ ^ n) (hc' : sigma.cols = d₂ ^ n)
    (hr'' : tau.rows = (d₁ * d₂) ^ n) (hc'' : tau.cols = (d₁ * d₂) ^ n)
    (hprod : ∀ (x y : Fin ((d₁ * d₂) ^ n)) (u v : Fin (d₁ ^ n)) (w z : Fin (d₂ ^ n)), Sides x u w → Sides y v z →
      tau.get x y = rho.get u v * sigma.get w z) :
    ∃ X Y Z, (QChan.channel (QChan.history s c₁) rho n false).1 = .ok X ∧ (QChan.channel (QChan.history o c₂) sigma n false).1 = .ok Y ∧
      (QChan.channel (QChan.history t c) tau n false).1 = .ok Z ∧ Z.rows = (e₁ * e₂) ^ n ∧ Z.cols = (e₁ * e₂) ^ n ∧
      ∀ (x y : Fin ((e₁ * e₂) ^ n)) (u v : Fin (e₁ ^ n)) (w z : Fin (e₂ ^ n)), Sides x u w → Sides y v z →
        Z.get x y = X.get u v * Y.get w z := by
  have hti := (mul_inv hs ho cs co).symm.trans ht
  obtain ⟨-, -, -, -, -, -, -, -, g9, g10, g11, -⟩ := qchanInit_ok ho
  rw [pow_one] at g10 g11
  obtain ⟨X, X0, X1, X2, X3⟩ := api_channel hs c₁ n hsf₁ rho (by rw [pow_one]; exact hr) (by rw [pow_one]; exact hc)
  obtain ⟨Y, Y0, Y1, Y2, Y3⟩ := api_channel ho c₂ n hsf₂ sigma (by rw [pow_one]; exact hr') (by rw [pow_one]; exact hc')
  obtain ⟨Z, Z0, Z1, Z2, Z3⟩ := api_channel hti c n hsf tau (by rw [pow_one]; exact hr'') (by rw [pow_one]; exact hc'')
  rw [pow_one e₁, pow_one d₁] at X3
  rw [pow_one e₂, pow_one d₂] at Y3
  rw [pow_one] at Z1 Z2
  rw [pow_one (e₁ * e₂), pow_one (d₁ * d₂)] at Z3
  have l1 : (ops₁.kron ops₂).len = ops₁.len * ops₂.len := rfl
  rw [l1, kron_ops ops₁ ops₂ ops₁.len ops₂.len e₁ e₂ d₁ d₂ rfl g11 g10, sides_mat hprod, applyKraus_side, ← X3, ← Y3] at Z3
  refine ⟨X, Y, Z, X0, Y0, Z0, Z1, Z2, fun x y u v w z hx hy => ?_⟩
  have h := congrFun (congrFun Z3 x) y
  simp only [submatrix_apply, kron] at h
  rw [(sides_eq hx).1, (sides_eq hx).2, (sides_eq hy).1, (sides_eq hy).2] at h
  exact h

/-- **C127 (values)**.  In the same situation the coherent informations add, up to the cut-off. -/
theorem C127_coherent {eig : Eigvalsh} (heig : eig.Correct) (hs : QChan.init sp₁ ops₁ 1 1 d₁ e₁ orth₁ = .ok s)
    (ho : QChan.init sp₂ ops₂ 1 1 d₂ e₂ orth₂ = .ok o) (horth₁ : sp₁ = true ∨ orth₁ = []) (horth₂ : sp₂ = true ∨ orth₂ = [])
    (htp₁ : TracePreserving (ops₁.ops ops₁.len (e₁ ^ 1) (d₁ ^ 1))) (htp₂ : TracePreserving (ops₂.ops ops₂.len (e₂ ^ 1) (d₂ ^ 1)))
    (cs co : List QChan.Call) (ht : QChan.mul (QChan.history s cs) (QChan.history o co) = .ok t)
    (c c₁ c₂ : List QChan.Call) (n : ℕ) (hsf : SafeUses (sp₁ || sp₂) (c.map QChan.Call.uses ++ [n]))
    (hsf₁ : SafeUses sp₁ (c₁.map QChan.Call.uses ++ [n])) (hsf₂ : SafeUses sp₂ (c₂.map QChan.Call.uses ++ [n])) (rho sigma tau : Arr ℂ)
    (hr : rho.rows = d₁ ^ n) (hc : rho.cols = d₁ ^ n) (hrho : IsDensity (rho.mat (d₁ ^ n) (d₁ ^ n)))
    (hr' : sigma.rows = d₂ ^ n) (hc' : sigma.cols = d₂ ^ n) (hsigma : IsDensity (sigma.mat (d₂ ^ n) (d₂ ^ n)))
    (hr'' : tau.rows = (d₁ * d₂) ^ n) (hc'' : tau.cols = (d₁ * d₂) ^ n)
    (hprod : ∀ (x y : Fin ((d₁ * d₂) ^ n)) (u v : Fin (d₁ ^ n)) (w z : Fin (d₂ ^ n)), Sides x u w → Sides y v z →
      tau.get x y = rho.get u v * sigma.get w z) :
    ∃ x y z : ℝ, (QChan.coherentInformation eig (QChan.history s c₁) rho n false).1 = .ok x ∧
      (QChan.coherentInformation eig (QChan.history o c₂) sigma n false).1 = .ok y ∧
      (QChan.coherentInformation eig (QChan.history t c) tau n false).1 = .ok z ∧
      z ≤ x + y + (((ops₁.len * ops₂.len) ^ n : ℕ) + (e₁ ^ n : ℕ) + (e₂ ^ n : ℕ)) * (4 / 10 ^ 9) ∧
      x + y ≤ z + (((e₁ * e₂) ^ n : ℕ) + (ops₁.len ^ n : ℕ) + (ops₂.len ^ n : ℕ)) * (4 / 10 ^ 9) := by
  have hti := (mul_inv hs ho cs co).symm.trans ht
  obtain ⟨-, -, -, -, -, -, -, -, g9, g10, g11, -⟩ := qchanInit_ok ho
  rw [pow_one] at g10 g11
  have l1 : (ops₁.kron ops₂).len = ops₁.len * ops₂.len := rfl
  have k1 := kron_ops ops₁ ops₂ ops₁.len ops₂.len e₁ e₂ d₁ d₂ rfl g11 g10
  have tp₁ : TracePreserving (ops₁.ops ops₁.len e₁ d₁) := by
    rw [pow_one e₁, pow_one d₁] at htp₁
    exact htp₁
  have tp₂ : TracePreserving (ops₂.ops ops₂.len e₂ d₂) := by
    rw [pow_one e₂, pow_one d₂] at htp₂
    exact htp₂
  have tp : TracePreserving ((ops₁.kron ops₂).ops (ops₁.kron ops₂).len ((e₁ * e₂) ^ 1) ((d₁ * d₂) ^ 1)) := by
    rw [pow_one (e₁ * e₂), pow_one (d₁ * d₂), l1, k1]
    exact kron_tp tp₁ tp₂
  have hmat := sides_mat hprod
  have hdt : IsDensity (tau.mat ((d₁ * d₂) ^ n) ((d₁ * d₂) ^ n)) := by
    rw [hmat]
    exact submatrix_density _ (kron_density hrho hsigma)
  obtain ⟨x, x0, x1, x2⟩ := api_info heig hs horth₁ htp₁ c₁ n hsf₁ rho (by rw [pow_one]; exact hr) (by rw [pow_one]; exact hc)
    (by rw [pow_one d₁]; exact hrho)
  obtain ⟨y, y0, y1, y2⟩ := api_info heig ho horth₂ htp₂ c₂ n hsf₂ sigma (by rw [pow_one]; exact hr') (by rw [pow_one]; exact hc')
    (by rw [pow_one d₂]; exact hsigma)
  obtain ⟨z, z0, z1, z2⟩ := api_info heig hti (Or.inr rfl) tp c n hsf tau (by rw [pow_one]; exact hr'') (by rw [pow_one]; exact hc'')
    (by rw [pow_one (d₁ * d₂)]; exact hdt)
  rw [pow_one e₁, pow_one d₁] at x1 x2
  rw [pow_one e₂, pow_one d₂] at y1 y2
  rw [pow_one (e₁ * e₂), pow_one (d₁ * d₂)] at z1 z2
  rw [l1, k1, hmat, krausInfo_side tp₁ tp₂ n hrho hsigma, add_div] at z1 z2
  refine ⟨x, y, z, x0, y0, z0, ?_, ?_⟩ <;> linarith

/-- **C127 (rates)**.  The best value of `n` uses of `A * B` is at least the sum of the best values of `A` and of `B`; so the rate
of `A * B` is at least the sum of the rates. -/
theorem C127_rate (hs : QChan.init sp₁ ops₁ 1 1 d₁ e₁ orth₁ = .ok s)
    (ho : QChan.init sp₂ ops₂ 1 1 d₂ e₂ orth₂ = .ok o) (horth₁ : sp₁ = true ∨ orth₁ = []) (horth₂ : sp₂ = true ∨ orth₂ = [])
    (htp₁ : TracePreserving (ops₁.ops ops₁.len (e₁ ^ 1) (d₁ ^ 1))) (htp₂ : TracePreserving (ops₂.ops ops₂.len (e₂ ^ 1) (d₂ ^ 1)))
    (hd₁ : 0 < d₁) (hd₂ : 0 < d₂) (cs co : List QChan.Call) (ht : QChan.mul (QChan.history s cs) (QChan.history o co) = .ok t) :
    ∃ (Q₁ Q₂ Q : ℕ → ℝ) (C₁ C₂ C : ℝ), BestValue sp₁ s ops₁.len d₁ e₁ Q₁ ∧ BestValue sp₂ o ops₂.len d₂ e₂ Q₂ ∧
      BestValue (sp₁ || sp₂) t (ops₁.len * ops₂.len) (d₁ * d₂) (e₁ * e₂) Q ∧ RateOf Q₁ C₁ ∧ RateOf Q₂ C₂ ∧ RateOf Q C ∧
      (∀ n, Q₁ n + Q₂ n ≤ Q n) ∧ C₁ + C₂ ≤ C := by
  have hti := (mul_inv hs ho cs co).symm.trans ht
  obtain ⟨-, -, -, -, -, -, -, -, g9, g10, g11, -⟩ := qchanInit_ok ho
  rw [pow_one] at g10 g11
  have l1 : (ops₁.kron ops₂).len = ops₁.len * ops₂.len := rfl
  have k1 := kron_ops ops₁ ops₂ ops₁.len ops₂.len e₁ e₂ d₁ d₂ rfl g11 g10
  have tp₁ : TracePreserving (ops₁.ops ops₁.len e₁ d₁) := by
    rw [pow_one e₁, pow_one d₁] at htp₁
    exact htp₁
  have tp₂ : TracePreserving (ops₂.ops ops₂.len e₂ d₂) := by
    rw [pow_one e₂, pow_one d₂] at htp₂
    exact htp₂
  have tp : TracePreserving ((ops₁.kron ops₂).ops (ops₁.len * ops₂.len) (e₁ * e₂) (d₁ * d₂)) := by
    rw [k1]
    exact kron_tp tp₁ tp₂
  have b1 := bestInfo_bestValue hs horth₁ htp₁ hd₁
  have b2 := bestInfo_bestValue ho horth₂ htp₂ hd₂
  have b3 := bestInfo_bestValue hti (Or.inr rfl) (by rw [pow_one, pow_one, l1]; exact tp) (Nat.mul_pos hd₁ hd₂)
  rw [pow_one e₁, pow_one d₁] at b1
  rw [pow_one e₂, pow_one d₂] at b2
  rw [pow_one (e₁ * e₂), pow_one (d₁ * d₂)] at b3
  rw [l1] at b3
  obtain ⟨C₁, p1, p2, -, -⟩ := bestInfo_rate tp₁ hd₁
  obtain ⟨C₂, q1, q2, -, -⟩ := bestInfo_rate tp₂ hd₂
  obtain ⟨C, r1, r2, -, -⟩ := bestInfo_rate tp (Nat.mul_pos hd₁ hd₂)
  have hle : ∀ n, bestInfo (ops₁.ops ops₁.len e₁ d₁) n + bestInfo (ops₂.ops ops₂.len e₂ d₂) n ≤
      bestInfo ((ops₁.kron ops₂).ops (ops₁.len * ops₂.len) (e₁ * e₂) (d₁ * d₂)) n := by
    intro n
    rw [k1]
    exact bestInfo_side tp₁ tp₂ hd₁ hd₂ n
  refine ⟨_, _, _, C₁, C₂, C, b1, b2, b3, ⟨p1, p2⟩, ⟨q1, q2⟩, ⟨r1, r2⟩, hle, ?_⟩
  refine le_of_tendsto_of_tendsto' (p2.add q2) r2 fun n => ?_
  rw [← add_div]
  exact div_le_div_of_nonneg_right (hle n) n.cast_nonneg

end Side

/-! ### C128: noise before a channel -/

section Before

variable {sp₁ sp₂ : Bool} {ops₁ ops₂ : Arr3 ℂ} {a₁ b₁ d₁ e₁ a₂ b₂ d₂ e₂ : ℕ} {orth₁ orth₂ : List ℕ} {s o t : KrausObj}

/-- **C128**.  Noise before a channel does not help: for every density matrix `rho` there is an input `sigma` of `s` alone whose
coherent information is at least that of `s + o` (first `o`, then `s`) on `rho`, up to the cut-off. -/
theorem C128_noise_before {eig : Eigvalsh} (heig : eig.Correct) (hs : QChan.init sp₁ ops₁ a₁ b₁ d₁ e₁ orth₁ = .ok s)
    (ho : QChan.init sp₂ ops₂ a₂ b₂ d₂ e₂ orth₂ = .ok o) (horth : sp₁ = true ∨ orth₁ = []) (cs co : List QChan.Call)
    (ht : QChan.add (QChan.history s cs) (QChan.history o co) = .ok t)
    (htp₁ : TracePreserving (ops₁.ops ops₁.len (e₁ ^ b₁) (d₁ ^ a₁))) (htp₂ : TracePreserving (ops₂.ops ops₂.len (e₂ ^ b₂) (d₂ ^ a₂)))
    (c₁ c₃ : List QChan.Call) (n : ℕ) (h₁ : SafeUses sp₁ (c₁.map QChan.Call.uses ++ [n]))
    (h₃ : SafeUses (sp₁ || sp₂) (c₃.map QChan.Call.uses ++ [n])) (rho : Arr ℂ)
    (hr : rho.rows = (d₂ ^ a₂) ^ n) (hc : rho.cols = (d₂ ^ a₂) ^ n) (hrho : IsDensity (rho.mat ((d₂ ^ a₂) ^ n) ((d₂ ^ a₂) ^ n))) :
    ∃ sigma : Arr ℂ, sigma.rows = (d₁ ^ a₁) ^ n ∧ sigma.cols = (d₁ ^ a₁) ^ n ∧ IsDensity (sigma.mat ((d₁ ^ a₁) ^ n) ((d₁ ^ a₁) ^ n)) ∧
      ∃ v w, (QChan.coherentInformation eig (QChan.history t c₃) rho n false).1 = .ok v ∧
        (QChan.coherentInformation eig (QChan.history s c₁) sigma n false).1 = .ok w ∧
        v ≤ w + (((ops₁.len * ops₂.len) ^ n : ℕ) + ((e₁ ^ b₁) ^ n : ℕ)) * (4 / 10 ^ 9) := by
  obtain ⟨hti, hmid⟩ := add_inv hs ho cs co ht
  obtain ⟨-, -, -, -, -, -, -, -, -, h10, -, -⟩ := qchanInit_ok hs
  rw [← hmid] at htp₂
  have l1 : (ops₁.compose ops₂).len = ops₁.len * ops₂.len := rfl
  have k1 := compose_ops ops₁ ops₂ ops₁.len ops₂.len (e₁ ^ b₁) (d₁ ^ a₁) (d₂ ^ a₂) h10 rfl
  have tp : TracePreserving ((ops₁.compose ops₂).ops (ops₁.compose ops₂).len (e₁ ^ b₁) (d₂ ^ a₂)) := by
    rw [l1, k1]
    exact tp_comp _ _ htp₁ htp₂
  obtain ⟨v, v0, v1, -⟩ := api_info heig hti (Or.inr rfl) tp c₃ n h₃ rho hr hc hrho
  rw [l1, k1] at v1
  obtain ⟨σ, hσ, hle⟩ := krausInfo_before_exists (tensorPow_tp _ n htp₂)
    (fun ρ => applyKraus_comp_pow (ops₁.ops ops₁.len (e₁ ^ b₁) (d₁ ^ a₁)) (ops₂.ops ops₂.len (d₁ ^ a₁) (d₂ ^ a₂)) n ρ) hrho
  have hm : (Arr.ofMat σ).mat ((d₁ ^ a₁) ^ n) ((d₁ ^ a₁) ^ n) = σ := Arr.ofMat_mat σ
  obtain ⟨w, w0, -, w2⟩ := api_info heig hs horth htp₁ c₁ n h₁ (Arr.ofMat σ) rfl rfl (by rw [hm]; exact hσ)
  rw [hm] at w2
  have h4 := div_le_div_of_nonneg_right hle (Real.log_nonneg one_le_two)
  exact ⟨Arr.ofMat σ, rfl, rfl, by rw [hm]; exact hσ, v, w, v0, w0, by linarith⟩

/-- **C128 (rates)**.  The best value of `n` uses of `s + o` exceeds neither that of `s` nor that of `o`, and so does the rate. -/
theorem C128_rate (hs : QChan.init sp₁ ops₁ a₁ b₁ d₁ e₁ orth₁ = .ok s)
    (ho : QChan.init sp₂ ops₂ a₂ b₂ d₂ e₂ orth₂ = .ok o) (horth₁ : sp₁ = true ∨ orth₁ = []) (horth₂ : sp₂ = true ∨ orth₂ = [])
    (cs co : List QChan.Call) (ht : QChan.add (QChan.history s cs) (QChan.history o co) = .ok t)
    (htp₁ : TracePreserving (ops₁.ops ops₁.len (e₁ ^ b₁) (d₁ ^ a₁))) (htp₂ : TracePreserving (ops₂.ops ops₂.len (e₂ ^ b₂) (d₂ ^ a₂)))
    (hd₁ : 0 < d₁) (hd₂ : 0 < d₂) :
    ∃ (Q₁ Q₂ Q : ℕ → ℝ) (C₁ C₂ C : ℝ), BestValue sp₁ s ops₁.len (d₁ ^ a₁) (e₁ ^ b₁) Q₁ ∧
      BestValue sp₂ o ops₂.len (d₂ ^ a₂) (e₂ ^ b₂) Q₂ ∧
      BestValue (sp₁ || sp₂) t (ops₁.len * ops₂.len) (d₂ ^ a₂) (e₁ ^ b₁) Q ∧ RateOf Q₁ C₁ ∧ RateOf Q₂ C₂ ∧ RateOf Q C ∧
      (∀ n, Q n ≤ min (Q₁ n) (Q₂ n)) ∧ C ≤ min C₁ C₂ := by
  obtain ⟨hti, hmid⟩ := add_inv hs ho cs co ht
  obtain ⟨-, -, -, -, -, -, -, -, -, h10, -, -⟩ := qchanInit_ok hs
  have l1 : (ops₁.compose ops₂).len = ops₁.len * ops₂.len := rfl
  have k1 := compose_ops ops₁ ops₂ ops₁.len ops₂.len (e₁ ^ b₁) (d₁ ^ a₁) (d₂ ^ a₂) h10 rfl
  have b1 := bestInfo_bestValue hs horth₁ htp₁ hd₁
  have b2 := bestInfo_bestValue ho horth₂ htp₂ hd₂
  rw [← hmid] at htp₂ b2 ⊢
  have tp : TracePreserving ((ops₁.compose ops₂).ops (ops₁.len * ops₂.len) (e₁ ^ b₁) (d₂ ^ a₂)) := by
    rw [k1]
    exact tp_comp _ _ htp₁ htp₂
  have b3 := bestInfo_bestValue hti (Or.inr rfl) tp hd₂
  have hp₁ : 0 < d₁ ^ a₁ := by positivity
  have hp₂ : 0 < d₂ ^ a₂ := by positivity
  obtain ⟨C₁, p1, p2, -, -⟩ := bestInfo_rate htp₁ hp₁
  obtain ⟨C₂, q1, q2, -, -⟩ := bestInfo_rate htp₂ hp₂
  obtain ⟨C, r1, r2, -, -⟩ := bestInfo_rate tp hp₂
  have hle := fun n => bestInfo_before (T := (ops₁.compose ops₂).ops (ops₁.len * ops₂.len) (e₁ ^ b₁) (d₂ ^ a₂)) htp₁ htp₂ hp₂ n
    (fun ρ => by rw [k1]; exact applyKraus_comp_pow _ _ n ρ)
  refine ⟨_, _, _, C₁, C₂, C, b1, b2, b3, ⟨p1, p2⟩, ⟨q1, q2⟩, ⟨r1, r2⟩, fun n => le_min (hle n).1 (hle n).2, le_min ?_ ?_⟩
  · exact le_of_tendsto_of_tendsto' r2 p2 fun n => div_le_div_of_nonneg_right (hle n).1 n.cast_nonneg
  · exact le_of_tendsto_of_tendsto' r2 q2 fun n => div_le_div_of_nonneg_right (hle n).2 n.cast_nonneg

end Before

/-! ### C126: channels whose rate is known -/

section Known

variable {sp sp₁ : Bool} {ops ops₁ : Arr3 ℂ} {a b d e a₁ b₁ d₁ e₁ : ℕ} {orth orth₁ : List ℕ} {o r : KrausObj} {c₀ c₁ : List QChan.Call}

theorem one_le_bestInfo {l a b : ℕ} {K : Fin l → Matrix (Fin a) (Fin b) ℂ} (hK : TracePreserving K) {σ : Matrix (Fin b) (Fin b) ℂ}
    (hσ : IsDensity σ) : krausInfo K σ / Real.log 2 ≤ bestInfo K 1 := by
  have hd : IsDensity (tensorProd fun _ : Fin 1 => σ) := by
    refine ⟨tensorProd_psd fun _ => hσ.1, ?_⟩
    rw [tensorProd_trace]
    simp [hσ.2]
  have h1 := le_bestInfo hK 1 hd
  rw [krausInfo_tensorProd _ hK fun _ => hσ] at h1
  simpa using h1

theorem rate_unique {Q : ℕ → ℝ} {C q : ℝ} (h : RateOf Q C) (hq : ∀ n : ℕ, Q n ≤ n * q) (h1 : q ≤ Q 1) : C = q := by
  refine le_antisymm (le_of_tendsto h.2 ?_) ?_
  · filter_upwards [Filter.eventually_ge_atTop 1] with n hn
    have hpos : (0 : ℝ) < n := by exact_mod_cast hn
    rw [div_le_iff₀ hpos, mul_comm]
    exact hq n
  · have := h.1 1 le_rfl
    rw [Nat.cast_one, div_one] at this
    linarith

/-- **C126 (degradable)**.  If a channel object turns what one use delivers into the state of the environment, the rate is the best
value of one use. -/
theorem C126_degradable (hr' : QChan.init sp₁ ops₁ a₁ b₁ d₁ e₁ orth₁ = .ok r)
    (h : QChan.init sp ops a b d e orth = .ok o) (ho : sp = true ∨ orth = [])
    (htp₁ : TracePreserving (ops₁.ops ops₁.len (e₁ ^ b₁) (d₁ ^ a₁))) (htp : TracePreserving (ops.ops ops.len (e ^ b) (d ^ a)))
    (hd : 0 < d) (hin : d₁ ^ a₁ = e ^ b) (hout : e₁ ^ b₁ = ops.len)
    (h₀ : SafeUses sp (c₀.map QChan.Call.uses ++ [1])) (h₁ : SafeUses sp₁ (c₁.map QChan.Call.uses ++ [1]))
    (hdeg : DegradedBy (QChan.history o c₀) (QChan.history r c₁) (d ^ a)) :
    ∃ Q : ℕ → ℝ, BestValue sp o ops.len (d ^ a) (e ^ b) Q ∧ RateOf Q (Q 1) ∧ ∀ n : ℕ, Q n = n * Q 1 := by
  have hlog : 0 < Real.log 2 := Real.log_pos (by norm_num)
  have hb : 0 < d ^ a := by positivity
  obtain ⟨C, c1, c2, -, -⟩ := bestInfo_rate htp hb
  rw [hin, hout] at htp₁
  have hops := degraded_ops hr' h ho hin hout h₀ h₁ hdeg
  have hle : ∀ n : ℕ, bestInfo (ops.ops ops.len (e ^ b) (d ^ a)) n ≤ n * bestInfo (ops.ops ops.len (e ^ b) (d ^ a)) 1 := by
    intro n
    refine le_of_forall_pos_le_add fun δ hδ => ?_
    obtain ⟨ρ, hρ, hn⟩ := bestInfo_near (K := ops.ops ops.len (e ^ b) (d ^ a)) hb n hδ
    have key := div_le_div_of_nonneg_right (degradable_subadd _ htp₁ _ htp hops hρ.1) hlog.le
    rw [Finset.sum_div] at key
    have h2 : ∑ t : Fin n, krausInfo (ops.ops ops.len (e ^ b) (d ^ a)) (marginal ρ t) / Real.log 2 ≤
        ∑ t : Fin n, bestInfo (ops.ops ops.len (e ^ b) (d ^ a)) 1 :=
      Finset.sum_le_sum fun t _ => one_le_bestInfo htp (marginal_density hρ t)
    rw [Finset.sum_const, Finset.card_univ, Fintype.card_fin, nsmul_eq_mul] at h2
    linarith
  have hC := rate_unique ⟨c1, c2⟩ hle le_rfl
  subst hC
  refine ⟨_, bestInfo_bestValue h ho htp hd, ⟨c1, c2⟩, fun n => le_antisymm (hle n) ?_⟩
  induction n with
  | zero => simpa using bestInfo_nonneg htp hb 0
  | succ n ih =>
    have := bestInfo_superadd htp hb n 1
    push_cast
    linarith

/-- **C126 (antidegradable)**.  If a channel object turns the state of the environment into what one use delivers, the best value of
every number of uses, and the rate, is zero. -/
theorem C126_antidegradable (hr' : QChan.init sp₁ ops₁ a₁ b₁ d₁ e₁ orth₁ = .ok r)
    (h : QChan.init sp ops a b d e orth = .ok o) (ho : sp = true ∨ orth = [])
    (htp₁ : TracePreserving (ops₁.ops ops₁.len (e₁ ^ b₁) (d₁ ^ a₁))) (htp : TracePreserving (ops.ops ops.len (e ^ b) (d ^ a)))
    (hd : 0 < d) (hin : d₁ ^ a₁ = ops.len) (hout : e₁ ^ b₁ = e ^ b)
    (h₀ : SafeUses sp (c₀.map QChan.Call.uses ++ [1])) (h₁ : SafeUses sp₁ (c₁.map QChan.Call.uses ++ [1]))
    (hres : RestoredBy (QChan.history o c₀) (QChan.history r c₁) (d ^ a)) :
    BestValue sp o ops.len (d ^ a) (e ^ b) fun _ => 0 := by
  have hlog : 0 < Real.log 2 := Real.log_pos (by norm_num)
  have hb : 0 < d ^ a := by positivity
  rw [hin, hout] at htp₁
  have hops := restored_ops hr' h ho hin hout h₀ h₁ hres
  have hz : bestInfo (ops.ops ops.len (e ^ b) (d ^ a)) = fun _ => 0 := by
    funext n
    refine le_antisymm (csSup_le (bestInfo_nonempty hb n) ?_) (bestInfo_nonneg htp hb n)
    rintro _ ⟨ρ, hρ, rfl⟩
    have key := div_le_div_of_nonneg_right (antidegradable_nonpos _ (tensorPow_tp _ n htp₁) _ (antidegradable_pow _ _ hops n) hρ.1) hlog.le
    rwa [zero_div] at key
  rw [← hz]
  exact bestInfo_bestValue h ho htp hd

end Known

/-! ### Cases that meet the hypotheses -/

/-- Two phase flip channels side by side, used twice, on any states of two inputs each. -/
example (eig : Eigvalsh) (heig : eig.Correct) {p q : ℝ} (hp0 : 0 ≤ p) (hp1 : p ≤ 1) (hq0 : 0 ≤ q) (hq1 : q ≤ 1)
    (ρ σ : Matrix (Fin (2 ^ 2)) (Fin (2 ^ 2)) ℂ) (hρ : IsDensity ρ) (hσ : IsDensity σ) :
    ∃ (s o t : KrausObj) (tau : Arr ℂ) (x y z : ℝ), QChan.init false (opsArr (phaseFlip p)) 1 1 2 2 [] = .ok s ∧
      QChan.init true (opsArr (phaseFlip q)) 1 1 2 2 [] = .ok o ∧ QChan.mul s o = .ok t ∧
      (QChan.coherentInformation eig s (Arr.ofMat ρ) 2 false).1 = .ok x ∧
      (QChan.coherentInformation eig o (Arr.ofMat σ) 2 false).1 = .ok y ∧
      (QChan.coherentInformation eig t tau 2 false).1 = .ok z ∧ |z - (x + y)| ≤ 24 * (4 / 10 ^ 9) := by
  obtain ⟨s, hs⟩ := opsArr_init (a := 1) (b := 1) (d := 2) (e := 2) false (phaseFlip p) (by norm_num) (phaseFlip_tp hp0 hp1) []
  obtain ⟨o, ho⟩ := opsArr_init (a := 1) (b := 1) (d := 2) (e := 2) true (phaseFlip q) (by norm_num) (phaseFlip_tp hq0 hq1) []
  have t1 : TracePreserving ((opsArr (phaseFlip p)).ops (opsArr (phaseFlip p)).len (2 ^ 1) (2 ^ 1)) := by
    have : (opsArr (phaseFlip p)).ops 2 2 2 = phaseFlip p := opsArr_ops (phaseFlip p)
    have h := phaseFlip_tp hp0 hp1
    rw [← this] at h
    exact h
  have t2 : TracePreserving ((opsArr (phaseFlip q)).ops (opsArr (phaseFlip q)).len (2 ^ 1) (2 ^ 1)) := by
    have : (opsArr (phaseFlip q)).ops 2 2 2 = phaseFlip q := opsArr_ops (phaseFlip q)
    have h := phaseFlip_tp hq0 hq1
    rw [← this] at h
    exact h
  obtain ⟨t, ht, -⟩ := C32_mul_partial hs ho [] [] t1 t2
  obtain ⟨x, y, z, hx, hy, hz, h1, h2⟩ := C127_coherent heig hs ho (Or.inr rfl) (Or.inl rfl) t1 t2 [] [] ht [] [] [] 2
    (by simp [SafeUses]) (by simp [SafeUses]) (by simp [SafeUses]) (Arr.ofMat ρ) (Arr.ofMat σ)
    (Arr.ofMat ((kron ρ σ).submatrix (unzip 2 2 2) (unzip 2 2 2))) rfl rfl (by rw [Arr.ofMat_mat]; exact hρ) rfl rfl
    (by rw [Arr.ofMat_mat]; exact hσ) rfl rfl
    (by
      intro x y u v w z hx hy
      have e1 := congrFun (congrFun (Arr.ofMat_mat ((kron ρ σ).submatrix (unzip 2 2 2) (unzip 2 2 2))) x) y
      have e2 := congrFun (congrFun (Arr.ofMat_mat ρ) u) v
      have e3 := congrFun (congrFun (Arr.ofMat_mat σ) w) z
      simp only [Arr.mat] at e1 e2 e3
      rw [e1, e2, e3]
      simp only [submatrix_apply, kron]
      rw [(sides_eq hx).1, (sides_eq hx).2, (sides_eq hy).1, (sides_eq hy).2])
  refine ⟨s, o, t, _, x, y, z, hs, ho, ht, hx, hy, hz, ?_⟩
  have l1 : (opsArr (phaseFlip p)).len = 2 := rfl
  have l2 : (opsArr (phaseFlip q)).len = 2 := rfl
  rw [l1, l2] at h1 h2
  norm_num at h1 h2 ⊢
  rw [abs_le]
  constructor <;> linarith

/-- A phase flip before a phase flip: for every state of two uses of the sum there is one of the second channel alone. -/
example (eig : Eigvalsh) (heig : eig.Correct) : ∃ s o t : KrausObj, QChan.init false dephOps 1 1 2 2 [] = .ok s ∧
    QChan.init true dephOps 1 1 2 2 [] = .ok o ∧ QChan.add s o = .ok t ∧
    ∀ rho : Arr ℂ, rho.rows = 4 → rho.cols = 4 → IsDensity (rho.mat 4 4) → ∃ (sigma : Arr ℂ) (v w : ℝ), IsDensity (sigma.mat 4 4) ∧
      (QChan.coherentInformation eig t rho 2 false).1 = .ok v ∧ (QChan.coherentInformation eig s sigma 2 false).1 = .ok w ∧
      v ≤ w + 20 * (4 / 10 ^ 9) := by
  obtain ⟨s, hs⟩ := deph_ok false []
  obtain ⟨o, ho⟩ := deph_ok true []
  obtain ⟨t, ht, -⟩ := C32_add hs ho [] [] dephOps_tp dephOps_tp rfl
  refine ⟨s, o, t, hs, ho, ht, fun rho h1 h2 h3 => ?_⟩
  obtain ⟨sigma, -, -, hd, v, w, hv, hw, hle⟩ := C128_noise_before heig hs ho (Or.inr rfl) [] [] ht dephOps_tp dephOps_tp [] [] 2
    ⟨by simp, by simp⟩ ⟨by simp, by simp⟩ rho h1 h2 h3
  refine ⟨sigma, v, w, hd, hv, hw, hle.trans (le_of_eq ?_)⟩
  simp only [dephOps]
  norm_num

/-- The rate of a phase flip with probability `1/4` is the best value of one use; that of an erasure with probability `3/4` is zero. -/
example : (∃ o Q, QChan.init true (opsArr (phaseFlip (1 / 4))) 1 1 2 2 [] = .ok o ∧ BestValue true o 2 2 2 Q ∧ RateOf Q (Q 1)) ∧
    ∃ o, QChan.init false (opsArr (erasure (3 / 4))) 1 1 2 3 [] = .ok o ∧ BestValue false o 3 2 3 fun _ => 0 := by
  constructor
  · have h0 : (0 : ℝ) ≤ 1 / 4 := by norm_num
    have h1 : (1 / 4 : ℝ) ≤ 1 := by norm_num
    obtain ⟨o, ho⟩ := opsArr_init true (a := 1) (b := 1) (d := 2) (e := 2) (phaseFlip (1 / 4)) (by decide) (phaseFlip_tp h0 h1) []
    obtain ⟨r, hr⟩ := opsArr_init false (a := 1) (b := 1) (d := 2) (e := 2) (phaseDegrade (1 / 4)) (by decide)
      (phaseDegrade_tp h0 h1) []
    have e1 : (opsArr (phaseFlip (1 / 4))).ops (opsArr (phaseFlip (1 / 4))).len (2 ^ 1) (2 ^ 1) = phaseFlip (1 / 4) := opsArr_ops _
    have e2 : (opsArr (phaseDegrade (1 / 4))).ops (opsArr (phaseDegrade (1 / 4))).len (2 ^ 1) (2 ^ 1) = phaseDegrade (1 / 4) :=
      opsArr_ops _
    obtain ⟨Q, q1, q2, -⟩ := C126_degradable (c₀ := []) (c₁ := []) hr ho (Or.inl rfl) (by rw [e2]; exact phaseDegrade_tp h0 h1)
      (by rw [e1]; exact phaseFlip_tp h0 h1) (by norm_num) rfl rfl ⟨by simp, by simp⟩ ⟨by simp, by simp⟩
      (degraded_of_ops hr ho (Or.inl rfl) rfl rfl fun ρ => by
        have e3 : (opsArr (phaseDegrade (1 / 4))).ops (opsArr (phaseDegrade (1 / 4))).len (opsArr (phaseFlip (1 / 4))).len (2 ^ 1) =
          phaseDegrade (1 / 4) := opsArr_ops _
        rw [e1, e3]
        exact phaseFlip_degrade h0 h1 ρ)
    exact ⟨o, Q, ho, q1, q2⟩
  · have h0 : (0 : ℝ) ≤ 3 / 4 := by norm_num
    have h1 : (3 / 4 : ℝ) ≤ 1 := by norm_num
    have t2 : TracePreserving (eraseBack ((1 - 3 / 4) / (3 / 4))) := eraseBack_tp (by norm_num) (by norm_num)
    obtain ⟨o, ho⟩ := opsArr_init false (a := 1) (b := 1) (d := 2) (e := 3) (erasure (3 / 4)) (by decide) (erasure_tp h0 h1) []
    obtain ⟨r, hr⟩ := opsArr_init true (a := 1) (b := 1) (d := 3) (e := 3) (eraseBack ((1 - 3 / 4) / (3 / 4))) (by decide) t2 []
    have e1 : (opsArr (erasure (3 / 4))).ops (opsArr (erasure (3 / 4))).len (3 ^ 1) (2 ^ 1) = erasure (3 / 4) := opsArr_ops _
    have e2 : (opsArr (eraseBack ((1 - 3 / 4) / (3 / 4)))).ops (opsArr (eraseBack ((1 - 3 / 4) / (3 / 4)))).len (3 ^ 1) (3 ^ 1) =
      eraseBack ((1 - 3 / 4) / (3 / 4)) := opsArr_ops _
    refine ⟨o, ho, C126_antidegradable (c₀ := []) (c₁ := []) hr ho (Or.inr rfl) (by rw [e2]; exact t2) (by rw [e1]; exact erasure_tp h0 h1)
      (by norm_num) rfl rfl ⟨by simp, by simp⟩ ⟨by simp, by simp⟩ (restored_of_ops hr ho (Or.inr rfl) rfl rfl fun ρ => ?_)⟩
    have e3 : (opsArr (eraseBack ((1 - 3 / 4) / (3 / 4)))).ops (opsArr (eraseBack ((1 - 3 / 4) / (3 / 4)))).len (3 ^ 1)
      (opsArr (erasure (3 / 4))).len = eraseBack ((1 - 3 / 4) / (3 / 4)) := opsArr_ops _
    rw [e1, e3]
    exact erasure_back (by norm_num) h1 ρ

end PyQ
