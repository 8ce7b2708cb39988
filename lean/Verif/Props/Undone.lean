import Verif.Props.Degradable
import Verif.Lemmas.KnillLaflamme

/-!
# C112: a channel can be undone exactly when its environment learns nothing
-/

namespace PyQ

open Matrix Spec
open scoped ComplexOrder

/-- Some channel undoes `n` uses of the object `o`, which take matrices of `N` rows to matrices of `M` rows: an object `r` can be
made from exactly trace preserving Kraus operators such that `r.channel(o.channel(x, n), 1)` is `x` for every input `x`. -/
def CanBeUndone (o : KrausObj) (M N n : ℕ) : Prop :=
  ∃ (sp₁ : Bool) (ops₁ : Arr3 ℂ) (a₁ b₁ d₁ e₁ : ℕ) (orth₁ : List ℕ) (r : KrausObj),
    QChan.init sp₁ ops₁ a₁ b₁ d₁ e₁ orth₁ = .ok r ∧ d₁ ^ a₁ = M ∧ e₁ ^ b₁ = N ∧
    TracePreserving (ops₁.ops ops₁.len (e₁ ^ b₁) (d₁ ^ a₁)) ∧
    ∀ x : Arr ℂ, x.rows = N → x.cols = N → ∃ y z, (QChan.channel o x n false).1 = .ok y ∧
      (QChan.channel r y 1 false).1 = .ok z ∧ Arr.Same z x

/-- The environment of `n` uses of `o` learns nothing about the state sent: `o.entropy_exchange(rho, n)` is the same matrix for
every density matrix `rho` of `N` rows. -/
def LearnsNothing (o : KrausObj) (N n : ℕ) : Prop :=
  ∃ W : Arr ℂ, ∀ rho : Arr ℂ, rho.rows = N → rho.cols = N → IsDensity (rho.mat N N) →
    ∃ V, (QChan.entropyExchange o rho n).1 = .ok [V] ∧ Arr.Same V W

section

variable {sp : Bool} {ops : Arr3 ℂ} {a b d e : ℕ} {orth : List ℕ} {o : KrausObj}

theorem undone_ops (h : QChan.init sp ops a b d e orth = .ok o)
    (htp : TracePreserving (ops.ops ops.len (e ^ b) (d ^ a))) (hd : 0 < d ^ a)
    (calls : List QChan.Call) (n : ℕ) (hsafe : SafeUses sp (calls.map QChan.Call.uses ++ [n])) :
    CanBeUndone (QChan.history o calls) ((e ^ b) ^ n) ((d ^ a) ^ n) n ↔
      ∀ i j, ∃ w : ℂ, (tensorPow (ops.ops ops.len (e ^ b) (d ^ a)) n i)ᴴ * tensorPow (ops.ops ops.len (e ^ b) (d ^ a)) n j =
        w • 1 := by
  have htp' := tensorPow_tp _ n htp
  constructor
  · rintro ⟨sp₁, ops₁, a₁, b₁, d₁, e₁, orth₁, r, hr, hin, hout, htp₁, hrec⟩ i j
    rw [hin, hout] at htp₁
    refine undone_products htp₁ (fun ρ => ?_) i j
    obtain ⟨y, z, hy, hz, hsame⟩ := hrec (Arr.ofMat ρ) rfl rfl
    obtain ⟨y', y1, y2, y3, y4⟩ := api_channel h calls n hsafe (Arr.ofMat ρ) rfl rfl
    rw [hy] at y1
    injection y1 with y1
    subst y1
    obtain ⟨z', z1, z2, z3, z4⟩ := api_channel_one hr [] ⟨by simp, by simp⟩ y (by rw [hin]; exact y2) (by rw [hin]; exact y3)
    have hz' : (QChan.channel (QChan.history r []) y 1 false).1 = .ok z := hz
    rw [hz'] at z1
    injection z1 with z1
    subst z1
    rw [Arr.same_iff_mat] at hsame
    obtain ⟨-, -, hm⟩ := hsame
    rw [hin, hout] at z4
    rw [hout] at z2 z3
    rw [z2, z3] at hm
    rw [Arr.ofMat_mat] at y4 hm
    rw [← y4, ← z4, hm]
  · intro hp
    have : Nonempty (Fin ((d ^ a) ^ n)) := ⟨⟨0, Nat.pow_pos hd⟩⟩
    obtain ⟨R, hR, hundo⟩ := products_undone htp' hp
    let E := Fintype.equivFin (Fin (ops.len ^ n) ⊕ Fin ((e ^ b) ^ n))
    have hin : e ^ (b * n) = (e ^ b) ^ n := pow_mul e b n
    have hout : d ^ (a * n) = (d ^ a) ^ n := pow_mul d a n
    have hR' : TracePreserving (fun k => R (E.symm k)) := by
      unfold TracePreserving at hR ⊢
      rw [← hR]
      exact Equiv.sum_comp E.symm fun k => (R k)ᴴ * R k
    have happ : ∀ X, applyKraus (fun k => R (E.symm k)) X = applyKraus R X := fun X => by
      unfold applyKraus
      exact Equiv.sum_comp E.symm fun k => R k * X * (R k)ᴴ
    have hlen : 0 < Fintype.card (Fin (ops.len ^ n) ⊕ Fin ((e ^ b) ^ n)) := by
      by_contra h0
      have h1 : IsEmpty (Fin (ops.len ^ n) ⊕ Fin ((e ^ b) ^ n)) := Fintype.card_eq_zero_iff.mp (by omega)
      have h2 : IsEmpty (Fin (ops.len ^ n)) := ⟨fun i => h1.elim (Sum.inl i)⟩
      have h3 := htp'
      unfold TracePreserving at h3
      rw [Finset.univ_eq_empty, Finset.sum_empty] at h3
      exact zero_ne_one h3
    obtain ⟨r, hr⟩ : ∃ r, QChan.init false (opsArr fun k => R (E.symm k)) 1 1 ((e ^ b) ^ n) ((d ^ a) ^ n) [] = .ok r := by
      refine init_exact false _ 1 1 _ _ [] hlen (pow_one _).symm (pow_one _).symm ?_
      rw [pow_one, pow_one]
      exact (opsArr_ops fun k => R (E.symm k)).symm ▸ hR'
    refine ⟨false, _, 1, 1, _, _, [], r, hr, pow_one _, pow_one _, ?_, fun x x1 x2 => ?_⟩
    · rw [pow_one, pow_one]
      exact (opsArr_ops fun k => R (E.symm k)).symm ▸ hR'
    · obtain ⟨y, y1, y2, y3, y4⟩ := api_channel h calls n hsafe x x1 x2
      obtain ⟨z, z1, z2, z3, z4⟩ := api_channel_one hr [] ⟨by simp, by simp⟩ y (y2.trans (pow_one _).symm) (y3.trans (pow_one _).symm)
      refine ⟨y, z, y1, z1, ?_⟩
      rw [pow_one] at z2 z3
      rw [pow_one, pow_one] at z4
      rw [Arr.same_iff_mat, z2, z3, x1, x2]
      refine ⟨rfl, rfl, ?_⟩
      rw [z4, y4]
      refine Eq.trans ?_ (hundo _)
      rw [← happ]
      exact congrFun (congrArg applyKraus (opsArr_ops fun k => R (E.symm k))) _

theorem learns_ops (h : QChan.init sp ops a b d e orth = .ok o) (ho : sp = true ∨ orth = []) (hd : 0 < d ^ a)
    (calls : List QChan.Call) (n : ℕ) (hsafe : SafeUses sp (calls.map QChan.Call.uses ++ [n])) :
    LearnsNothing (QChan.history o calls) ((d ^ a) ^ n) n ↔
      ∀ i j, ∃ w : ℂ, (tensorPow (ops.ops ops.len (e ^ b) (d ^ a)) n i)ᴴ * tensorPow (ops.ops ops.len (e ^ b) (d ^ a)) n j =
        w • 1 := by
  have : Nonempty (Fin ((d ^ a) ^ n)) := ⟨⟨0, Nat.pow_pos hd⟩⟩
  rw [← const_exchange]
  constructor
  · rintro ⟨W, hW⟩
    refine ⟨W.mat (ops.len ^ n) (ops.len ^ n), fun ρ h1 h2 => ?_⟩
    obtain ⟨V, hV, hs⟩ := hW (Arr.ofMat ρ) rfl rfl (by rw [Arr.ofMat_mat]; exact ⟨h1, h2⟩)
    obtain ⟨V', v1, v2, v3, v4⟩ := api_exchange h ho calls n hsafe (Arr.ofMat ρ) rfl rfl
    rw [hV] at v1
    injection v1 with v1
    injection v1 with v1
    subst v1
    rw [Arr.same_iff_mat, v2, v3] at hs
    rw [Arr.ofMat_mat] at v4
    rw [← v4, hs.2.2]
  · rintro ⟨W, hW⟩
    refine ⟨Arr.ofMat W, fun rho r1 r2 r3 => ?_⟩
    obtain ⟨V, v1, v2, v3, v4⟩ := api_exchange h ho calls n hsafe rho r1 r2
    refine ⟨V, v1, ?_⟩
    rw [Arr.same_iff_mat, v2, v3, Arr.ofMat_mat, v4, hW _ r3.1 r3.2]
    exact ⟨rfl, rfl, rfl⟩

/-- **C112**.  For a trace preserving channel, after every safe history and for every number of uses: some channel undoes the `n`
uses exactly when `entropy_exchange` returns the same matrix for all density matrices. -/
theorem C112_undone_iff (h : QChan.init sp ops a b d e orth = .ok o) (ho : sp = true ∨ orth = [])
    (htp : TracePreserving (ops.ops ops.len (e ^ b) (d ^ a))) (hd : 0 < d ^ a)
    (calls : List QChan.Call) (n : ℕ) (hsafe : SafeUses sp (calls.map QChan.Call.uses ++ [n])) :
    CanBeUndone (QChan.history o calls) ((e ^ b) ^ n) ((d ^ a) ^ n) n ↔
      LearnsNothing (QChan.history o calls) ((d ^ a) ^ n) n :=
  (undone_ops h htp hd calls n hsafe).trans (learns_ops h ho hd calls n hsafe).symm

theorem products_pow {l p q : ℕ} (K : Fin l → Matrix (Fin p) (Fin q) ℂ) (hK : TracePreserving K) (hq : 0 < q) {n : ℕ}
    (hn : 1 ≤ n) : (∀ i j, ∃ w : ℂ, (tensorPow K n i)ᴴ * tensorPow K n j = w • 1) ↔ ∀ i j, ∃ w : ℂ, (K i)ᴴ * K j = w • 1 := by
  have : Nonempty (Fin q) := ⟨⟨0, hq⟩⟩
  have : Nonempty (Fin (q ^ n)) := ⟨⟨0, Nat.pow_pos hq⟩⟩
  constructor
  · intro h
    rw [← const_exchange] at h ⊢
    obtain ⟨W, hW⟩ := h
    refine ⟨fun i j => trace (W * tensorProd fun t : Fin n => if t = ⟨0, hn⟩ then Matrix.single j i (1 : ℂ) else 1), fun ρ h1 h2 => ?_⟩
    funext i j
    have h3 := hW (tensorProd fun _ => ρ) (tensorProd_psd fun _ => h1) (by rw [tensorProd_trace]; simp [h2])
    rw [← h3, Spec.entropyExchange_tensor, tensorProd_mul, tensorProd_trace, Finset.prod_eq_single (⟨0, hn⟩ : Fin n)]
    · rw [if_pos rfl, Matrix.trace_mul_single, MulOpposite.op_one, one_smul]
    · intro t _ ht
      rw [if_neg ht, Matrix.mul_one, Spec.exchange_trace, Spec.applyKraus_trace _ hK, h2]
    · intro h4
      exact absurd (Finset.mem_univ _) h4
  · intro h i j
    choose w hw using h
    refine ⟨∏ t, w (digit i t) (digit j t), ?_⟩
    unfold tensorPow
    rw [tensorProd_conjTranspose, tensorProd_mul]
    simp only [hw]
    ext x y
    rw [Matrix.smul_apply, ← tensorProd_one]
    simp only [tensorProd, Matrix.smul_apply, smul_eq_mul, Finset.prod_mul_distrib]

/-- **C112**.  Several uses help as little as one: `n` uses of a channel can be undone, by a decoder that acts on all outputs
together, exactly when one use can. -/
theorem C112_uses (h : QChan.init sp ops a b d e orth = .ok o)
    (htp : TracePreserving (ops.ops ops.len (e ^ b) (d ^ a))) (hd : 0 < d ^ a)
    (calls c₁ : List QChan.Call) (n : ℕ) (hsafe : SafeUses sp (calls.map QChan.Call.uses ++ [n]))
    (hsafe₁ : SafeUses sp (c₁.map QChan.Call.uses ++ [1])) :
    CanBeUndone (QChan.history o calls) ((e ^ b) ^ n) ((d ^ a) ^ n) n ↔
      CanBeUndone (QChan.history o c₁) (e ^ b) (d ^ a) 1 := by
  have h1 := undone_ops h htp hd c₁ 1 hsafe₁
  rw [products_pow _ htp hd le_rfl] at h1
  simp only [pow_one] at h1
  rw [undone_ops h htp hd calls n hsafe, h1, products_pow _ htp hd (hsafe.1 n (by simp))]

/-- **C112**.  What the receiver can recover the environment cannot: if `n` uses of a channel with at least two input states can
be undone, no channel makes the input out of what `entropy_exchange` returns. -/
theorem C112_no_cloning (h : QChan.init sp ops a b d e orth = .ok o) (ho : sp = true ∨ orth = [])
    (htp : TracePreserving (ops.ops ops.len (e ^ b) (d ^ a))) (hd : 2 ≤ d ^ a)
    (calls : List QChan.Call) (n : ℕ) (hsafe : SafeUses sp (calls.map QChan.Call.uses ++ [n]))
    (hundo : CanBeUndone (QChan.history o calls) ((e ^ b) ^ n) ((d ^ a) ^ n) n)
    {sp₁ : Bool} {ops₁ : Arr3 ℂ} {a₁ b₁ d₁ e₁ : ℕ} {orth₁ : List ℕ} {r : KrausObj}
    (hr : QChan.init sp₁ ops₁ a₁ b₁ d₁ e₁ orth₁ = .ok r) (hin : d₁ ^ a₁ = ops.len ^ n) (hout : e₁ ^ b₁ = (d ^ a) ^ n)
    (c₁ : List QChan.Call) (h₁ : SafeUses sp₁ (c₁.map QChan.Call.uses ++ [1])) :
    ∃ rho : Arr ℂ, rho.rows = (d ^ a) ^ n ∧ rho.cols = (d ^ a) ^ n ∧ IsDensity (rho.mat ((d ^ a) ^ n) ((d ^ a) ^ n)) ∧
      ∃ W z, (QChan.entropyExchange (QChan.history o calls) rho n).1 = .ok [W] ∧
        (QChan.channel (QChan.history r c₁) W 1 false).1 = .ok z ∧ ¬ Arr.Same z rho := by
  have hN : 2 ≤ (d ^ a) ^ n := hd.trans (Nat.le_self_pow (by have := hsafe.1 n (by simp); omega) _)
  obtain ⟨W₀, hW₀⟩ := (C112_undone_iff h ho htp (by omega) calls n hsafe).mp hundo
  have hdens : ∀ k : Fin ((d ^ a) ^ n), IsDensity ((Arr.ofMat (Matrix.single k k (1 : ℂ))).mat ((d ^ a) ^ n) ((d ^ a) ^ n)) := by
    intro k
    rw [Arr.ofMat_mat]
    refine ⟨?_, by simp⟩
    have := Matrix.PosSemidef.diagonal (n := Fin ((d ^ a) ^ n)) (d := Pi.single k (1 : ℂ)) (by
      intro i
      by_cases hi : i = k
      · subst hi; simp
      · simp [hi])
    rwa [Matrix.diagonal_single] at this
  have hval : ∀ k : Fin ((d ^ a) ^ n), ∃ W z, (QChan.entropyExchange (QChan.history o calls) (Arr.ofMat (Matrix.single k k (1 : ℂ))) n).1 = .ok [W] ∧
      (QChan.channel (QChan.history r c₁) W 1 false).1 = .ok z ∧ z.rows = (d ^ a) ^ n ∧ z.cols = (d ^ a) ^ n ∧
      z.mat ((d ^ a) ^ n) ((d ^ a) ^ n) = applyKraus (ops₁.ops ops₁.len ((d ^ a) ^ n) (ops.len ^ n)) (W₀.mat (ops.len ^ n) (ops.len ^ n)) := by
    intro k
    obtain ⟨V, hV, hs⟩ := hW₀ (Arr.ofMat (Matrix.single k k (1 : ℂ))) rfl rfl (hdens k)
    obtain ⟨V', v1, v2, v3, -⟩ := api_exchange h ho calls n hsafe (Arr.ofMat (Matrix.single k k (1 : ℂ))) rfl rfl
    rw [hV] at v1
    injection v1 with v1
    injection v1 with v1
    subst v1
    obtain ⟨z, z1, z2, z3, z4⟩ := api_channel_one hr c₁ h₁ V (by rw [hin]; exact v2) (by rw [hin]; exact v3)
    rw [Arr.same_iff_mat, v2, v3] at hs
    rw [hout] at z2 z3
    rw [hin, hout, hs.2.2] at z4
    exact ⟨V, z, hV, z1, z2, z3, z4⟩
  by_contra hcon
  push Not at hcon
  have hall : ∀ k : Fin ((d ^ a) ^ n), Matrix.single k k (1 : ℂ) =
      applyKraus (ops₁.ops ops₁.len ((d ^ a) ^ n) (ops.len ^ n)) (W₀.mat (ops.len ^ n) (ops.len ^ n)) := by
    intro k
    obtain ⟨W, z, w1, z1, z2, z3, z4⟩ := hval k
    have hs := hcon _ rfl rfl (hdens k) W z w1 z1
    rw [Arr.same_iff_mat, z2, z3] at hs
    rw [← z4, hs.2.2, Arr.ofMat_mat]
  have h2 := congrFun (congrFun ((hall ⟨0, by omega⟩).trans (hall ⟨1, by omega⟩).symm) ⟨0, by omega⟩) ⟨0, by omega⟩
  simp at h2

/-- The hypotheses of C112 are met, on the side where the channel can be undone: attaching a random qubit to a qubit.  Its
environment learns nothing in any number of uses, and no channel from the environment's two states to a qubit recovers the input. -/
example : ∃ o, QChan.init false attachOps 1 2 2 2 [] = .ok o ∧ CanBeUndone o 4 2 1 ∧ LearnsNothing o (2 ^ 3) 3 := by
  obtain ⟨o, ho⟩ := init_exact false attachOps 1 2 2 2 [] (by decide) rfl rfl attachOps_tp
  obtain ⟨r, hr⟩ := init_exact true ptraceOps 2 1 2 2 [] (by decide) rfl rfl ptraceOps_tp
  have hu : CanBeUndone o 4 2 1 := ⟨true, ptraceOps, 2, 1, 2, 2, [], r, hr, rfl, rfl, ptraceOps_tp, fun x x1 x2 => by
      obtain ⟨y, y1, y2, y3, y4⟩ := api_channel_one ho [] ⟨by simp, by simp⟩ x x1 x2
      obtain ⟨z, z1, z2, z3, z4⟩ := api_channel_one hr [] ⟨by simp, by simp⟩ y y2 y3
      refine ⟨y, z, y1, z1, ?_⟩
      rw [Arr.same_iff_mat, z2, z3, x1, x2]
      refine ⟨rfl, rfl, ?_⟩
      exact z4.trans (Eq.trans (congrArg _ y4) (attach_undone _))⟩
  refine ⟨o, ho, hu, ?_⟩
  have h3 := (C112_uses ho attachOps_tp (by norm_num) [] [] 3 ⟨by simp, by simp⟩ ⟨by simp, by simp⟩).mpr hu
  exact (C112_undone_iff ho (Or.inr rfl) attachOps_tp (by norm_num) [] 3 ⟨by simp, by simp⟩).mp h3

/-- ... and on the other side: full dephasing tells the environment the bit, so no decoder undoes it, not even after three uses. -/
example : ∃ o, QChan.init true dephOps 1 1 2 2 [] = .ok o ∧ ¬ LearnsNothing o (2 ^ 3) 3 ∧ ¬ CanBeUndone o (2 ^ 3) (2 ^ 3) 3 := by
  obtain ⟨o, ho⟩ := deph_ok true []
  have h1 := undone_ops ho dephOps_tp (by norm_num) [] 3 ⟨by simp, by simp⟩
  have hno : ¬ CanBeUndone o (2 ^ 3) (2 ^ 3) 3 := by
    intro hu
    have h2 := (products_pow _ dephOps_tp (by norm_num) (by norm_num)).mp (h1.mp hu)
    obtain ⟨w, hw⟩ := h2 ⟨0, by decide⟩ ⟨0, by decide⟩
    have e0 := congrFun (congrFun hw ⟨0, by decide⟩) ⟨0, by decide⟩
    have e1 := congrFun (congrFun hw ⟨1, by decide⟩) ⟨1, by decide⟩
    simp [dephOps, Arr3.ops, Matrix.mul_apply, Fin.sum_univ_two] at e0 e1
    exact one_ne_zero (e0.trans e1.symm)
  exact ⟨o, ho, fun hl => hno ((C112_undone_iff ho (Or.inl rfl) dephOps_tp (by norm_num) [] 3 ⟨by simp, by simp⟩).mpr hl), hno⟩

end

end PyQ
