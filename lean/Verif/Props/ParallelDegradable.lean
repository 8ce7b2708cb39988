import Verif.Lemmas.Parallel
import Verif.Props.RateLaws

/-! # C127: when nothing is gained by using two channels side by side -/

namespace PyQ

open Matrix Spec
open scoped ComplexOrder

section Info

variable {l₁ l₂ a b c d : ℕ} {K : Fin l₁ → Matrix (Fin a) (Fin c) ℂ} {L : Fin l₂ → Matrix (Fin b) (Fin d) ℂ}

theorem parts_density {ρ : Matrix (Fin (c * d)) (Fin (c * d)) ℂ} (hρ : IsDensity ρ) :
    IsDensity (firstPart (ρ.submatrix (finProdFinEquiv : Fin c × Fin d ≃ _) finProdFinEquiv)) ∧
      IsDensity (secondPart (ρ.submatrix (finProdFinEquiv : Fin c × Fin d ≃ _) finProdFinEquiv)) := by
  have hp := hρ.1.submatrix (finProdFinEquiv : Fin c × Fin d ≃ _)
  have ht : trace (ρ.submatrix (finProdFinEquiv : Fin c × Fin d ≃ _) finProdFinEquiv) = 1 := by
    rw [← hρ.2]
    exact Equiv.sum_comp (finProdFinEquiv : Fin c × Fin d ≃ _) fun x => ρ x x
  have h1 := trace_firstPart (ρ.submatrix (finProdFinEquiv : Fin c × Fin d ≃ _) finProdFinEquiv) 1
  have h2 := trace_secondPart (ρ.submatrix (finProdFinEquiv : Fin c × Fin d ≃ _) finProdFinEquiv) 1
  rw [one_kronecker_one, Matrix.mul_one, Matrix.mul_one, ht] at h1 h2
  exact ⟨⟨firstPart_psd hp, h1.symm⟩, ⟨secondPart_psd hp, h2.symm⟩⟩

theorem bestInfo_mul_le {l' : ℕ} {D : Fin l' → Matrix (Fin l₁) (Fin a) ℂ} (hD' : TracePreserving D) (hK : TracePreserving K)
    (hD : ∀ ρ, applyKraus D (applyKraus K ρ) = entropyExchange K ρ) {q : ℝ}
    (hq : ∀ ρ, IsDensity ρ → krausInfo K ρ / Real.log 2 ≤ q) (hc : 0 < c) (n : ℕ) : bestInfo K n ≤ n * q := by
  refine le_of_forall_pos_le_add fun δ hδ => ?_
  obtain ⟨ρ, hρ, hn⟩ := bestInfo_near (K := K) hc n hδ
  have key := div_le_div_of_nonneg_right (degradable_subadd _ hD' _ hK hD hρ.1) (Real.log_pos one_lt_two).le
  rw [Finset.sum_div] at key
  have h2 : ∑ t : Fin n, krausInfo K (marginal ρ t) / Real.log 2 ≤ ∑ t : Fin n, q :=
    Finset.sum_le_sum fun t _ => hq _ (marginal_density hρ t)
  rw [Finset.sum_const, Finset.card_univ, Fintype.card_fin, nsmul_eq_mul] at h2
  linarith

theorem mul_le_bestInfo (hK : TracePreserving K) (hc : 0 < c) (n : ℕ) : n * bestInfo K 1 ≤ bestInfo K n := by
  induction n with
  | zero => simpa using bestInfo_nonneg hK hc 0
  | succ n ih =>
    have := bestInfo_superadd hK hc n 1
    push_cast
    linarith

theorem bestInfo_parallel {p q : ℕ} {D : Fin p → Matrix (Fin l₁) (Fin a) ℂ} {E : Fin q → Matrix (Fin l₂) (Fin b) ℂ}
    (hD' : TracePreserving D) (hE' : TracePreserving E) (hK : TracePreserving K) (hL : TracePreserving L)
    (hD : ∀ ρ, applyKraus D (applyKraus K ρ) = entropyExchange K ρ)
    (hE : ∀ ρ, applyKraus E (applyKraus L ρ) = entropyExchange L ρ) (hc : 0 < c) (hd : 0 < d) (n : ℕ) :
    bestInfo (fun k : Fin (l₁ * l₂) => kron (K k.divNat) (L k.modNat)) n = n * (bestInfo K 1 + bestInfo L 1) := by
  refine le_antisymm ?_ ?_
  · refine bestInfo_mul_le (kron_tp hD' hE') (kron_tp hK hL) (degradable_kron hD hE) (fun ρ hρ => ?_) (Nat.mul_pos hc hd) n
    obtain ⟨h1, h2⟩ := parts_density hρ
    have k1 := degradable_subadd_two hD' hE' hK hL hD hE (hρ.1.submatrix (finProdFinEquiv : Fin c × Fin d ≃ _))
    have k2 := div_le_div_of_nonneg_right k1 (Real.log_pos one_lt_two).le
    rw [krausInfo_parallel hρ.1]
    rw [add_div] at k2
    have := one_le_bestInfo hK h1
    have := one_le_bestInfo hL h2
    linarith
  · have h1 := bestInfo_side hK hL hc hd n
    have h2 := mul_le_bestInfo hK hc n
    have h3 := mul_le_bestInfo hL hd n
    rw [mul_add]
    linarith

end Info

section Side

variable {sp₁ sp₂ sp₃ sp₄ : Bool} {ops₁ ops₂ ops₃ ops₄ : Arr3 ℂ} {d₁ e₁ d₂ e₂ a₃ b₃ d₃ e₃ a₄ b₄ d₄ e₄ : ℕ}
  {orth₁ orth₂ orth₃ orth₄ : List ℕ} {s o t r r' : KrausObj} {c₁ c₂ c₃ c₄ : List QChan.Call}

/-- **C127 (degradable)**.  If channel objects turn what one use of `A`, and of `B`, delivers into the state of its environment, then
the best value of `n` uses of `A * B`, on whatever joint state, is `n` times the sum of the best values of one use of each: the
values, and the rates, add exactly. -/
theorem C127_degradable (hs : QChan.init sp₁ ops₁ 1 1 d₁ e₁ orth₁ = .ok s)
    (ho : QChan.init sp₂ ops₂ 1 1 d₂ e₂ orth₂ = .ok o) (hr : QChan.init sp₃ ops₃ a₃ b₃ d₃ e₃ orth₃ = .ok r)
    (hr' : QChan.init sp₄ ops₄ a₄ b₄ d₄ e₄ orth₄ = .ok r') (horth₁ : sp₁ = true ∨ orth₁ = []) (horth₂ : sp₂ = true ∨ orth₂ = [])
    (htp₁ : TracePreserving (ops₁.ops ops₁.len (e₁ ^ 1) (d₁ ^ 1))) (htp₂ : TracePreserving (ops₂.ops ops₂.len (e₂ ^ 1) (d₂ ^ 1)))
    (htp₃ : TracePreserving (ops₃.ops ops₃.len (e₃ ^ b₃) (d₃ ^ a₃))) (htp₄ : TracePreserving (ops₄.ops ops₄.len (e₄ ^ b₄) (d₄ ^ a₄)))
    (hin : d₃ ^ a₃ = e₁ ^ 1) (hout : e₃ ^ b₃ = ops₁.len) (hin' : d₄ ^ a₄ = e₂ ^ 1) (hout' : e₄ ^ b₄ = ops₂.len)
    (h₁ : SafeUses sp₁ (c₁.map QChan.Call.uses ++ [1])) (h₂ : SafeUses sp₂ (c₂.map QChan.Call.uses ++ [1]))
    (h₃ : SafeUses sp₃ (c₃.map QChan.Call.uses ++ [1])) (h₄ : SafeUses sp₄ (c₄.map QChan.Call.uses ++ [1]))
    (hdeg : DegradedBy (QChan.history s c₁) (QChan.history r c₃) (d₁ ^ 1))
    (hdeg' : DegradedBy (QChan.history o c₂) (QChan.history r' c₄) (d₂ ^ 1)) (hd₁ : 0 < d₁) (hd₂ : 0 < d₂) (cs co : List QChan.Call)
    (ht : QChan.mul (QChan.history s cs) (QChan.history o co) = .ok t) :
    ∃ Q₁ Q₂ Q : ℕ → ℝ, BestValue sp₁ s ops₁.len d₁ e₁ Q₁ ∧ BestValue sp₂ o ops₂.len d₂ e₂ Q₂ ∧
      BestValue (sp₁ || sp₂) t (ops₁.len * ops₂.len) (d₁ * d₂) (e₁ * e₂) Q ∧ RateOf Q₁ (Q₁ 1) ∧ RateOf Q₂ (Q₂ 1) ∧
      RateOf Q (Q₁ 1 + Q₂ 1) ∧ ∀ n : ℕ, Q n = n * (Q₁ 1 + Q₂ 1) := by
  have hti := (mul_inv hs ho cs co).symm.trans ht
  obtain ⟨-, -, -, -, -, -, -, -, g9, g10, g11, -⟩ := qchanInit_ok ho
  rw [pow_one] at g10 g11
  have l1 : (ops₁.kron ops₂).len = ops₁.len * ops₂.len := rfl
  have k1 := kron_ops ops₁ ops₂ ops₁.len ops₂.len e₁ e₂ d₁ d₂ rfl g11 g10
  have hD := degraded_ops hr hs horth₁ hin hout h₁ h₃ hdeg
  have hE := degraded_ops hr' ho horth₂ hin' hout' h₂ h₄ hdeg'
  rw [hin, hout] at htp₃
  rw [hin', hout'] at htp₄
  rw [pow_one e₁] at htp₃
  rw [pow_one e₂] at htp₄
  rw [pow_one e₁, pow_one d₁] at hD
  rw [pow_one e₂, pow_one d₂] at hE
  have tp₁ : TracePreserving (ops₁.ops ops₁.len e₁ d₁) := by
    rw [pow_one e₁, pow_one d₁] at htp₁
    exact htp₁
  have tp₂ : TracePreserving (ops₂.ops ops₂.len e₂ d₂) := by
    rw [pow_one e₂, pow_one d₂] at htp₂
    exact htp₂
  have tp : TracePreserving ((ops₁.kron ops₂).ops (ops₁.len * ops₂.len) (e₁ * e₂) (d₁ * d₂)) := by
    rw [k1]
    exact kron_tp tp₁ tp₂
  have b1 := bestInfo_bestValue hs horth₁ htp₁ hd₁
  have b2 := bestInfo_bestValue ho horth₂ htp₂ hd₂
  have b3 := bestInfo_bestValue hti (Or.inr rfl) (by rw [pow_one, pow_one, l1]; exact tp) (Nat.mul_pos hd₁ hd₂)
  rw [pow_one e₁, pow_one d₁] at b1
  rw [pow_one e₂, pow_one d₂] at b2
  rw [pow_one (e₁ * e₂), pow_one (d₁ * d₂)] at b3
  rw [l1] at b3
  obtain ⟨C₁, p1, p2, -, -⟩ := bestInfo_rate tp₁ hd₁
  obtain ⟨C₂, q1, q2, -, -⟩ := bestInfo_rate tp₂ hd₂
  obtain ⟨C, r1, r2, -, -⟩ := bestInfo_rate tp (Nat.mul_pos hd₁ hd₂)
  have e1 := rate_unique ⟨p1, p2⟩ (bestInfo_mul_le htp₃ tp₁ hD (fun ρ hρ => one_le_bestInfo tp₁ hρ) hd₁) le_rfl
  have e2 := rate_unique ⟨q1, q2⟩ (bestInfo_mul_le htp₄ tp₂ hE (fun ρ hρ => one_le_bestInfo tp₂ hρ) hd₂) le_rfl
  have hpar : ∀ n, bestInfo ((ops₁.kron ops₂).ops (ops₁.len * ops₂.len) (e₁ * e₂) (d₁ * d₂)) n =
      n * (bestInfo (ops₁.ops ops₁.len e₁ d₁) 1 + bestInfo (ops₂.ops ops₂.len e₂ d₂) 1) := by
    intro n
    rw [k1]
    exact bestInfo_parallel htp₃ htp₄ tp₁ tp₂ hD hE hd₁ hd₂ n
  have e3 := rate_unique ⟨r1, r2⟩ (fun n => (hpar n).le) (by rw [hpar 1, Nat.cast_one, one_mul])
  subst e1 e2 e3
  exact ⟨_, _, _, b1, b2, b3, ⟨p1, p2⟩, ⟨q1, q2⟩, ⟨r1, r2⟩, hpar⟩

/-- **C127 (antidegradable)**.  If channel objects turn the environment of one use of `A`, and of `B`, into what it delivers, then no
number of uses of `A * B` has a positive value: two such channels cannot make each other useful. -/
theorem C127_antidegradable (hs : QChan.init sp₁ ops₁ 1 1 d₁ e₁ orth₁ = .ok s)
    (ho : QChan.init sp₂ ops₂ 1 1 d₂ e₂ orth₂ = .ok o) (hr : QChan.init sp₃ ops₃ a₃ b₃ d₃ e₃ orth₃ = .ok r)
    (hr' : QChan.init sp₄ ops₄ a₄ b₄ d₄ e₄ orth₄ = .ok r') (horth₁ : sp₁ = true ∨ orth₁ = []) (horth₂ : sp₂ = true ∨ orth₂ = [])
    (htp₁ : TracePreserving (ops₁.ops ops₁.len (e₁ ^ 1) (d₁ ^ 1))) (htp₂ : TracePreserving (ops₂.ops ops₂.len (e₂ ^ 1) (d₂ ^ 1)))
    (htp₃ : TracePreserving (ops₃.ops ops₃.len (e₃ ^ b₃) (d₃ ^ a₃))) (htp₄ : TracePreserving (ops₄.ops ops₄.len (e₄ ^ b₄) (d₄ ^ a₄)))
    (hin : d₃ ^ a₃ = ops₁.len) (hout : e₃ ^ b₃ = e₁ ^ 1) (hin' : d₄ ^ a₄ = ops₂.len) (hout' : e₄ ^ b₄ = e₂ ^ 1)
    (h₁ : SafeUses sp₁ (c₁.map QChan.Call.uses ++ [1])) (h₂ : SafeUses sp₂ (c₂.map QChan.Call.uses ++ [1]))
    (h₃ : SafeUses sp₃ (c₃.map QChan.Call.uses ++ [1])) (h₄ : SafeUses sp₄ (c₄.map QChan.Call.uses ++ [1]))
    (hres : RestoredBy (QChan.history s c₁) (QChan.history r c₃) (d₁ ^ 1))
    (hres' : RestoredBy (QChan.history o c₂) (QChan.history r' c₄) (d₂ ^ 1)) (hd₁ : 0 < d₁) (hd₂ : 0 < d₂) (cs co : List QChan.Call)
    (ht : QChan.mul (QChan.history s cs) (QChan.history o co) = .ok t) :
    BestValue (sp₁ || sp₂) t (ops₁.len * ops₂.len) (d₁ * d₂) (e₁ * e₂) fun _ => 0 := by
  have hlog : 0 < Real.log 2 := Real.log_pos (by norm_num)
  have hti := (mul_inv hs ho cs co).symm.trans ht
  obtain ⟨-, -, -, -, -, -, -, -, g9, g10, g11, -⟩ := qchanInit_ok ho
  rw [pow_one] at g10 g11
  have l1 : (ops₁.kron ops₂).len = ops₁.len * ops₂.len := rfl
  have k1 := kron_ops ops₁ ops₂ ops₁.len ops₂.len e₁ e₂ d₁ d₂ rfl g11 g10
  have hD := restored_ops hr hs horth₁ hin hout h₁ h₃ hres
  have hE := restored_ops hr' ho horth₂ hin' hout' h₂ h₄ hres'
  rw [hin, hout] at htp₃
  rw [hin', hout'] at htp₄
  rw [pow_one e₁] at htp₃
  rw [pow_one e₂] at htp₄
  rw [pow_one e₁, pow_one d₁] at hD
  rw [pow_one e₂, pow_one d₂] at hE
  have tp₁ : TracePreserving (ops₁.ops ops₁.len e₁ d₁) := by
    rw [pow_one e₁, pow_one d₁] at htp₁
    exact htp₁
  have tp₂ : TracePreserving (ops₂.ops ops₂.len e₂ d₂) := by
    rw [pow_one e₂, pow_one d₂] at htp₂
    exact htp₂
  have tp : TracePreserving ((ops₁.kron ops₂).ops (ops₁.len * ops₂.len) (e₁ * e₂) (d₁ * d₂)) := by
    rw [k1]
    exact kron_tp tp₁ tp₂
  have b3 := bestInfo_bestValue hti (Or.inr rfl) (by rw [pow_one, pow_one, l1]; exact tp) (Nat.mul_pos hd₁ hd₂)
  rw [pow_one (e₁ * e₂), pow_one (d₁ * d₂)] at b3
  rw [l1] at b3
  have hz : bestInfo ((ops₁.kron ops₂).ops (ops₁.len * ops₂.len) (e₁ * e₂) (d₁ * d₂)) = fun _ => 0 := by
    funext n
    refine le_antisymm (csSup_le (bestInfo_nonempty (Nat.mul_pos hd₁ hd₂) n) ?_) (bestInfo_nonneg tp (Nat.mul_pos hd₁ hd₂) n)
    rintro _ ⟨ρ, hρ, rfl⟩
    rw [k1]
    have key := div_le_div_of_nonneg_right (antidegradable_nonpos _ (tensorPow_tp _ n (kron_tp htp₃ htp₄)) _
      (antidegradable_pow _ _ (antidegradable_kron hD hE) n) hρ.1) hlog.le
    rwa [zero_div] at key
  rw [← hz]
  exact b3

end Side

/-! ### Cases that meet the hypotheses -/

/-- Two phase flip channels, with any probabilities, side by side: the values add. -/
example {p q : ℝ} (hp0 : 0 ≤ p) (hp1 : p ≤ 1) (hq0 : 0 ≤ q) (hq1 : q ≤ 1) :
    ∃ (s o t : KrausObj) (Q₁ Q₂ Q : ℕ → ℝ), QChan.init false (opsArr (phaseFlip p)) 1 1 2 2 [] = .ok s ∧
      QChan.init true (opsArr (phaseFlip q)) 1 1 2 2 [] = .ok o ∧ QChan.mul s o = .ok t ∧ BestValue false s 2 2 2 Q₁ ∧
      BestValue true o 2 2 2 Q₂ ∧ BestValue true t 4 4 4 Q ∧ ∀ n : ℕ, Q n = n * (Q₁ 1 + Q₂ 1) := by
  obtain ⟨s, hs⟩ := opsArr_init (a := 1) (b := 1) (d := 2) (e := 2) false (phaseFlip p) (by norm_num) (phaseFlip_tp hp0 hp1) []
  obtain ⟨o, ho⟩ := opsArr_init (a := 1) (b := 1) (d := 2) (e := 2) true (phaseFlip q) (by norm_num) (phaseFlip_tp hq0 hq1) []
  obtain ⟨r, hr⟩ := opsArr_init false (a := 1) (b := 1) (d := 2) (e := 2) (phaseDegrade p) (by decide) (phaseDegrade_tp hp0 hp1) []
  obtain ⟨r', hr'⟩ := opsArr_init true (a := 1) (b := 1) (d := 2) (e := 2) (phaseDegrade q) (by decide) (phaseDegrade_tp hq0 hq1) []
  have e1 : (opsArr (phaseFlip p)).ops (opsArr (phaseFlip p)).len (2 ^ 1) (2 ^ 1) = phaseFlip p := opsArr_ops _
  have e2 : (opsArr (phaseFlip q)).ops (opsArr (phaseFlip q)).len (2 ^ 1) (2 ^ 1) = phaseFlip q := opsArr_ops _
  have e3 : (opsArr (phaseDegrade p)).ops (opsArr (phaseDegrade p)).len (2 ^ 1) (2 ^ 1) = phaseDegrade p := opsArr_ops _
  have e4 : (opsArr (phaseDegrade q)).ops (opsArr (phaseDegrade q)).len (2 ^ 1) (2 ^ 1) = phaseDegrade q := opsArr_ops _
  have t1 : TracePreserving ((opsArr (phaseFlip p)).ops (opsArr (phaseFlip p)).len (2 ^ 1) (2 ^ 1)) := by
    rw [e1]; exact phaseFlip_tp hp0 hp1
  have t2 : TracePreserving ((opsArr (phaseFlip q)).ops (opsArr (phaseFlip q)).len (2 ^ 1) (2 ^ 1)) := by
    rw [e2]; exact phaseFlip_tp hq0 hq1
  obtain ⟨t, ht, -⟩ := C32_mul_partial hs ho [] [] t1 t2
  obtain ⟨Q₁, Q₂, Q, h1, h2, h3, -, -, -, h4⟩ := C127_degradable (c₁ := []) (c₂ := []) (c₃ := []) (c₄ := []) hs ho hr hr' (Or.inr rfl)
    (Or.inl rfl) t1 t2 (by rw [e3]; exact phaseDegrade_tp hp0 hp1) (by rw [e4]; exact phaseDegrade_tp hq0 hq1) rfl rfl rfl rfl
    ⟨by simp, by simp⟩ ⟨by simp, by simp⟩ ⟨by simp, by simp⟩ ⟨by simp, by simp⟩
    (degraded_of_ops hr hs (Or.inr rfl) rfl rfl fun ρ => by
      have e5 : (opsArr (phaseDegrade p)).ops (opsArr (phaseDegrade p)).len (opsArr (phaseFlip p)).len (2 ^ 1) = phaseDegrade p :=
        opsArr_ops _
      rw [e1, e5]
      exact phaseFlip_degrade hp0 hp1 ρ)
    (degraded_of_ops hr' ho (Or.inl rfl) rfl rfl fun ρ => by
      have e5 : (opsArr (phaseDegrade q)).ops (opsArr (phaseDegrade q)).len (opsArr (phaseFlip q)).len (2 ^ 1) = phaseDegrade q :=
        opsArr_ops _
      rw [e2, e5]
      exact phaseFlip_degrade hq0 hq1 ρ) (by norm_num) (by norm_num) [] [] ht
  exact ⟨s, o, t, Q₁, Q₂, Q, hs, ho, ht, h1, h2, h3, h4⟩

/-- Two erasures, each with probability at least `1/2`, side by side never have a positive value. -/
example {p q : ℝ} (hp0 : 1 / 2 ≤ p) (hp1 : p ≤ 1) (hq0 : 1 / 2 ≤ q) (hq1 : q ≤ 1) :
    ∃ s o t : KrausObj, QChan.init false (opsArr (erasure p)) 1 1 2 3 [] = .ok s ∧
      QChan.init true (opsArr (erasure q)) 1 1 2 3 [] = .ok o ∧ QChan.mul s o = .ok t ∧ BestValue true t 9 4 9 fun _ => 0 := by
  have hp : 0 < p := by linarith
  have hq : 0 < q := by linarith
  have tp : TracePreserving (eraseBack ((1 - p) / p)) := eraseBack_tp (div_nonneg (by linarith) hp.le) (by rw [div_le_one hp]; linarith)
  have tq : TracePreserving (eraseBack ((1 - q) / q)) := eraseBack_tp (div_nonneg (by linarith) hq.le) (by rw [div_le_one hq]; linarith)
  obtain ⟨s, hs⟩ := opsArr_init false (a := 1) (b := 1) (d := 2) (e := 3) (erasure p) (by decide) (erasure_tp hp.le hp1) []
  obtain ⟨o, ho⟩ := opsArr_init true (a := 1) (b := 1) (d := 2) (e := 3) (erasure q) (by decide) (erasure_tp hq.le hq1) []
  obtain ⟨r, hr⟩ := opsArr_init true (a := 1) (b := 1) (d := 3) (e := 3) (eraseBack ((1 - p) / p)) (by decide) tp []
  obtain ⟨r', hr'⟩ := opsArr_init true (a := 1) (b := 1) (d := 3) (e := 3) (eraseBack ((1 - q) / q)) (by decide) tq []
  have e1 : (opsArr (erasure p)).ops (opsArr (erasure p)).len (3 ^ 1) (2 ^ 1) = erasure p := opsArr_ops _
  have e2 : (opsArr (erasure q)).ops (opsArr (erasure q)).len (3 ^ 1) (2 ^ 1) = erasure q := opsArr_ops _
  have e3 : (opsArr (eraseBack ((1 - p) / p))).ops (opsArr (eraseBack ((1 - p) / p))).len (3 ^ 1) (3 ^ 1) = eraseBack ((1 - p) / p) :=
    opsArr_ops _
  have e4 : (opsArr (eraseBack ((1 - q) / q))).ops (opsArr (eraseBack ((1 - q) / q))).len (3 ^ 1) (3 ^ 1) = eraseBack ((1 - q) / q) :=
    opsArr_ops _
  have t1 : TracePreserving ((opsArr (erasure p)).ops (opsArr (erasure p)).len (3 ^ 1) (2 ^ 1)) := by
    rw [e1]; exact erasure_tp hp.le hp1
  have t2 : TracePreserving ((opsArr (erasure q)).ops (opsArr (erasure q)).len (3 ^ 1) (2 ^ 1)) := by
    rw [e2]; exact erasure_tp hq.le hq1
  obtain ⟨t, ht, -⟩ := C32_mul_partial hs ho [] [] t1 t2
  refine ⟨s, o, t, hs, ho, ht, C127_antidegradable (c₁ := []) (c₂ := []) (c₃ := []) (c₄ := []) hs ho hr hr' (Or.inr rfl)
    (Or.inl rfl) t1 t2 (by rw [e3]; exact tp) (by rw [e4]; exact tq) rfl rfl rfl rfl
    ⟨by simp, by simp⟩ ⟨by simp, by simp⟩ ⟨by simp, by simp⟩ ⟨by simp, by simp⟩
    (restored_of_ops hr hs (Or.inr rfl) rfl rfl fun ρ => ?_) (restored_of_ops hr' ho (Or.inl rfl) rfl rfl fun ρ => ?_)
    (by norm_num) (by norm_num) [] [] ht⟩
  · have e5 : (opsArr (eraseBack ((1 - p) / p))).ops (opsArr (eraseBack ((1 - p) / p))).len (3 ^ 1) (opsArr (erasure p)).len =
      eraseBack ((1 - p) / p) := opsArr_ops _
    rw [e1, e5]
    exact erasure_back hp0 hp1 ρ
  · have e5 : (opsArr (eraseBack ((1 - q) / q))).ops (opsArr (eraseBack ((1 - q) / q))).len (3 ^ 1) (opsArr (erasure q)).len =
      eraseBack ((1 - q) / q) := opsArr_ops _
    rw [e2, e5]
    exact erasure_back hq0 hq1 ρ

end PyQ
