import Verif.Props.Device

/-!
# C53 on a real device: what each trial starts from

`set_register_to_zero` does nothing for `real_device=True`, so each trial goes on with the basis state the trial before it
measured.
-/

namespace PyQ

open Spec

noncomputable section

variable {N : ℕ} {cheat : Bool} {w : World N} {epsilon : ℝ}

/-- What the register holds when trial `t` starts and it is never reset: `ψ` at first, later the basis state that the trial
before it measured. -/
def Spec.leftBefore (w : World N) (φ : ℕ → Amp N) (ψ : Amp N) : ℕ → Amp N
  | 0 => ψ
  | t + 1 => ket (w.outcome t (φ t))

/-- **C53, real devices**.  With `real_device=True` the estimate is the fraction of trials with outcome zero, where only the first
trial starts in the state the register had, and every later trial starts in the basis state the trial before it measured. -/
theorem C53_real_device {n : ℕ} (hn : 0 < n) (U : ℕ → List DGate) (φ : ℕ → Amp N) (ψ : Amp N)
    (hU : ∀ t < n, ∃ phases, twoDesign N epsilon (w.draws t) = .ok (U t, phases))
    (hch : ∀ t < n, w.channel t (runD (U t) (leftBefore w φ ψ t)) = .ok (runD (U t) (φ t))) :
    estimateFidelity true cheat w n epsilon ψ =
      .ok ((((Finset.range n).filter fun t => w.outcome t (φ t) = 0).card : ℝ) / n) := by
  have key : ∀ m ≤ n, (List.range m).foldlM (estimateStep true cheat epsilon w) (ψ, 0) =
      .ok (leftBefore w φ ψ m, ((Finset.range m).filter fun t => w.outcome t (φ t) = 0).card) := by
    intro m hm
    induction m with
    | zero => rfl
    | succ m ih =>
      obtain ⟨phases, hd⟩ := hU m (by omega)
      rw [List.range_succ, foldlM_append_except, ih (by omega)]
      have ht : trial true cheat epsilon w m (leftBefore w φ ψ m) = _ := trial_ok hd (hch m (by omega))
      simp only [Except.bind, List.foldlM_cons, List.foldlM_nil, estimateStep, ht, bind, pure, Except.pure]
      rw [Finset.range_add_one, Finset.filter_insert]
      by_cases h0 : w.outcome m (φ m) = 0
      · rw [if_pos (by simpa using h0), if_pos h0, Finset.card_insert_of_notMem (by simp)]
        rfl
      · rw [if_neg (by simpa using h0), if_neg h0]
        rfl
  unfold estimateFidelity
  rw [Int.toNat_natCast, key n le_rfl]
  simp only [bind, Except.bind]
  rw [if_neg (by exact_mod_cast hn.ne')]
  simp [pure, Except.pure]

/-- **C53, real devices, no noise**.  With `real_device=True` and a channel that changes nothing, on a register that holds a basis
state, the estimate is one if that basis state is zero and zero if it is any other, for every number of trials. -/
theorem C53_real_device_identity {n : ℕ} (hn : 0 < n) (heps : 0 < epsilon) (hN : 0 < N) (hw : Spec.Possible w)
    (c : ℕ → ℂ) (hc : ∀ t, c t ≠ 0) (hch : ∀ t ψ, w.channel t ψ = .ok (c t • ψ)) (b : Fin N → ZMod 2) :
    estimateFidelity true cheat w n epsilon (ket b) = .ok (if b = 0 then 1 else 0) := by
  have hd : ∀ t, ∃ gs phases, twoDesign N epsilon (w.draws t) = .ok (gs, phases) := fun t => by
    obtain ⟨⟨gs, phases⟩, hd⟩ := (C42_accepted (N := N) epsilon (w.draws t)).mpr ⟨heps, hN⟩
    exact ⟨gs, phases, hd⟩
  choose U phases hU using hd
  have hl : ∀ t, leftBefore w (fun t => c t • ket b) (ket b) t = ket b := by
    intro t
    cases t with
    | zero => rfl
    | succ t => exact congrArg ket (possible_ket hw t (c t) (hc t) b)
  rw [C53_real_device hn U (fun t => c t • ket b) (ket b) (fun t _ => ⟨phases t, hU t⟩) (fun t _ => by
    rw [hl, hch, runD_smul])]
  congr 1
  have e : ∀ t, w.outcome t (c t • ket b) = b := fun t => possible_ket hw t (c t) (hc t) b
  simp only [e]
  have hn' : (n : ℝ) ≠ 0 := by exact_mod_cast hn.ne'
  split_ifs with h
  · rw [Finset.filter_true_of_mem fun _ _ => h, Finset.card_range, div_self hn']
  · rw [Finset.filter_false_of_mem fun _ _ => h]
    simp

/-- **C53, real devices, a flip**.  With `real_device=True`, a channel whose effect between the two halves of the two-design circuit
is to add `e ≠ 0` to the basis states, on a register of zeros: every second trial counts, although the fidelity is zero. -/
theorem C53_real_device_flip {m : ℕ} (hm : 0 < m) (heps : 0 < epsilon) (hN : 0 < N) (hw : Spec.Possible w) (e : Fin N → ZMod 2)
    (he : e ≠ 0) (hch : ∀ t gs phases, twoDesign N epsilon (w.draws t) = .ok (gs, phases) →
      ∀ b : Fin N → ZMod 2, w.channel t (runD gs (ket b)) = .ok (runD gs (ket (b + e)))) :
    estimateFidelity true cheat w (2 * m : ℕ) epsilon (ket 0) = .ok (1 / 2) ∧
    estimateFidelity false cheat w (2 * m : ℕ) epsilon (ket 0) = .ok 0 := by
  have hd : ∀ t, ∃ gs phases, twoDesign N epsilon (w.draws t) = .ok (gs, phases) := fun t => by
    obtain ⟨⟨gs, phases⟩, hd⟩ := (C42_accepted (N := N) epsilon (w.draws t)).mpr ⟨heps, hN⟩
    exact ⟨gs, phases, hd⟩
  choose U phases hU using hd
  have ho : ∀ t b, w.outcome t (ket b) = b := fun t b => by
    have := possible_ket hw t 1 one_ne_zero b
    rwa [one_smul] at this
  have hee : e + e = 0 := by funext i; exact add_self_z _
  set φ : ℕ → Amp N := fun t => if t % 2 = 0 then ket e else ket 0 with hφ
  have hl : ∀ t, leftBefore w φ (ket 0) t = if t % 2 = 0 then ket 0 else ket e := by
    intro t
    cases t with
    | zero => rfl
    | succ t =>
      show ket (w.outcome t (φ t)) = _
      simp only [hφ]
      by_cases h : t % 2 = 0
      · rw [if_pos h, ho, if_neg (by omega)]
      · rw [if_neg h, ho, if_pos (by omega)]
  constructor
  · rw [C53_real_device (by omega) U φ (ket 0) (fun t _ => ⟨phases t, hU t⟩) (fun t _ => by
      rw [hl]
      simp only [hφ]
      split_ifs
      · rw [hch t _ _ (hU t), zero_add]
      · rw [hch t _ _ (hU t), hee])]
    congr 1
    have h1 : ∀ m : ℕ, ((Finset.range (2 * m)).filter fun t => w.outcome t (φ t) = 0).card = m := by
      intro m
      induction m with
      | zero => simp
      | succ m ih =>
        have h2 : ¬ w.outcome (2 * m) (φ (2 * m)) = 0 := by
          simp only [hφ]
          rw [if_pos (by omega), ho]
          exact he
        have h3 : w.outcome (2 * m + 1) (φ (2 * m + 1)) = 0 := by
          simp only [hφ]
          rw [if_neg (by omega), ho]
        rw [show 2 * (m + 1) = 2 * m + 1 + 1 by ring, Finset.range_add_one, Finset.filter_insert, if_pos h3,
          Finset.card_insert_of_notMem (by simp), Finset.range_add_one, Finset.filter_insert, if_neg h2, ih]
    rw [h1]
    have : (m : ℝ) ≠ 0 := by exact_mod_cast hm.ne'
    push_cast
    field_simp
  · rw [C43_value (by omega) U (fun _ => ket e) (ket 0) (fun t _ => ⟨phases t, hU t⟩) (fun t _ => by
      rw [hch t _ _ (hU t), zero_add])]
    congr 1
    have : ∀ t, ¬ w.outcome t (ket e : Amp N) = 0 := fun t h => he (by rw [ho] at h; exact h)
    rw [Finset.filter_false_of_mem fun t _ => this t]
    simp

/-- The gate Z as the channel, with the draws without phases, meets the hypotheses of `C53_real_device_flip`. -/
example : Spec.Possible zWorld ∧ ((fun _ => 1 : Fin 1 → ZMod 2) ≠ 0) ∧
    ∀ t gs phases, twoDesign 1 1 (zWorld.draws t) = .ok (gs, phases) →
      ∀ b : Fin 1 → ZMod 2, zWorld.channel t (runD gs (ket b)) = .ok (runD gs (ket (b + fun _ => 1))) := by
  refine ⟨C43_real_device_refuted.1, fun h => absurd (congrFun h 0) (by decide), fun t gs phases h b => ?_⟩
  obtain ⟨gs', phases', h1, h2⟩ := zeroDraws_design
  have : (gs, phases) = (gs', phases') := by
    have h3 : twoDesign 1 1 zeroDraws = .ok (gs, phases) := h
    rw [h1] at h3
    exact (Except.ok.inj h3).symm
  cases this
  have hq : ∀ b : Fin 1 → ZMod 2, (ket b : Amp 1) = oneQubit (if b = 0 then 1 else 0) (if b = 0 then 0 else 1) := by
    intro b
    funext x
    rcases bit_cases x with rfl | rfl <;> rcases bit_cases b with rfl | rfl <;> simp [ket, oneQubit, funext_iff]
  rw [hq, hq, h2, h2, H_qubit, H_qubit]
  simp only [zWorld, R_qubit]
  congr 1
  rw [Complex.exp_pi_mul_I]
  rcases bit_cases b with rfl | rfl
  · simp [funext_iff]
  · have : ((fun _ => 1) + fun _ => 1 : Fin 1 → ZMod 2) = 0 := by funext i; exact add_self_z _
    rw [this]
    simp [funext_iff]

end

end PyQ
