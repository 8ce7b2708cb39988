import Verif.Model.Optimize
import Verif.Lemmas.Except

/-!
# C40: the Lipschitz sampler
-/

namespace PyQ

variable {f : Objective} {P : Scheme} {nsize rank : ℕ}

/-- One accepted sample of the sampler: the number of the random draw, the vector, its density matrix and the
value. -/
structure Spec.Accepted where
  draw : ℕ
  vec : List ℝ
  rho : Arr ℂ
  value : ℝ

/-- `L` records which of the random draws `0 .. stop - 1` a sampler of the maximum of `-f` accepts: the first
draw always, and a later draw exactly if, with Lipschitz constant one, its value could reach the largest value
seen so far. -/
structure Spec.LipschitzRun (f : Objective) (P : Scheme) (nsize rank : ℕ) (L : List Spec.Accepted) (stop : ℕ) :
    Prop where
  /-- the samples are in the order in which they were drawn -/
  ordered : L.Pairwise fun a b => a.draw < b.draw
  drawn : ∀ q ∈ L, q.draw < stop ∧ P.random q.draw nsize rank = .ok q.vec ∧ P.rho q.vec nsize rank = .ok q.rho
  /-- the values are those of the samples -/
  value : ∀ q ∈ L, f q.vec = .ok (-q.value)
  first : ∃ q ∈ L, q.draw = 0
  accepted : ∀ q ∈ L, ∀ a ∈ L, ∀ b ∈ L, a.draw < q.draw → b.draw < q.draw →
    a.value ≤ b.value + sumAbsDiff q.rho b.rho
  rejected : ∀ t < stop, (∀ q ∈ L, q.draw ≠ t) → ∃ vec rho, P.random t nsize rank = .ok vec ∧
    P.rho vec nsize rank = .ok rho ∧ ∃ a ∈ L, ∃ b ∈ L, a.draw < t ∧ b.draw < t ∧
      b.value + sumAbsDiff rho b.rho < a.value

theorem listMax_ge : ∀ (l : List ℝ) (x : ℝ), x ∈ l → x ≤ listMax l := by
  have key : ∀ (l : List ℝ) (y : ℝ), y ≤ l.foldl max y ∧ ∀ x ∈ l, x ≤ l.foldl max y := by
    intro l
    induction l with
    | nil => intro y; simp
    | cons z l ih =>
      intro y
      simp only [List.foldl_cons]
      refine ⟨(le_max_left y z).trans (ih _).1, ?_⟩
      intro x hx
      rcases List.mem_cons.mp hx with rfl | hx
      · exact (le_max_right y x).trans (ih _).1
      · exact (ih _).2 x hx
  intro l x hx
  cases l with
  | nil => simp at hx
  | cons z l =>
    rcases List.mem_cons.mp hx with rfl | hx
    · exact (key l x).1
    · exact (key l z).2 x hx

theorem listMax_mem : ∀ l : List ℝ, l ≠ [] → listMax l ∈ l := by
  have key : ∀ (l : List ℝ) (y : ℝ), l.foldl max y = y ∨ l.foldl max y ∈ l := by
    intro l
    induction l with
    | nil => intro y; simp
    | cons z l ih =>
      intro y
      simp only [List.foldl_cons]
      rcases ih (max y z) with h | h
      · rw [h]
        rcases max_choice y z with h' | h' <;> simp [h']
      · exact Or.inr (List.mem_cons_of_mem _ h)
  intro l hl
  cases l with
  | nil => simp at hl
  | cons z l =>
    rcases key l z with h | h
    · simp [listMax, h]
    · exact List.mem_cons_of_mem _ h

/-- The triple stored by the model. -/
def Spec.Accepted.triple (q : Spec.Accepted) : List ℝ × Arr ℂ × ℝ := (q.vec, q.rho, q.value)

/-- The invariant of the loop. -/
structure LipInv (f : Objective) (P : Scheme) (nsize rank : ℕ) (s : LipState) (L : List Spec.Accepted)
    (t : ℕ) : Prop where
  run : Spec.LipschitzRun f P nsize rank L t
  samples : s.samples = L.map Spec.Accepted.triple
  fMax : s.fMax = listMax (L.map (·.value))

theorem lipStep_inv {s s' : LipState} {L : List Spec.Accepted} {t : ℕ} (h : LipInv f P nsize rank s L t)
    (hs : lipStep f P nsize rank t s = .ok s') : ∃ L', LipInv f P nsize rank s' L' (t + 1) := by
  unfold lipStep at hs
  rcases hv : P.random t nsize rank with e | vec
  · rw [hv] at hs; cases hs
  rw [hv] at hs
  simp only [bind, Except.bind] at hs
  rcases hr : P.rho vec nsize rank with e | rho
  · rw [hr] at hs; cases hs
  rw [hr] at hs
  simp only at hs
  have hb : ∀ x, x ∈ lipBounds s rho ↔ ∃ b ∈ L, b.value + sumAbsDiff rho b.rho = x := by
    intro x
    unfold lipBounds
    rw [h.samples, List.map_map, List.mem_map]
    rfl
  have hLt : ∀ q ∈ L, q.draw < t := fun q hq => (h.run.drawn q hq).1
  have hfm : ∀ a ∈ L, a.value ≤ s.fMax := by
    intro a ha
    rw [h.fMax]
    exact listMax_ge _ _ (List.mem_map_of_mem ha)
  by_cases hc : ∀ b ∈ lipBounds s rho, s.fMax ≤ b
  · rw [if_pos hc] at hs
    rcases hf : f vec with e | v
    · rw [hf] at hs; cases hs
    rw [hf] at hs
    injection hs with hs
    subst hs
    let q : Spec.Accepted := ⟨t, vec, rho, -v⟩
    refine ⟨L ++ [q], ⟨?_, ?_, ?_, ?_, ?_, ?_⟩, ?_, ?_⟩
    · rw [List.pairwise_append]
      refine ⟨h.run.ordered, List.pairwise_singleton _ _, ?_⟩
      intro a ha b hb'
      rw [List.mem_singleton] at hb'
      subst hb'
      exact hLt a ha
    · intro p hp
      rcases List.mem_append.mp hp with hp | hp
      · obtain ⟨h1, h2⟩ := h.run.drawn p hp
        exact ⟨h1.trans (Nat.lt_succ_self t), h2⟩
      · rw [List.mem_singleton] at hp
        subst hp
        exact ⟨Nat.lt_succ_self t, hv, hr⟩
    · intro p hp
      rcases List.mem_append.mp hp with hp | hp
      · exact h.run.value p hp
      · rw [List.mem_singleton] at hp
        subst hp
        simp only [q, neg_neg]
        exact hf
    · obtain ⟨p, hp, hp0⟩ := h.run.first
      exact ⟨p, List.mem_append_left _ hp, hp0⟩
    · intro p hp a ha b hb' hap hbp
      have hin : ∀ x ∈ L ++ [q], x.draw < t → x ∈ L := by
        intro x hx hxt
        rcases List.mem_append.mp hx with hx | hx
        · exact hx
        · rw [List.mem_singleton] at hx
          subst hx
          exact absurd hxt (lt_irrefl t)
      rcases List.mem_append.mp hp with hp | hp
      · have hpt := hLt p hp
        exact h.run.accepted p hp a (hin a ha (hap.trans hpt)) b (hin b hb' (hbp.trans hpt)) hap hbp
      · rw [List.mem_singleton] at hp
        subst hp
        exact (hfm a (hin a ha hap)).trans (hc _ ((hb _).mpr ⟨b, hin b hb' hbp, rfl⟩))
    · intro u hu hne
      have hut : u < t := by
        have := hne q (by simp)
        simp only [q] at this
        omega
      obtain ⟨vec', rho', h1, h2, a, ha, b, hb', h3⟩ := h.run.rejected u hut
        fun p hp => hne p (List.mem_append_left _ hp)
      exact ⟨vec', rho', h1, h2, a, List.mem_append_left _ ha, b, List.mem_append_left _ hb', h3⟩
    · simp only [h.samples, List.map_append, List.map_cons, List.map_nil]
      rfl
    · simp only [h.samples, List.map_append, List.map_cons, List.map_nil, List.map_map]
      rfl
  · rw [if_neg hc] at hs
    injection hs with hs
    subst hs
    refine ⟨L, ⟨h.run.ordered, ?_, h.run.value, h.run.first, h.run.accepted, ?_⟩, h.samples, h.fMax⟩
    · intro p hp
      obtain ⟨h1, h2⟩ := h.run.drawn p hp
      exact ⟨h1.trans (Nat.lt_succ_self t), h2⟩
    · intro u hu hne
      rcases Nat.lt_succ_iff_lt_or_eq.mp hu with hu | rfl
      · exact h.run.rejected u hu hne
      · refine ⟨vec, rho, hv, hr, ?_⟩
        push Not at hc
        obtain ⟨x, hx, hlt⟩ := hc
        obtain ⟨b, hbL, rfl⟩ := (hb x).mp hx
        have hmem := listMax_mem (L.map (·.value)) (by
          obtain ⟨p, hp, -⟩ := h.run.first
          exact List.ne_nil_of_mem (List.mem_map_of_mem hp))
        obtain ⟨a, ha, hav⟩ := List.mem_map.mp hmem
        exact ⟨a, ha, b, hbL, hLt a ha, hLt b hbL, by rw [hav, ← h.fMax]; exact hlt⟩

theorem lipStep_length {s s' : LipState} {t : ℕ} (hs : lipStep f P nsize rank t s = .ok s') :
    s'.samples.length ≤ s.samples.length + 1 := by
  unfold lipStep at hs
  rcases hv : P.random t nsize rank with e | vec
  · rw [hv] at hs; cases hs
  rw [hv] at hs
  simp only [bind, Except.bind] at hs
  rcases hr : P.rho vec nsize rank with e | rho
  · rw [hr] at hs; cases hs
  rw [hr] at hs
  simp only at hs
  split_ifs at hs with hc
  · rcases hf : f vec with e | v
    · rw [hf] at hs; cases hs
    rw [hf] at hs
    injection hs with hs
    subst hs
    simp
  · injection hs with hs
    subst hs
    simp

theorem lipLoop_inv {N : ℕ} : ∀ (tries t : ℕ) (s s' : LipState) (L : List Spec.Accepted),
    LipInv f P nsize rank s L t → s.samples.length ≤ max 1 N → lipLoop f P nsize rank N tries t s = .ok s' →
    ∃ L' stop, LipInv f P nsize rank s' L' stop ∧ t ≤ stop ∧ stop ≤ t + tries ∧ s'.samples.length ≤ max 1 N ∧
      (s'.samples.length < N → stop = t + tries) := by
  intro tries
  induction tries with
  | zero =>
    intro t s s' L h hl hs
    injection hs with hs
    subst hs
    exact ⟨L, t, h, le_refl _, le_refl _, hl, fun _ => rfl⟩
  | succ k ih =>
    intro t s s' L h hl hs
    unfold lipLoop at hs
    by_cases hc : s.samples.length < N
    · rw [if_pos hc] at hs
      rcases h1 : lipStep f P nsize rank t s with e | s1
      · rw [h1] at hs; cases hs
      rw [h1] at hs
      obtain ⟨L1, hL1⟩ := lipStep_inv h h1
      have hlen := lipStep_length h1
      obtain ⟨L', stop, a1, a2, a3, a4, a5⟩ := ih (t + 1) s1 s' L1 hL1 (by omega) hs
      exact ⟨L', stop, a1, by omega, by omega, a4, fun hh => by rw [a5 hh]; omega⟩
    · rw [if_neg hc] at hs
      injection hs with hs
      subst hs
      exact ⟨L, t, h, le_refl _, by omega, hl, fun hh => absurd hh hc⟩

/-- C40.  Whatever the random numbers and the objective: if `initial_guesses_lipschitz` returns, the samples are
those accepted in a run of the Lipschitz sampler over the draws `0 .. stop - 1`, the evaluations are minus the
objective at the samples in the same order, there is at least one sample and no more than were asked for,
`success` says whether the number asked for was reached, and the sampler stops early only for that reason. -/
theorem C40_sampler {N T : ℕ} {vecs : List (List ℝ)} {evals : List ℝ} {success : Bool}
    (h : initialGuesses f P nsize rank N T = .ok (vecs, evals, success)) :
    ∃ L stop, Spec.LipschitzRun f P nsize rank L stop ∧ vecs = L.map (·.vec) ∧ evals = L.map (·.value) ∧
      1 ≤ vecs.length ∧ vecs.length ≤ max 1 N ∧ (success = true ↔ vecs.length = N) ∧
      stop ≤ T + 1 ∧ (vecs.length < N → stop = T + 1) := by
  unfold initialGuesses at h
  rcases hv : P.random 0 nsize rank with e | vec
  · rw [hv] at h; cases h
  rw [hv] at h
  simp only [bind, Except.bind] at h
  rcases hr : P.rho vec nsize rank with e | rho
  · rw [hr] at h; cases h
  rw [hr] at h
  simp only at h
  rcases hf : f vec with e | v
  · rw [hf] at h; cases h
  rw [hf] at h
  simp only at h
  rcases hs : lipLoop f P nsize rank N T 1 ⟨[(vec, rho, -v)], -v⟩ with e | s
  · rw [hs] at h; cases h
  rw [hs] at h
  injection h with h
  simp only [Prod.mk.injEq] at h
  obtain ⟨rfl, rfl, rfl⟩ := h
  have h0 : LipInv f P nsize rank ⟨[(vec, rho, -v)], -v⟩ [⟨0, vec, rho, -v⟩] 1 := by
    refine ⟨⟨List.pairwise_singleton _ _, ?_, ?_, ?_, ?_, ?_⟩, rfl, rfl⟩
    · intro q hq
      rw [List.mem_singleton] at hq
      subst hq
      exact ⟨Nat.one_pos, hv, hr⟩
    · intro q hq
      rw [List.mem_singleton] at hq
      subst hq
      simpa using hf
    · exact ⟨_, List.mem_singleton_self _, rfl⟩
    · intro q hq a ha b hb hlt
      rw [List.mem_singleton] at hq ha
      subst hq ha
      exact absurd hlt (lt_irrefl _)
    · intro t ht hne
      exact absurd (by simpa using Nat.lt_one_iff.mp ht ▸ rfl) (hne _ (List.mem_singleton_self _))
  obtain ⟨L, stop, a1, a2, a3, a4, a5⟩ := lipLoop_inv T 1 _ s _ h0 (by simp) hs
  have hlen : s.samples.length = L.length := by rw [a1.samples, List.length_map]
  refine ⟨L, stop, a1.run, ?_, ?_, ?_, ?_, ?_, by omega, ?_⟩
  · rw [a1.samples, List.map_map]; rfl
  · rw [a1.samples, List.map_map]; rfl
  · rw [List.length_map, hlen]
    obtain ⟨q, hq, -⟩ := a1.run.first
    exact List.length_pos_of_mem hq
  · rw [List.length_map]; exact a4
  · simp
  · rw [List.length_map]
    intro hh
    rw [a5 hh]; omega

/-- C40.  The sampler terminates without raising whenever the draws and the objective do not raise. -/
theorem C40_total (N T : ℕ) (hP : ∀ t, ∃ vec rho v, P.random t nsize rank = .ok vec ∧
    P.rho vec nsize rank = .ok rho ∧ f vec = .ok v) :
    ∃ r, initialGuesses f P nsize rank N T = .ok r := by
  have hstep : ∀ t s, ∃ s', lipStep f P nsize rank t s = .ok s' := by
    intro t s
    obtain ⟨vec, rho, v, h1, h2, h3⟩ := hP t
    unfold lipStep
    rw [h1]
    simp only [bind, Except.bind]
    rw [h2]
    simp only
    split_ifs
    · rw [h3]; exact ⟨_, rfl⟩
    · exact ⟨_, rfl⟩
  have hloop : ∀ k t s, ∃ s', lipLoop f P nsize rank N k t s = .ok s' := by
    intro k
    induction k with
    | zero => intro t s; exact ⟨s, rfl⟩
    | succ k ih =>
      intro t s
      unfold lipLoop
      split_ifs
      · obtain ⟨s', hs'⟩ := hstep t s
        rw [hs']
        exact ih _ _
      · exact ⟨_, rfl⟩
  obtain ⟨vec, rho, v, h1, h2, h3⟩ := hP 0
  unfold initialGuesses
  rw [h1]
  simp only [bind, Except.bind]
  rw [h2]
  simp only
  rw [h3]
  simp only
  obtain ⟨s', hs'⟩ := hloop T 1 ⟨[(vec, rho, -v)], -v⟩
  rw [hs']
  exact ⟨_, rfl⟩

/-- C40.  An exception of the sampler is one of a draw, of `rho_from_vec` or of the objective. -/
theorem C40_error {N T : ℕ} {e : PyErr} (h : initialGuesses f P nsize rank N T = .error e) :
    ∃ t ≤ T, P.random t nsize rank = .error e ∨ ∃ vec, P.random t nsize rank = .ok vec ∧
      (P.rho vec nsize rank = .error e ∨ f vec = .error e) := by
  have hstep : ∀ t s, lipStep f P nsize rank t s = .error e → P.random t nsize rank = .error e ∨
      ∃ vec, P.random t nsize rank = .ok vec ∧ (P.rho vec nsize rank = .error e ∨ f vec = .error e) := by
    intro t s h
    unfold lipStep at h
    rcases hv : P.random t nsize rank with e' | vec
    · rw [hv] at h; injection h with h; subst h; exact Or.inl rfl
    · rw [hv] at h
      simp only [bind, Except.bind] at h
      refine Or.inr ⟨vec, rfl, ?_⟩
      rcases hr : P.rho vec nsize rank with e' | rho
      · rw [hr] at h; injection h with h; subst h; exact Or.inl rfl
      · rw [hr] at h
        simp only at h
        split_ifs at h
        · rcases hf : f vec with e' | v
          · rw [hf] at h; injection h with h; subst h; exact Or.inr rfl
          · rw [hf] at h; cases h
        · cases h
  have hloop : ∀ k t s, lipLoop f P nsize rank N k t s = .error e → ∃ t' < t + k, P.random t' nsize rank = .error e ∨
      ∃ vec, P.random t' nsize rank = .ok vec ∧ (P.rho vec nsize rank = .error e ∨ f vec = .error e) := by
    intro k
    induction k with
    | zero => intro t s h; cases h
    | succ k ih =>
      intro t s h
      unfold lipLoop at h
      split_ifs at h
      rcases hs : lipStep f P nsize rank t s with e' | s'
      · rw [hs] at h; injection h with h; subst h
        exact ⟨t, by omega, hstep t s hs⟩
      · rw [hs] at h
        obtain ⟨t', h1, h2⟩ := ih (t + 1) s' h
        exact ⟨t', by omega, h2⟩
  unfold initialGuesses at h
  rcases hv : P.random 0 nsize rank with e' | vec
  · rw [hv] at h; injection h with h; subst h; exact ⟨0, Nat.zero_le _, Or.inl hv⟩
  rw [hv] at h
  simp only [bind, Except.bind] at h
  rcases hr : P.rho vec nsize rank with e' | rho
  · rw [hr] at h; injection h with h; subst h; exact ⟨0, Nat.zero_le _, Or.inr ⟨vec, hv, Or.inl hr⟩⟩
  rw [hr] at h
  simp only at h
  rcases hf : f vec with e' | v
  · rw [hf] at h; injection h with h; subst h; exact ⟨0, Nat.zero_le _, Or.inr ⟨vec, hv, Or.inr hf⟩⟩
  rw [hf] at h
  simp only at h
  rcases hs : lipLoop f P nsize rank N T 1 ⟨[(vec, rho, -v)], -v⟩ with e' | s
  · rw [hs] at h; injection h with h; subst h
    obtain ⟨t', h1, h2⟩ := hloop T 1 _ hs
    exact ⟨t', by omega, h2⟩
  · rw [hs] at h; cases h

/-- A parameterisation of `1 × 1` matrices by one number; the draw number `t` is `t`. -/
def lineScheme : Scheme where
  bounds := fun _ _ => .ok [(0, 10)]
  rho := fun v _ _ => .ok ⟨1, 1, fun _ _ => ((v.getD 0 0 : ℝ) : ℂ)⟩
  random := fun t _ _ => .ok [(t : ℝ)]

/-- The sampler accepts the draws `0` and `1` and rejects the draw `2`: the hypotheses of `C40_sampler` are met
by a run with a rejection. -/
example : initialGuesses (fun v => .ok (if v = [1] then -10 else 0)) lineScheme 1 1 3 2 =
    .ok ([[0], [1]], [0, 10], false) := by
  have e1 : lipStep (fun v => .ok (if v = [1] then -10 else 0)) lineScheme 1 1 1
      ⟨[([0], ⟨1, 1, fun _ _ => 0⟩, 0)], 0⟩ =
      .ok ⟨[([0], ⟨1, 1, fun _ _ => 0⟩, 0), ([1], ⟨1, 1, fun _ _ => 1⟩, 10)], 10⟩ := by
    simp [lipStep, lineScheme, lipBounds, sumAbsDiff, listMax, bind, Except.bind, pure, Except.pure]
  have e2 : lipStep (fun v => .ok (if v = [1] then -10 else 0)) lineScheme 1 1 2
      ⟨[([0], ⟨1, 1, fun _ _ => 0⟩, 0), ([1], ⟨1, 1, fun _ _ => 1⟩, 10)], 10⟩ =
      .ok ⟨[([0], ⟨1, 1, fun _ _ => 0⟩, 0), ([1], ⟨1, 1, fun _ _ => 1⟩, 10)], 10⟩ := by
    simp [lipStep, lineScheme, lipBounds, sumAbsDiff, listMax, bind, Except.bind, pure, Except.pure]
    norm_num
  have e3 : lipLoop (fun v => .ok (if v = [1] then -10 else 0)) lineScheme 1 1 3 2 1
      ⟨[([0], ⟨1, 1, fun _ _ => 0⟩, 0)], 0⟩ =
      .ok ⟨[([0], ⟨1, 1, fun _ _ => 0⟩, 0), ([1], ⟨1, 1, fun _ _ => 1⟩, 10)], 10⟩ := by
    simp [lipLoop, e1, e2, bind, Except.bind]
  have e4 : (0 : ℝ) = -0 := neg_zero.symm
  simp [initialGuesses, lineScheme, bind, Except.bind, pure, Except.pure] 
  simp [lineScheme] at e3
  rw [e3]
  simp

/-- Asked for no sample at all, the sampler returns one and reports failure. -/
theorem C40_zero_samples {T : ℕ} {vecs : List (List ℝ)} {evals : List ℝ} {success : Bool}
    (h : initialGuesses f P nsize rank 0 T = .ok (vecs, evals, success)) : vecs.length = 1 ∧ success = false := by
  obtain ⟨L, stop, -, -, -, h1, h2, h3, -⟩ := C40_sampler h
  have : vecs.length = 1 := by omega
  refine ⟨this, ?_⟩
  rw [Bool.eq_false_iff]
  intro hs
  have := h3.mp hs
  omega

end PyQ
