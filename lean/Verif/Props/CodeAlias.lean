import Verif.Model.CodeAlias
import Verif.Props.SuppliedOps
import Verif.Props.CodeKraus
import Verif.Props.Concat

/-! # C129: which writes of the caller a code notices

The generators are copied, supplied logical operators are not, and the attributes are the object's own arrays. -/

namespace PyQ

open Spec

namespace Spec

/-- The entries of the array after the last write of `events` that `reads` recognises; `v0` before. -/
def lastEntries {ε : Type} (reads : ε → Option (ℕ → ℕ → ℤ)) (v0 : ℕ → ℕ → ℤ) (events : List ε) : ℕ → ℕ → ℤ :=
  events.foldl (fun v e => (reads e).getD v) v0

/-- Writes to the passed X operators. -/
def passedX : CodeEvent → Option (ℕ → ℕ → ℤ)
  | .passedLogical vx _ => some vx
  | _ => none

/-- Writes to the passed Z operators. -/
def passedZ : CodeEvent → Option (ℕ → ℕ → ℤ)
  | .passedLogical _ vz => some vz
  | _ => none

/-- Writes to `code.stab_bin_rep`. -/
def stabWrites : CodeEvent → Option (ℕ → ℕ → ℤ)
  | .stabBinRep v => some v
  | _ => none

/-- Writes to `code.normal_form`. -/
def normalWrites : CodeEvent → Option (ℕ → ℕ → ℤ)
  | .normalForm v => some v
  | _ => none

/-- Writes to the X operators of the code: through `code.logical_x`, or through the array passed if there was one. -/
def xWrites (supplied : Bool) : CodeEvent → Option (ℕ → ℕ → ℤ)
  | .logical vx _ => some vx
  | .passedLogical vx _ => if supplied then some vx else none
  | _ => none

/-- Writes to the Z operators of the code. -/
def zWrites (supplied : Bool) : CodeEvent → Option (ℕ → ℕ → ℤ)
  | .logical _ vz => some vz
  | .passedLogical _ vz => if supplied then some vz else none
  | _ => none

end Spec

/-- **C129 (a), partial**.  A code constructed without logical operators is not affected by anything that happens to the
generators passed, or to any array of the caller. -/
theorem C129_copied_partial (s : StabInput) (n k : ℕ) (t : SharedCode) (h : SharedCode.init s n k none = .ok t)
    (events : List CodeEvent) (he : ∀ e ∈ events, e.IsPassed) :
    events.foldl SharedCode.after t = t := by
  have hs : t.logicalShared = false := by
    unfold SharedCode.init at h
    rcases hc : stabInit s n k none with x | c
    · rw [hc] at h; cases h
    · rw [hc] at h; cases h; rfl
  induction events with
  | nil => rfl
  | cons e es ih =>
    have : t.after e = t := by
      have := he e (by simp)
      rcases e with s | ⟨vx, vz⟩ | v | v | ⟨vx, vz⟩ <;> simp_all [CodeEvent.IsPassed, SharedCode.after]
    rw [List.foldl_cons, this]
    exact ih fun e h => he e (by simp [h])

/-- **C129 (b)**.  A code constructed with logical operators is at any time the code that the constructor returns for the
original generators and the present contents of the two arrays. -/
theorem C129_supplied_exact (s : StabInput) (n k : ℕ) (LX LZ : Arr ℤ) (t : SharedCode)
    (h : SharedCode.init s n k (some (LX, LZ)) = .ok t) (events : List CodeEvent) (he : ∀ e ∈ events, e.IsPassed) :
    stabInit s n k (some (LX.withEntries (lastEntries passedX LX.get events),
      LZ.withEntries (lastEntries passedZ LZ.get events))) = .ok (events.foldl SharedCode.after t).code := by
  have key : stabInit s n k (some (LX, LZ)) = .ok t.code ∧ t.logicalShared = true := by
    unfold SharedCode.init at h
    rcases hc : stabInit s n k (some (LX, LZ)) with x | c
    · rw [hc] at h; cases h
    · rw [hc] at h; cases h; exact ⟨rfl, rfl⟩
  clear h
  obtain ⟨h, hs⟩ := key
  induction events generalizing t LX LZ with
  | nil => exact h
  | cons e es ih =>
    rw [List.foldl_cons]
    have h1 := he e (by simp)
    have h2 : ∀ e ∈ es, e.IsPassed := fun e h => he e (by simp [h])
    rcases e with s' | ⟨vx, vz⟩ | v | v | ⟨vx, vz⟩
    · exact ih LX LZ t h2 h hs
    · refine ih (LX.withEntries vx) (LZ.withEntries vz) _ h2 ?_ ?_
      · obtain ⟨hA, hcom, hS, hN, hn, hk, -, hlo⟩ := stabInit_ok h
        obtain ⟨e3, e4, e1, e2⟩ := hlo LX LZ rfl
        unfold stabInit
        simp only [hA, ok_bind', isStabilizerCode_eq (initArray_cols hA), pyAssert, hcom, decide_true, if_true, hS, hN,
          pure_ok', Arr.withEntries, e3, e4, SharedCode.after, hs, e1, e2]
        rw [hn, hk]
      · simp [SharedCode.after, hs]
    · exact h1.elim
    · exact h1.elim
    · exact h1.elim

/-- The hypotheses of (a) and (b) are met: the generator list of XX is overwritten with ZZ. -/
example : ∃ t, SharedCode.init (.rows [[1, 1, 0, 0]]) 2 1 none = .ok t ∧
    [CodeEvent.passedStab (.rows [[0, 0, 1, 1]])].foldl SharedCode.after t = t := by
  obtain ⟨c, h1, -⟩ := codeXX
  have h : SharedCode.init (.rows [[1, 1, 0, 0]]) 2 1 none = .ok ⟨c, false⟩ := by
    unfold SharedCode.init
    rw [h1]
    rfl
  exact ⟨_, h, C129_copied_partial _ 2 1 _ h _ (by simp [CodeEvent.IsPassed])⟩

/-- **C129 refuted (supplied operators)**.  The code XX with logical operators IX and ZZ: after the caller clears the array
of X operators for another use, the logical X of the existing code is the empty circuit. -/
theorem C129_supplied_refuted : ∃ t, SharedCode.init (.rows [[1, 1, 0, 0]]) 2 1
      (some (Arr.ofRows 4 [[0, 1, 0, 0]], Arr.ofRows 4 [[0, 0, 1, 1]])) = .ok t ∧
    logicalCircuit t.code 2 ['X', '0'] = .ok [⟨none, .X, 1⟩] ∧
    logicalCircuit (t.after (.passedLogical (fun _ _ => 0) (Arr.ofRows 4 [[0, 0, 1, 1]]).get)).code 2 ['X', '0'] = .ok [] := by
  obtain ⟨c, h1, -⟩ := codeXX
  have hk := (stabInit_ok h1).2.2.2.2.2.1
  refine ⟨⟨{ c with logicalX := Arr.ofRows 4 [[0, 1, 0, 0]], logicalZ := Arr.ofRows 4 [[0, 0, 1, 1]] }, true⟩, ?_, ?_, ?_⟩
  · unfold SharedCode.init
    rw [C70_stored _ 2 1 c h1, if_pos ⟨rfl, rfl⟩]
    rfl
  · have e1 : intOfChar '0' = .ok 0 := rfl
    have e2 : pauliGates 2 none ['I', 'X'] = .ok [⟨none, .X, 1⟩] := rfl
    have e3 : binaryRepToPauliStr [0, 1, 0, 0] = .ok ['I', 'X'] := rfl
    have e4 : rowAt (Arr.ofRows 4 [[0, 1, 0, 0]]) 0 = .ok [0, 1, 0, 0] := rfl
    simp [logicalCircuit, logicalRow, pyAssert, e1, e2, e3, e4, hk]
  · have e1 : intOfChar '0' = .ok 0 := rfl
    have e2 : pauliGates 2 none ['I', 'I'] = .ok [] := rfl
    have e3 : binaryRepToPauliStr [0, 0, 0, 0] = .ok ['I', 'I'] := rfl
    have e4 : rowAt ((Arr.ofRows 4 [[0, 1, 0, 0]]).withEntries fun _ _ => (0 : ℤ)) 0 = .ok [0, 0, 0, 0] := rfl
    simp [logicalCircuit, logicalRow, pyAssert, SharedCode.after, e1, e2, e3, e4, hk]

/-- **C129, exact**.  After any sequence of writes each array of a constructed code has its shape and the entries written
last, by the caller through what they passed or through the attributes; the parameters, the strings and the rank stay. -/
theorem C129_arrays_exact (s : StabInput) (n k : ℕ) (lo : Option (Arr ℤ × Arr ℤ)) (c0 : StabCode)
    (h : stabInit s n k lo = .ok c0) : ∃ t, SharedCode.init s n k lo = .ok t ∧ t.code = c0 ∧ ∀ events : List CodeEvent,
      (events.foldl SharedCode.after t).code = ⟨n, k,
        ⟨c0.stab.rows, c0.stab.cols, lastEntries stabWrites c0.stab.get events⟩, c0.pauliStab,
        ⟨c0.normalForm.rows, c0.normalForm.cols, lastEntries normalWrites c0.normalForm.get events⟩, c0.rank,
        ⟨c0.logicalX.rows, c0.logicalX.cols, lastEntries (xWrites lo.isSome) c0.logicalX.get events⟩,
        ⟨c0.logicalZ.rows, c0.logicalZ.cols, lastEntries (zWrites lo.isSome) c0.logicalZ.get events⟩⟩ := by
  obtain ⟨-, -, -, -, hn, hk, -, -⟩ := stabInit_ok h
  refine ⟨⟨c0, lo.isSome⟩, by unfold SharedCode.init; rw [h]; rfl, rfl, fun events => ?_⟩
  clear h
  generalize lo.isSome = b
  induction events generalizing c0 with
  | nil => subst hn hk; rfl
  | cons e es ih =>
    rw [List.foldl_cons]
    rcases e with s' | ⟨vx, vz⟩ | v | v | ⟨vx, vz⟩
    · exact ih c0 hn hk
    · cases b
      · exact ih c0 hn hk
      · exact ih { c0 with logicalX := c0.logicalX.withEntries vx, logicalZ := c0.logicalZ.withEntries vz } hn hk
    · exact ih { c0 with stab := c0.stab.withEntries v } hn hk
    · exact ih { c0 with normalForm := c0.normalForm.withEntries v } hn hk
    · exact ih { c0 with logicalX := c0.logicalX.withEntries vx, logicalZ := c0.logicalZ.withEntries vz } hn hk

example : ∃ c, stabInit (.rows [[1, 1, 0, 0]]) 2 1 none = .ok c := by
  obtain ⟨c, h, -⟩ := codeXX
  exact ⟨c, h⟩

/-- **C129 (c)**.  The attributes are the arrays of the object.  After a write into `stab_bin_rep` the circuits, the rows
yielded by iteration, the strings and the logical operators are those of the generators passed to the constructor, while
`encode_krauss_operators` gives the encoder of the new rows (those of any code `c'` with these rows). -/
theorem C129_stab_view (t : SharedCode) (v : ℕ → ℕ → ℤ) (c' : StabCode) (hc : c'.stab = t.code.stab.withEntries v)
    (eigh : Eigh) :
    let c := (t.after (.stabBinRep v)).code
    (∀ len state, encodingCircuit c len state = encodingCircuit t.code len state) ∧
    (∀ len op, logicalCircuit c len op = logicalCircuit t.code len op) ∧
    (∀ len anc, decodingCircuit c len anc = decodingCircuit t.code len anc) ∧
    (∀ active len stab, syndromeCircuit c active len stab = syndromeCircuit t.code active len stab) ∧
    c.iter = t.code.iter ∧ c.pauliStab = t.code.pauliStab ∧ c.logicalX = t.code.logicalX ∧ c.logicalZ = t.code.logicalZ ∧
    encodeKraus eigh c = encodeKraus eigh c' := by
  refine ⟨fun _ _ => rfl, fun _ op => ?_, fun _ _ => rfl, fun _ _ _ => rfl, rfl, rfl, rfl, rfl, ?_⟩
  · rfl
  · unfold encodeKraus
    rw [hc]
    rfl

/-- **C129 (d)**.  A write into `normal_form`, or into a row obtained by iterating over the code, leaves
`encode_krauss_operators`, the strings, the logical operators and the decoding and logical circuits alone; the gates of the
encoder for generator `i` are read from the new row, and iteration yields the new rows. -/
theorem C129_normal_form_view (t : SharedCode) (v : ℕ → ℕ → ℤ) (eigh : Eigh) :
    let c := (t.after (.normalForm v)).code
    encodeKraus eigh c = encodeKraus eigh t.code ∧ c.pauliStab = t.code.pauliStab ∧
    (∀ len op, logicalCircuit c len op = logicalCircuit t.code len op) ∧
    (∀ len anc, decodingCircuit c len anc = decodingCircuit t.code len anc) ∧
    c.iter = (List.range t.code.normalForm.rows).map (fun i => (List.range t.code.normalForm.cols).map (v i)) ∧
    ∀ c', c'.n = t.code.n → c'.k = t.code.k → c'.rank = t.code.rank → c'.stab.rows = t.code.stab.rows →
      c'.logicalX = t.code.logicalX → c'.iter = c.iter → c'.normalForm.rows = t.code.normalForm.rows →
      t.code.rank ≤ t.code.normalForm.rows →
      ∀ len state, encodingCircuit c len state = encodingCircuit c' len state := by
  refine ⟨rfl, rfl, fun _ _ => rfl, fun _ _ => rfl, rfl, ?_⟩
  intro c' h1 h2 h3 h4 h5 h6 h7 h8 len state
  have hrow : ∀ i < t.code.rank, (t.after (.normalForm v)).code.normalForm.row i = c'.normalForm.row i := by
    intro i hi
    have := congrArg (fun l => l[i]?) h6
    have e1 : c'.iter[i]? = some (c'.normalForm.row i) := by
      simp [StabCode.iter, h7, show i < t.code.normalForm.rows by omega]
    have e2 : (t.after (.normalForm v)).code.iter[i]? = some ((t.after (.normalForm v)).code.normalForm.row i) := by
      simp [StabCode.iter, SharedCode.after, Arr.withEntries, show i < t.code.normalForm.rows by omega]
    rw [e1, e2] at this
    injection this with this
    exact this.symm
  have hg : (List.range t.code.rank).mapM (generatorGates (t.after (.normalForm v)).code len) =
      (List.range t.code.rank).mapM (generatorGates c' len) := by
    have : ∀ l : List ℕ, (∀ i ∈ l, i < t.code.rank) → l.mapM (generatorGates (t.after (.normalForm v)).code len) =
        l.mapM (generatorGates c' len) := by
      intro l
      induction l with
      | nil => intro _; rfl
      | cons i l ih =>
        intro hl
        have e : generatorGates (t.after (.normalForm v)).code len i = generatorGates c' len i := by
          unfold generatorGates
          rw [hrow i (hl i (by simp))]
        rw [List.mapM_cons, List.mapM_cons, e, ih fun i hi => hl i (by simp [hi])]
    exact this _ fun i hi => List.mem_range.mp hi
  have hx : logicalXGates (t.after (.normalForm v)).code = logicalXGates c' := by
    funext i
    unfold logicalXGates
    rw [h1, h2, h3, h5]
    rfl
  unfold encodingCircuit
  rw [hx, h1, h2, h3, h4, h5, ← hg]
  rfl

/-- **C129 refuted (attributes)**.  The code XX after ZZ is written into `stab_bin_rep`: the two encoders no longer agree.
The columns of `encode_krauss_operators` span the vectors fixed by ZZ, and the circuit for the logical state 1 prepares a
state that ZZ negates. -/
theorem C129_stab_view_refuted (eigh : Eigh) (hE : eigh.Correct) :
    ∃ t gs V m, SharedCode.init (.rows [[1, 1, 0, 0]]) 2 1 none = .ok t ∧
      encodingCircuit (t.after (.stabBinRep (Arr.ofRows 4 [[0, 0, 1, 1]]).get)).code 2 [1] = .ok gs ∧
      (run gs (ket 0) : Amp 2) ≠ 0 ∧
      pauliAct (rowPauli 2 [0, 0, 1, 1]) (run gs (ket 0)) = -run gs (ket 0) ∧
      encodeKraus eigh (t.after (.stabBinRep (Arr.ofRows 4 [[0, 0, 1, 1]]).get)).code = .ok V ∧ V.rows = 2 ^ 2 ∧
      V.cols = m ∧
      ∀ ψ : Amp 2, pauliAct (rowPauli 2 [0, 0, 1, 1]) ψ = ψ ↔
        ∃ x : Fin m → ℂ, ∀ a : Fin (2 ^ 2), ψ (bitsOf 2 a) = ∑ j : Fin m, V.get a j * x j := by
  obtain ⟨c, h1, h2, h3, h4, h5, h6⟩ := concrete_code (l := [[1, 1, 0, 0]]) (n := 2) (k := 1)
    (r := 1) (e := 0) (by decide) (by decide) (by decide) (by unfold IsBinary; decide) (by decide)
    (independent_cert _ (fun j a => if j = 0 ∧ a = 0 then 1 else 0) (by decide))
    (fun F _ => rank_cert (M := Matrix.of fun (i : Fin 1) (j : Fin 2) => (Arr.ofRows (2 * 2) [[1, 1, 0, 0]]).get i j)
      !![1] !![1, 1] !![1] !![1; 0] (by decide) (by decide) F)
    (Or.inl rfl)
  rw [if_pos (by decide)] at h6
  obtain ⟨c', k1, k2, k3, k4, -⟩ := concrete_code (l := [[0, 0, 1, 1]]) (n := 2) (k := 1)
    (r := 0) (e := 1) (by decide) (by decide) (by decide) (by unfold IsBinary; decide) (by decide)
    (independent_cert _ (fun j a => if j = 2 ∧ a = 0 then 1 else 0) (by decide))
    (fun F _ => by
      have : (Matrix.of fun (i : Fin 1) (j : Fin 2) => (((Arr.ofRows (2 * 2) [[0, 0, 1, 1]]).get i j : ℤ) : F)) = 0 := by
        ext i j
        fin_cases i; fin_cases j <;> simp [Arr.ofRows]
      exact (congrArg Matrix.rank this).trans Matrix.rank_zero)
    (Or.inr (rank_cert (M := Matrix.of fun (i : Fin 1) (j : Fin 2) =>
        ((firstBlock 2 0 (Arr.ofRows (2 * 2) [[0, 0, 1, 1]])).slice 0 1 (2 + 0) (2 * 2)).get i j)
      !![1] !![1, 1] !![1] !![1; 0] (by decide) (by decide) ℚ))
  obtain ⟨hn, hk, hst, hsh, hX0, -, hcom⟩ := accepted_facts h1 h2 h3
  obtain ⟨gs, g1, g2, g3⟩ := encoding_supplied hn hk hst hsh (by rw [hX0, (lx_shape hsh).1]) [1] rfl (by unfold IsBinary; decide)
  have hrow : ∀ i < c'.stab.rows, c'.stab.row i = [0, 0, 1, 1] := by
    intro i hi
    rw [k4] at hi ⊢
    have : i < 1 := hi
    interval_cases i
    decide
  obtain ⟨V, m, v1, v2, v3, v4, v5, -⟩ := C19_encoder_isometry eigh hE _ 2 1 _ c' k1 (by norm_num) k2 (by
    intro i hi
    rw [hrow i hi]
    decide)
  have hview := C129_stab_view ⟨c, false⟩ (Arr.ofRows 4 [[0, 0, 1, 1]]).get c' (by rw [k4, h4]; rfl) eigh
  refine ⟨⟨c, false⟩, gs, V, m, ?_, ?_, run_ket_ne_zero gs g2, ?_, ?_, v2, v3, ?_⟩
  · unfold SharedCode.init
    rw [h1]
    rfl
  · rw [hview.1]
    exact g1
  · have hr0 : c.normalForm.row 0 = [1, 1, 0, 0] := by rw [h6]; decide
    rw [g3, h5, pauliAct_projected]
    · have e2 : (rowPauli 2 [0, 0, 1, 1]).x = 0 := by decide
      have e1 : dotp (rowPauli 2 [0, 0, 1, 1]).z (fun j : Fin 2 => suppliedN 2 1 1 c.logicalX (bitFn [1]) j) = 1 := by
        have : (fun j : Fin 2 => suppliedN 2 1 1 c.logicalX (bitFn [1]) j) = ![0, 1] := by
          funext j
          fin_cases j <;> simp [suppliedN, bitFn]
        rw [this]
        decide
      rw [e1, e2, add_zero, sgn_one, neg_smul, one_smul]
    · intro g hg
      simp only [List.map_cons, List.map_nil, List.range_one, List.mem_singleton] at hg
      rw [hg, hr0]
      decide
  · rw [hview.2.2.2.2.2.2.2.2]
    exact v1
  · intro ψ
    rw [← v5 ψ]
    constructor
    · intro h i hi
      rw [hrow i hi]
      exact h
    · intro h
      have h0 : 0 < c'.stab.rows := by rw [k4]; decide
      rw [← hrow 0 h0]
      exact h 0 h0

end PyQ
