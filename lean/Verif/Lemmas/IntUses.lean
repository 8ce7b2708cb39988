import Verif.Model.IntUses
import Verif.Lemmas.Kraus

/-! # Lemmas about channels asked for any integer number of uses -/

namespace PyQ

/-- By how much the number of factors exceeds the number asked for. -/
def excess : ℤ → ℤ → List ℤ → ℤ
  | _, x, [] => x
  | c, x, n :: l => if n < c then excess n (if 1 ≤ n then 0 else 2 - n) l else excess n x l

theorem excess_append (c x : ℤ) (l l' : List ℤ) :
    excess c x (l ++ l') = excess ((c :: l).getLast (by simp)) (excess c x l) l' := by
  induction l generalizing c x with
  | nil => rfl
  | cons n l ih =>
    simp only [List.cons_append, excess]
    split <;> exact ih _ _

theorem excess_mono (c x : ℤ) (l : List ℤ) (h : (c :: l).Pairwise (· ≤ ·)) : excess c x l = x := by
  induction l generalizing c with
  | nil => rfl
  | cons n l ih =>
    have h' := List.pairwise_cons.mp h
    rw [excess, if_neg (not_lt.mpr (h'.1 n (by simp)))]
    exact ih n h'.2

theorem excess_nonneg (c x : ℤ) (l : List ℤ) (hx : 0 ≤ x) : 0 ≤ excess c x l := by
  induction l generalizing c x with
  | nil => exact hx
  | cons n l ih =>
    rw [excess]
    split
    · split
      · exact ih _ _ le_rfl
      · exact ih _ _ (by omega)
    · exact ih _ _ hx

theorem excess_pos (c x : ℤ) (l : List ℤ) (h : 1 ≤ c + x) : 1 ≤ (c :: l).getLast (by simp) + excess c x l := by
  induction l generalizing c x with
  | nil => exact h
  | cons n l ih =>
    rw [List.getLast_cons (by simp), excess]
    split
    · split
      · exact ih _ _ (by omega)
      · exact ih _ _ (by omega)
    · exact ih _ _ (by omega)

theorem foldTensor_nth (l : List ℕ) (o : KrausObj) (n : ℕ) (hn : 1 ≤ n) (h1 : o.nth = powArr o.kraus n) :
    (l.foldl (fun o _ => o.setTensor o.kraus o.nth) o).nth = powArr o.kraus (n + l.length) ∧
      SameStatic o (l.foldl (fun o _ => o.setTensor o.kraus o.nth) o) := by
  induction l generalizing o n with
  | nil => exact ⟨h1, rfl, rfl, rfl, rfl, rfl, rfl, rfl⟩
  | cons a l ih =>
    have := ih (o.setTensor o.kraus o.nth) (n + 1) (by omega)
      (by simp only [KrausObj.setTensor]; rw [powArr_succ _ hn, ← h1])
    simp only [List.foldl_cons, List.length_cons]
    rw [show n + (l.length + 1) = n + 1 + l.length by omega]
    exact this

/-- The object holds the operators of `cur + x` uses. -/
structure HoldsInt (s : KrausInt) (x : ℤ) : Prop where
  pos : 1 ≤ s.cur + x
  nth : s.obj.nth = powArr s.obj.kraus (s.cur + x).toNat
  exch : s.obj.sparse = false → Arr3.tensordot s.obj.nth.conjT s.obj.nth = .ok s.obj.exch

theorem KrausInt.retensor_holds {s : KrausInt} {x : ℤ} (h : HoldsInt s x) (n : ℤ) :
    (s.retensor n).nth = powArr s.obj.kraus (n + excess s.cur x [n]).toNat ∧ SameStatic s.obj (s.retensor n) := by
  have hp := h.pos
  unfold KrausInt.retensor
  simp only [excess]
  by_cases h1 : s.cur < n
  · rw [if_pos h1, if_neg (by omega)]
    have := foldTensor_nth (List.range (n - s.cur).toNat) s.obj (s.cur + x).toNat (by omega) h.nth
    rw [List.length_range, show (s.cur + x).toNat + (n - s.cur).toNat = (n + x).toNat by omega] at this
    exact this
  · rw [if_neg h1]
    by_cases h2 : n < s.cur
    · rw [if_pos h2, if_pos h2]
      by_cases h3 : n = 1
      · subst h3
        simp only [if_true, le_refl]
        exact ⟨rfl, rfl, rfl, rfl, rfl, rfl, rfl, rfl⟩
      · rw [if_neg h3]
        have := foldTensor_nth (List.range (n - 2).toNat) (s.obj.setTensor s.obj.kraus s.obj.kraus) 2 (by omega)
          (by simp only [KrausObj.setTensor]; rfl)
        rw [List.length_range] at this
        refine ⟨this.1.trans ?_, this.2⟩
        change powArr s.obj.kraus _ = _
        congr 1
        split <;> omega
    · have : n = s.cur := by omega
      subst this
      rw [if_neg h2, if_neg h2]
      exact ⟨h.nth, rfl, rfl, rfl, rfl, rfl, rfl, rfl⟩

theorem KrausInt.update_holds {s : KrausInt} {x : ℤ} (h : HoldsInt s x) (n : ℤ) :
    HoldsInt (s.update n).2 (excess s.cur x [n]) ∧ (s.update n).2.cur = n ∧ SameStatic s.obj (s.update n).2.obj ∧
      (s.obj.sparse = false → (s.update n).1 = .ok ()) := by
  obtain ⟨h1, h2⟩ := KrausInt.retensor_holds h n
  have hp : 1 ≤ n + excess s.cur x [n] := by simpa using excess_pos s.cur x [n] h.pos
  unfold KrausInt.update
  by_cases hsp : s.obj.sparse = false
  · obtain ⟨e, he⟩ := tensordot_conj (s.retensor n).nth
    have hexc : (s.retensor n).exchange = .ok e := by
      unfold KrausObj.exchange
      rw [if_neg (by rw [h2.2.1, hsp]; decide)]
      exact he
    rw [hexc]
    exact ⟨⟨hp, by simp only [h1, h2.1], fun _ => he⟩, rfl, h2, fun _ => rfl⟩
  · rcases hexc : (s.retensor n).exchange with e | e
    · exact ⟨⟨hp, by simp only [h1, h2.1], fun hs => absurd (h2.2.1 ▸ hs) hsp⟩, rfl, h2, fun hs => absurd hs hsp⟩
    · exact ⟨⟨hp, by simp only [h1, h2.1], fun hs => absurd (h2.2.1 ▸ hs) hsp⟩, rfl, h2, fun hs => absurd hs hsp⟩

theorem KrausInt.sync_holds {s : KrausInt} {x : ℤ} (h : HoldsInt s x) (n : ℤ) :
    HoldsInt (s.sync n).2 (excess s.cur x [n]) ∧ (s.sync n).2.cur = n ∧ SameStatic s.obj (s.sync n).2.obj ∧
      (s.obj.sparse = false → (s.sync n).1 = .ok ()) := by
  unfold KrausInt.sync
  by_cases hc : n ≠ s.cur
  · rw [if_pos hc]
    exact KrausInt.update_holds h n
  · push Not at hc
    subst hc
    rw [if_neg (by simp)]
    refine ⟨?_, rfl, ⟨rfl, rfl, rfl, rfl, rfl, rfl, rfl⟩, fun _ => rfl⟩
    simpa [excess] using h

theorem KrausInt.history_holds {s : KrausInt} {x : ℤ} (h : HoldsInt s x) (calls : List KrausInt.Call) :
    HoldsInt (s.history calls) (excess s.cur x (calls.map KrausInt.Call.uses)) ∧
      (s.history calls).cur = (s.cur :: calls.map KrausInt.Call.uses).getLast (by simp) ∧
      SameStatic s.obj (s.history calls).obj := by
  induction calls generalizing s x with
  | nil => exact ⟨h, rfl, rfl, rfl, rfl, rfl, rfl, rfl, rfl⟩
  | cons c l ih =>
    have hc : HoldsInt (c.after s) (excess s.cur x [c.uses]) ∧ (c.after s).cur = c.uses ∧
        SameStatic s.obj (c.after s).obj := by
      cases c with
      | use n => exact ⟨(sync_holds h n).1, (sync_holds h n).2.1, (sync_holds h n).2.2.1⟩
      | update n => exact ⟨(update_holds h n).1, (update_holds h n).2.1, (update_holds h n).2.2.1⟩
    obtain ⟨g1, g2, g3⟩ := ih hc.1
    rw [hc.2.1] at g1 g2
    refine ⟨?_, ?_, hc.2.2.trans g3⟩
    · have := excess_append s.cur x [c.uses] (l.map KrausInt.Call.uses)
      rw [List.map_cons, show c.uses :: l.map KrausInt.Call.uses = [c.uses] ++ l.map KrausInt.Call.uses from rfl, this]
      exact g1
    · simp only [List.map_cons]
      rw [List.getLast_cons (by simp)]
      exact g2

theorem start_holds {o : KrausObj} (h : Holds o 1) : HoldsInt (KrausInt.start o) 0 :=
  ⟨by simp [KrausInt.start], by simpa [KrausInt.start] using h.nth, fun _ => h.exch⟩

/-- A valid holding as one of the other model. -/
theorem HoldsInt.holds {s : KrausInt} {x : ℤ} (h : HoldsInt s x) (hs : s.obj.sparse = false) :
    Holds { s.obj with curN := (s.cur + x).toNat } (s.cur + x).toNat :=
  ⟨rfl, h.nth, fun h' => by simp only at h'; rw [hs] at h'; exact absurd h' (by decide), h.exch hs⟩

theorem excess_drop (pre post : List ℤ) (m : ℤ) (hd : m < ((1 : ℤ) :: pre).getLast (by simp))
    (hm : (m :: post).Pairwise (· ≤ ·)) :
    excess 1 0 (pre ++ m :: post) = if 1 ≤ m then 0 else 2 - m := by
  rw [excess_append, excess, if_pos hd]
  exact excess_mono _ _ _ hm

theorem excess_ne_zero_iff (l : List ℤ) : excess 1 0 l ≠ 0 ↔
    ∃ pre m post, l = pre ++ m :: post ∧ m ≤ 0 ∧ (m :: post).Pairwise (· ≤ ·) := by
  constructor
  · intro h
    induction l using List.reverseRecOn with
    | nil => exact absurd rfl h
    | append_singleton l n ih =>
      rw [excess_append] at h
      simp only [excess] at h
      by_cases hd : n < ((1 : ℤ) :: l).getLast (by simp)
      · rw [if_pos hd] at h
        have : n ≤ 0 := by
          by_contra hn
          rw [if_pos (by omega)] at h
          exact h rfl
        exact ⟨l, n, [], rfl, this, by simp⟩
      · rw [if_neg hd] at h
        obtain ⟨pre, m, post, rfl, hm, hp⟩ := ih h
        refine ⟨pre, m, post ++ [n], by simp, hm, ?_⟩
        rw [← List.cons_append, List.pairwise_append]
        refine ⟨hp, by simp, ?_⟩
        intro y hy z hz
        rw [List.mem_singleton] at hz
        subst hz
        have hl : ((1 : ℤ) :: (pre ++ m :: post)).getLast (by simp) = (m :: post).getLast (by simp) := by
          rw [List.getLast_cons (by simp), List.getLast_append_of_ne_nil _ (by simp)]
        rw [hl] at hd
        refine le_trans ?_ (not_lt.mp hd)
        rw [← List.dropLast_append_getLast (l := m :: post) (by simp)] at hp hy
        rcases List.mem_append.mp hy with hy | hy
        · exact (List.pairwise_append.mp hp).2.2 y hy _ (by simp)
        · rw [List.mem_singleton] at hy
          exact hy.le
  · rintro ⟨pre, m, post, rfl, hm, hp⟩
    have h1 := excess_pos 1 0 (pre ++ [m]) (by omega)
    rw [show pre ++ m :: post = (pre ++ [m]) ++ post by simp, excess_append]
    have hl : ((1 : ℤ) :: (pre ++ [m])).getLast (by simp) = m := by
      rw [List.getLast_cons (by simp)]; simp
    rw [hl] at h1
    rw [hl, excess_mono _ _ _ hp]
    omega

end PyQ
