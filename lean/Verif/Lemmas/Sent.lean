import Verif.Lemmas.Except
import Verif.Lemmas.Circuit
import Verif.Model.Sent

/-! Lists of steps of a circuit builder. -/

namespace PyQ

open Spec

/-- The gates of a list of steps, or the first exception. -/
def coll : List (Except PyErr (List Gate)) → Except PyErr (List Gate)
  | [] => .ok []
  | .ok g :: r => (coll r).map (g ++ ·)
  | .error e :: _ => .error e

theorem coll_append (a b : List (Except PyErr (List Gate))) :
    coll (a ++ b) = (do let x ← coll a; let y ← coll b; return x ++ y) := by
  induction a with
  | nil =>
    rw [List.nil_append]
    show _ = (do let y ← coll b; pure ([] ++ y))
    cases coll b <;> rfl
  | cons x r ih =>
    rcases x with e | g
    · rfl
    · show (coll (r ++ b)).map (g ++ ·) = _
      rw [ih]
      show _ = (do let x ← (coll r).map (g ++ ·); let y ← coll b; return x ++ y)
      rcases coll r with e | x
      · rfl
      · rcases coll b with e | y
        · rfl
        · show Except.ok (g ++ (x ++ y)) = Except.ok ((g ++ x) ++ y)
          rw [List.append_assoc]

theorem coll_cons_ok (g : List Gate) (r : List (Except PyErr (List Gate))) :
    coll (.ok g :: r) = (do let x ← coll r; return g ++ x) := by
  show (coll r).map (g ++ ·) = _
  rcases coll r <;> rfl

theorem coll_single (x : Except PyErr (List Gate)) : coll [x] = x := by
  rcases x with e | g
  · rfl
  · show Except.ok (g ++ []) = _
    rw [List.append_nil]

theorem coll_steps {α : Type} (x : Except PyErr α) (f : α → List (Except PyErr (List Gate))) :
    coll (steps x f) = x >>= fun a => coll (f a) := by
  rcases x <;> rfl

theorem coll_flatMap {α : Type} (l : List α) (f : α → List (Except PyErr (List Gate))) :
    coll (l.flatMap f) = (do let r ← l.mapM fun a => coll (f a); return r.flatten) := by
  induction l with
  | nil => rfl
  | cons a l ih =>
    rw [List.flatMap_cons, coll_append, ih, mapM_cons_except]
    rcases coll (f a) with e | x
    · rfl
    · rcases l.mapM fun a => coll (f a) with e | y
      · rfl
      · rfl

theorem coll_map {α : Type} (l : List α) (f : α → Except PyErr (List Gate)) :
    coll (l.map f) = (do let r ← l.mapM f; return r.flatten) := by
  have h := coll_flatMap l fun a => [f a]
  simp only [coll_single] at h
  rw [← h]
  congr 1
  clear h
  induction l with
  | nil => rfl
  | cons a l ih => rw [List.map_cons, List.flatMap_cons, ← ih]; rfl

/-- A list of steps that returns sends all its gates; one that raises raises the first exception. -/
theorem sendAll_coll (l : List (Except PyErr (List Gate))) :
    (∀ gs, coll l = .ok gs → sendAll l = ⟨gs, none⟩) ∧ (∀ e, coll l = .error e → (sendAll l).raised = some e) := by
  induction l with
  | nil => exact ⟨fun gs h => by cases h; rfl, fun e h => by cases h⟩
  | cons x r ih =>
    rcases x with e | g
    · exact ⟨fun gs h => (by cases h), fun e' h => (by cases h; rfl)⟩
    · constructor
      · intro gs h
        rw [coll_cons_ok] at h
        rcases hr : coll r with e | y
        · rw [hr] at h; cases h
        · rw [hr] at h; cases h
          simp only [sendAll]
          rw [ih.1 y hr]
      · intro e h
        rw [coll_cons_ok] at h
        rcases hr : coll r with e' | y
        · rw [hr] at h; cases h
          exact ih.2 _ hr
        · rw [hr] at h; cases h

/-- Steps that send gates, then one that raises. -/
theorem sendAll_error (l : List (List Gate)) (e : PyErr) (r : List (Except PyErr (List Gate))) :
    sendAll (l.map .ok ++ .error e :: r) = ⟨l.flatten, some e⟩ := by
  induction l with
  | nil => rfl
  | cons a l ih =>
    rw [List.map_cons, List.cons_append]
    simp only [sendAll]
    rw [ih, List.flatten_cons]

/-- Steps that all send gates. -/
theorem sendAll_ok (l : List (List Gate)) : sendAll (l.map .ok) = ⟨l.flatten, none⟩ := by
  induction l with
  | nil => rfl
  | cons a l ih =>
    rw [List.map_cons]
    simp only [sendAll]
    rw [ih, List.flatten_cons]

/-- Steps that send gates, then more steps. -/
theorem sendAll_ok_append (l : List (List Gate)) (r : List (Except PyErr (List Gate))) :
    sendAll (l.map .ok ++ r) = ⟨l.flatten ++ (sendAll r).gates, (sendAll r).raised⟩ := by
  induction l with
  | nil => rfl
  | cons a l ih =>
    rw [List.map_cons, List.cons_append]
    simp only [sendAll]
    rw [ih, List.flatten_cons, List.append_assoc]

end PyQ
