import Verif.Model.Ranges
import Mathlib.Data.List.Basic

namespace Pixell

/-- Rising positions of a mask, scanned from position `off` with previous value `prev`. -/
def rises (off : Nat) (prev : Bool) : List Bool → List Nat
  | [] => []
  | x :: l => (if !prev && x then [off] else []) ++ rises (off + 1) x l

/-- Falling positions; the outside is false. -/
def falls (off : Nat) (prev : Bool) : List Bool → List Nat
  | [] => if prev then [off] else []
  | x :: l => (if prev && !x then [off] else []) ++ falls (off + 1) x l

theorem filter_range_shift (n off : Nat) (p : Nat → Bool) :
    ((List.range (n + 1)).filter p).map (· + off) =
      (if p 0 then [off] else []) ++ ((List.range n).filter fun i => p (i + 1)).map (· + (off + 1)) := by
  rw [List.range_succ_eq_map, List.filter_cons, List.filter_map]
  have : List.map (fun x => x + off) (List.map Nat.succ (List.filter (p ∘ Nat.succ) (List.range n))) =
      List.map (fun x => x + (off + 1)) (List.filter (fun i => p (i + 1)) (List.range n)) := by
    rw [List.map_map]
    apply List.map_congr_left
    intro a _
    simp only [Function.comp]
    omega
  split
  · rw [List.map_cons, this]; simp
  · rw [this]; simp

theorem rises_eq (off : Nat) (prev : Bool) (l : List Bool) :
    ((List.range (l.length + 1)).filter fun i =>
      !((prev :: (l ++ [false])).getD i false) && (prev :: (l ++ [false])).getD (i + 1) false).map (· + off) =
      rises off prev l := by
  induction l generalizing off prev with
  | nil => cases prev <;> rfl
  | cons x l ih =>
    rw [List.length_cons, filter_range_shift, rises, ← ih (off + 1) x]
    rfl

theorem falls_eq (off : Nat) (prev : Bool) (l : List Bool) :
    ((List.range (l.length + 1)).filter fun i =>
      (prev :: (l ++ [false])).getD i false && !((prev :: (l ++ [false])).getD (i + 1) false)).map (· + off) =
      falls off prev l := by
  induction l generalizing off prev with
  | nil => cases prev <;> simp [falls]
  | cons x l ih =>
    rw [List.length_cons, filter_range_shift, falls, ← ih (off + 1) x]
    rfl

theorem mask2range_eq (mask : List Bool) : mask2range mask = (rises 0 false mask).zip (falls 0 false mask) := by
  rw [← rises_eq, ← falls_eq]
  simp [mask2range]

/-- Points of a mask that are true, offset by `off`. -/
def TruePt (off : Nat) (l : List Bool) (z : Nat) : Prop := ∃ i, z = off + i ∧ l[i]? = some true

theorem truePt_cons (off : Nat) (x : Bool) (l : List Bool) (z : Nat) :
    TruePt off (x :: l) z ↔ (z = off ∧ x = true) ∨ TruePt (off + 1) l z := by
  unfold TruePt
  constructor
  · rintro ⟨i, h1, h2⟩
    cases i with
    | zero => left; exact ⟨by simpa using h1, by simpa using h2⟩
    | succ i => right; exact ⟨i, by omega, by simpa using h2⟩
  · rintro (⟨rfl, rfl⟩ | ⟨i, h1, h2⟩)
    · exact ⟨0, by simp, by simp⟩
    · exact ⟨i + 1, by omega, by simpa using h2⟩

theorem runs_spec (l : List Bool) (off : Nat) :
    ((rises off false l).length = (falls off false l).length ∧
      (∀ p ∈ (rises off false l).zip (falls off false l), off ≤ p.1 ∧ p.1 < p.2 ∧ p.2 ≤ off + l.length) ∧
      ((rises off false l).zip (falls off false l)).Pairwise (fun p q => p.2 < q.1) ∧
      ∀ z, (∃ p ∈ (rises off false l).zip (falls off false l), p.1 ≤ z ∧ z < p.2) ↔ TruePt off l z) ∧
    (∃ f fs, falls off true l = f :: fs ∧ off ≤ f ∧ f ≤ off + l.length ∧
      (rises off true l).length = fs.length ∧
      (∀ p ∈ (rises off true l).zip fs, f < p.1 ∧ p.1 < p.2 ∧ p.2 ≤ off + l.length) ∧
      ((rises off true l).zip fs).Pairwise (fun p q => p.2 < q.1) ∧
      ∀ z, ((off ≤ z ∧ z < f) ∨ ∃ p ∈ (rises off true l).zip fs, p.1 ≤ z ∧ z < p.2) ↔ TruePt off l z) := by
  induction l generalizing off with
  | nil =>
    refine ⟨⟨rfl, by simp [rises], by simp [rises], ?_⟩, off, [], rfl, Nat.le_refl _, by simp, rfl, by simp [rises], by simp [rises], ?_⟩
    · intro z; simp [rises, TruePt]
    · intro z; simp [rises, TruePt]
  | cons x l ih =>
    obtain ⟨⟨a1, a2, a3, a4⟩, f, fs, b1, b2, b3, b4, b5, b6, b7⟩ := ih (off + 1)
    cases x with
    | false =>
      have r1 : rises off false (false :: l) = rises (off + 1) false l := by simp [rises]
      have r2 : falls off false (false :: l) = falls (off + 1) false l := by simp [falls]
      have r3 : rises off true (false :: l) = rises (off + 1) false l := by simp [rises]
      have r4 : falls off true (false :: l) = off :: falls (off + 1) false l := by simp [falls]
      rw [r1, r2, r3, r4]
      refine ⟨⟨a1, fun p hp => ?_, a3, fun z => ?_⟩, off, _, rfl, Nat.le_refl _, by simp, a1, fun p hp => ?_, a3, fun z => ?_⟩
      · have := a2 p hp; simp only [List.length_cons]; omega
      · rw [a4 z, truePt_cons]; simp
      · have := a2 p hp; simp only [List.length_cons]; omega
      · rw [a4 z, truePt_cons]
        constructor
        · rintro (h | h)
          · omega
          · exact Or.inr h
        · rintro (h | h)
          · simp at h
          · exact Or.inr h
    | true =>
      have r1 : rises off false (true :: l) = off :: rises (off + 1) true l := by simp [rises]
      have r2 : falls off false (true :: l) = f :: fs := by simp [falls, b1]
      have r3 : rises off true (true :: l) = rises (off + 1) true l := by simp [rises]
      have r4 : falls off true (true :: l) = f :: fs := by simp [falls, b1]
      rw [r1, r2, r3, r4, List.zip_cons_cons]
      refine ⟨⟨by simp [b4], fun p hp => ?_, ?_, fun z => ?_⟩, f, fs, rfl, by omega, by simp only [List.length_cons]; omega,
        b4, fun p hp => ?_, b6, fun z => ?_⟩
      · rcases List.mem_cons.1 hp with rfl | hp
        · simp only [List.length_cons]; omega
        · have := b5 p hp; simp only [List.length_cons]; omega
      · rw [List.pairwise_cons]
        exact ⟨fun p hp => (b5 p hp).1, b6⟩
      · rw [truePt_cons, ← b7 z]
        constructor
        · rintro ⟨p, hp, h⟩
          rcases List.mem_cons.1 hp with rfl | hp
          · rcases Nat.eq_or_lt_of_le h.1 with h' | h'
            · left; exact ⟨h'.symm, rfl⟩
            · right; left; exact ⟨h', h.2⟩
          · right; right; exact ⟨p, hp, h⟩
        · rintro (⟨rfl, _⟩ | h | ⟨p, hp, h⟩)
          · exact ⟨(z, f), by simp, by simp; omega⟩
          · exact ⟨(off, f), by simp, by simp; omega⟩
          · exact ⟨p, by simp [hp], h⟩
      · have := b5 p hp; simp only [List.length_cons]; omega
      · rw [truePt_cons, ← b7 z]
        constructor
        · rintro (h | h)
          · rcases Nat.eq_or_lt_of_le h.1 with h' | h'
            · left; exact ⟨h'.symm, rfl⟩
            · right; left; exact ⟨h', h.2⟩
          · right; right; exact h
        · rintro (⟨rfl, _⟩ | h | h)
          · left; omega
          · left; omega
          · right; exact h

end Pixell
