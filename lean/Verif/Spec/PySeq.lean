/-
Specification side: Python's `range` and `slice` semantics, and one-dimensional numpy basic
slicing.  This is language/library behaviour, not pixell code; nothing here mentions the model.
-/
namespace PySpec

/-- Number of elements of Python's `range(a, b, s)` (Python reference, `range`). -/
def rangeLen (a b s : Int) : Nat :=
  if 0 < s then ((b - a + s - 1) / s).toNat
  else if s < 0 then ((a - b - s - 1) / (-s)).toNat
  else 0

/-- Python's `range(a, b, s)`, as the list of its elements. -/
def range (a b s : Int) : List Int :=
  (List.range (rangeLen a b s)).map fun (k : Nat) => a + (k : Int) * s

/-- A Python slice object `start:stop:step`; `none` is `None`. -/
structure Slice where
  start : Option Int := none
  stop  : Option Int := none
  step  : Option Int := none
deriving DecidableEq, Repr

/-- Clamp of one bound, as in CPython's `PySlice_AdjustIndices`. -/
def adjust (n step i : Int) : Int :=
  if i < 0 then
    if i + n < 0 then (if step < 0 then -1 else 0) else i + n
  else if n ≤ i then (if step < 0 then n - 1 else n) else i

/-- CPython's `slice.indices(n)`; `none` for a zero step, which Python rejects. -/
def Slice.indices (sel : Slice) (n : Int) : Option (Int × Int × Int) :=
  let step := sel.step.getD 1
  if step = 0 then none
  else
    let start := match sel.start with
      | some i => adjust n step i
      | none   => if step < 0 then n - 1 else 0
    let stop := match sel.stop with
      | some i => adjust n step i
      | none   => if step < 0 then -1 else n
    some (start, stop, step)

/-- The list of indices that `a[sel]` selects from a sequence of length `n`. -/
def Slice.select (sel : Slice) (n : Int) : Option (List Int) :=
  (sel.indices n).map fun (a, b, s) => range a b s

theorem length_range (a b s : Int) : (range a b s).length = rangeLen a b s := by
  simp [range]

/-- `k` counts an element of `range(a,b,s)` exactly when `a+k*s` has not passed `b`. -/
theorem lt_rangeLen_iff (a b s : Int) (k : Nat) :
    k < rangeLen a b s ↔ (0 < s ∧ a + k * s < b) ∨ (s < 0 ∧ b < a + k * s) := by
  unfold rangeLen
  by_cases h : 0 < s
  · have h' : ¬ s < 0 := by omega
    simp only [h, if_true, true_and, h', false_and, or_false]
    have key : ((k:Int) < (b - a + s - 1) / s) ↔ a + k * s < b := by
      constructor
      · intro hk
        have h1 : ((k:Int) + 1) ≤ (b - a + s - 1) / s := hk
        have := (Int.le_ediv_iff_mul_le h).1 h1
        rw [Int.add_mul] at this
        omega
      · intro hk
        have : ((k:Int) + 1) ≤ (b - a + s - 1) / s := by
          rw [Int.le_ediv_iff_mul_le h, Int.add_mul]
          omega
        omega
    rw [← key]; omega
  · by_cases h' : s < 0
    · simp only [h, if_false, h', if_true, false_and, false_or, true_and]
      have hp : 0 < -s := by omega
      have key : ((k:Int) < (a - b - s - 1) / (-s)) ↔ b < a + k * s := by
        constructor
        · intro hk
          have h1 : ((k:Int) + 1) ≤ (a - b - s - 1) / (-s) := hk
          have := (Int.le_ediv_iff_mul_le hp).1 h1
          rw [Int.add_mul, Int.mul_neg] at this
          omega
        · intro hk
          have : ((k:Int) + 1) ≤ (a - b - s - 1) / (-s) := by
            rw [Int.le_ediv_iff_mul_le hp, Int.add_mul, Int.mul_neg]
            omega
          omega
      rw [← key]; omega
    · simp [h, h']

/-- Membership in `range(a,b,s)` in the words of the Python reference. -/
theorem mem_range (a b s x : Int) :
    x ∈ range a b s ↔
      ∃ k : Nat, x = a + k * s ∧ ((0 < s ∧ x < b) ∨ (s < 0 ∧ b < x)) := by
  simp only [range, List.mem_map, List.mem_range, lt_rangeLen_iff]
  constructor
  · rintro ⟨k, h, rfl⟩; exact ⟨k, rfl, h⟩
  · rintro ⟨k, rfl, h⟩; exact ⟨k, h, rfl⟩

theorem getElem_range (a b s : Int) (k : Nat) (h : k < (range a b s).length) :
    (range a b s)[k] = a + k * s := by
  simp [range]

/-- A slice selects nothing once it starts past its end. -/
theorem range_eq_nil (a b s : Int) (h : (0 < s → b ≤ a) ∧ (s < 0 → a ≤ b)) :
    range a b s = [] := by
  apply List.eq_nil_iff_forall_not_mem.2
  intro x hx
  rw [mem_range] at hx
  obtain ⟨k, rfl, h1 | h1⟩ := hx
  · have := h.1 h1.1
    have : 0 ≤ (k:Int) * s := Int.mul_nonneg (by omega) (by omega)
    omega
  · have := h.2 h1.1
    have : (k:Int) * s ≤ 0 := Int.mul_nonpos_of_nonneg_of_nonpos (by omega) (by omega)
    omega

/-- numpy basic slicing of a one-dimensional array: the elements at the selected indices. -/
def npGet {α} (l : List α) (sel : Slice) : Option (List α) :=
  (sel.select l.length).map fun idx => idx.filterMap fun i => l[i.toNat]?

/-- Writing `vals` at the positions `idx`, one after the other. -/
def writeAt {α} (l : List α) : List Int → List α → List α
  | i :: is, v :: vs => writeAt (l.set i.toNat v) is vs
  | _, _ => l

/-- numpy assignment `l[sel] = vals` of a one-dimensional array.  `none` models the `ValueError`
raised when the lengths differ; a single value broadcasts. -/
def npSet {α} (l : List α) (sel : Slice) (vals : List α) : Option (List α) :=
  match sel.select l.length with
  | none => none
  | some idx =>
    if idx.length = vals.length then some (writeAt l idx vals)
    else match vals with
      | [v] => some (writeAt l idx (List.replicate idx.length v))
      | _   => none

example : (Slice.mk (some 1) (some (-1)) none).select 5 = some [1, 2, 3] := by decide +kernel
example : (Slice.mk none none (some (-2))).select 5 = some [4, 2, 0] := by decide +kernel
example : npGet [10, 11, 12, 13] ⟨some (-3), none, some 2⟩ = some [11, 13] := by decide +kernel
example : npSet [10, 11, 12, 13] ⟨some 1, some 3, none⟩ [7, 8] = some [10, 7, 8, 13] := by decide +kernel

end PySpec
