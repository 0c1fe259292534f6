import Mathlib.Analysis.SpecialFunctions.Trigonometric.Basic

/-
Apodization: enmap.apod and enmap.apod_mask. A map is a function of row and column, of which the values for y < ny, x < nx count;
floats are real numbers.
-/
namespace Pixell

/-- enmap.apod_profile_lin, pixell/enmap.py:2428. -/
def apodProfileLin (x : ℝ) : ℝ := x
/-- enmap.apod_profile_cos, pixell/enmap.py:2429. -/
noncomputable def apodProfileCos (x : ℝ) : ℝ := 1 / 2 * (1 - Real.cos (Real.pi * x))

/-- The argument `fill` of enmap.apod, pixell/enmap.py:2395-2424; `other` is any other string. -/
inductive ApodFill | zero | mean | median | crossfade | other
  deriving DecidableEq

/-- One pass of the loop of enmap.apod over the axes, pixell/enmap.py:2402-2421, for one line of length `n` along the axis.
`none`: the slices of length n cannot be combined with a profile of length w > n. The arrays prof, m1 and m2 are functions of
their index. -/
noncomputable def apodLine (prof : ℝ → ℝ) (fill : ApodFill) (n : Nat) (w : ℤ) (m : Nat → ℝ) : Option (Nat → ℝ) :=
  if w ≤ 0 then some m else
  let w := w.toNat
  if n < w ∧ w ≠ 1 then (if fill = .other then some m else none) else
  let den : ℝ := if fill = .crossfade then 2 * w + 1 else w + 1
  let p : Nat → ℝ := fun i => prof ((i + 1) / den)
  let m1 : Nat → ℝ := fun i => m i
  let m2 : Nat → ℝ := fun i => m (n - w + i)
  match fill with
  | .crossfade =>
    let a : Nat → ℝ := fun i => if i < w then m1 i * (1 - p (w - 1 - i)) + m2 i * p (w - 1 - i) else m i
    some fun i => if n - w ≤ i then m2 (i - (n - w)) * (1 - p (i - (n - w))) + m1 (i - (n - w)) * p (i - (n - w)) else a i
  | .other => some m
  | _ =>
    let a : Nat → ℝ := fun i => if i < w then m i * p i else m i
    some fun i => if n - w ≤ i then a i * p (w - 1 - (i - (n - w))) else a i

open Classical in
/-- The loop over the two axes, pixell/enmap.py:2402-2421. Along an axis the lines differ only in their contents, so that the error
is raised for all or none. -/
noncomputable def apodAxes (prof : ℝ → ℝ) (fill : ApodFill) (ny nx : Nat) (wy wx : ℤ) (m : Nat → Nat → ℝ) : Option (Nat → Nat → ℝ) :=
  if (∀ x, (apodLine prof fill ny wy (fun y => m y x)).isSome) then
    let m1 : Nat → Nat → ℝ := fun y x => ((apodLine prof fill ny wy (fun y => m y x)).getD fun _ => 0) y
    if (∀ y, (apodLine prof fill nx wx (m1 y)).isSome) then
      some fun y x => ((apodLine prof fill nx wx (m1 y)).getD fun _ => 0) x
    else none
  else none

open Classical in
/-- enmap.apod, pixell/enmap.py:2392-2426. `offset` is np.mean or np.median of the map. -/
noncomputable def apodMap (prof : ℝ → ℝ) (fill : ApodFill) (offset : ℝ) (ny nx : Nat) (wy wx : ℤ) (m : Nat → Nat → ℝ) :
    Option (Nat → Nat → ℝ) :=
  let sub := fill = .mean ∨ fill = .median
  let m0 : Nat → Nat → ℝ := fun y x => if sub then m y x - offset else m y x
  (apodAxes prof fill ny nx wy wx m0).map fun r y x => if sub then r y x + offset else r y x

/-- enmap.apod_mask, pixell/enmap.py:2438-2441: the mask with its borders set to False. -/
def maskEdges (edge : Bool) (ny nx : Nat) (mask : Nat → Nat → Bool) (y x : Nat) : Bool :=
  if edge && (y == 0 || x == 0 || y + 1 == ny || x + 1 == nx) then false else mask y x

/-- All pixels of a map of shape (ny,nx). Used for enmap.py:2086-2091. -/
def mapPixels (ny nx : Nat) : List (Nat × Nat) := (List.range ny).flatMap fun y => (List.range nx).map fun x => (y, x)

/-- The distance to the closest False pixel, at most rmax, and zero in False pixels: the documented result of
enmap.distance_transform(rmax), pixell/enmap.py:2081-2092; `d` is the distance between two pixels. -/
noncomputable def closestFalse (d : Nat × Nat → Nat × Nat → ℝ) (ny nx : Nat) (mask : Nat → Nat → Bool) (rmax : ℝ) (y x : Nat) : ℝ :=
  if mask y x then (((mapPixels ny nx).filter fun q => !mask q.1 q.2).map fun q => d (y, x) q).foldl min rmax else 0

/-- enmap.apod_mask, pixell/enmap.py:2431-2443. -/
noncomputable def apodMask (d : Nat × Nat → Nat × Nat → ℝ) (prof : ℝ → ℝ) (edge : Bool) (width : ℝ) (ny nx : Nat) (mask : Nat → Nat → Bool)
    (y x : Nat) : ℝ :=
  prof (closestFalse d ny nx (maskEdges edge ny nx mask) width y x / width)

end Pixell
