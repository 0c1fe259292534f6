import Verif.Model.Coordinates
import Verif.Model.TransMeta
import Mathlib.Algebra.Order.Archimedean.Basic

/-
pixell/coordinates.py: coordinate systems described by texts, base:ref:refsys/refto:reftosys, and positions of moving objects.
Texts are lists of characters, angles are real numbers. The conversion of numbers, the ephemeris and the conversions
between systems are parameters, except that those between the sky and the horizon fail.
-/
namespace Pixell
open Real

/-- str.split(sep). Used for coordinates.py:354, 366, 370. -/
def strSplit (sep : Char) : List Char → List (List Char)
  | [] => [[]]
  | c :: cs =>
    if c = sep then [] :: strSplit sep cs
    else match strSplit sep cs with
      | [] => [[c]]
      | h :: t => (c :: h) :: t

/-- str.split(sep,1): what comes before the first separator, and after it. Used for coordinates.py:346. -/
def strSplit1 (sep : Char) : List Char → List Char × Option (List Char)
  | [] => ([], none)
  | c :: cs =>
    if c = sep then ([], some cs)
    else ((c :: (strSplit1 sep cs).1), (strSplit1 sep cs).2)

/-- pixell/coordinates.py:428-436 (str2sys). -/
def str2sys : List (String × Sys) :=
  [("gal", .galactic), ("galactic", .galactic),
   ("equ", .icrs), ("equatorial", .icrs), ("cel", .icrs), ("celestial", .icrs), ("icrs", .icrs),
   ("altaz", .altaz), ("azel", .altaz), ("hor", .altaz), ("horizontal", .altaz),
   ("tele", .tele), ("telescope", .tele),
   ("bore", .bore), ("boresight", .bore),
   ("ecl", .ecliptic), ("ecliptic", .ecliptic), ("barycentrictrueecliptic", .ecliptic)]

/-- pixell/coordinates.py:315 (getsys) for a text. `none`: KeyError. Only ASCII letters are lowered. -/
def getsys (name : List Char) : Option Sys :=
  (str2sys.find? fun p => p.1.toList = name.map Char.toLower).map (·.2)

/-- The names used inside, the keys of pixell/coordinates.py:429-436. -/
def Sys.name : Sys → String
  | .galactic => "galactic" | .icrs => "icrs" | .altaz => "altaz" | .tele => "tele" | .bore => "bore"
  | .ecliptic => "barycentrictrueecliptic"

/-- What the parsing depends on: float() of a text, positions of ephemeris objects in equatorial coordinates, and the conversions
between systems, at one time. Used for coordinates.py:370-377. -/
structure SysEnv where
  num : List Char → Option ℝ
  ephem : List Char → Option (ℝ × ℝ)
  conv : Sys → Sys → ℝ × ℝ → Option (ℝ × ℝ)

/-- transform_raw between two systems without reference points: nothing is done if they are the same (coordinates.py:155). -/
def SysEnv.to (E : SysEnv) (a b : Sys) (p : ℝ × ℝ) : Option (ℝ × ℝ) := if a = b then some p else E.conv a b p

/-- The shape of np.zeros(1) broadcast with times of the shape `ts`; `none` if no time is given. Used for coordinates.py:143-144, 372. -/
def posShape : Option (List ℕ) → List ℕ
  | none => [1]
  | some [] => [1]
  | some ts => ts

/-- pixell/coordinates.py:364-379: one reference point, its value at one time, the shape of its arrays, and its system. An
object needs a time. -/
noncomputable def refPoint (E : SysEnv) (ts : Option (List ℕ)) (base prev : Sys) (tok : List Char) : Option ((ℝ × ℝ) × List ℕ × Sys) :=
  let toks := strSplit ':' tok
  let r := toks.headD []
  (match toks[1]? with
    | some name => getsys name
    | none => some prev).bind fun refsys =>
  match (strSplit '_' r).mapM E.num with
  | some [x, y] => (E.to refsys base (x * (π / 180), y * (π / 180))).map fun p => (p, posShape ts, refsys)
  | some _ => none
  | none => match ts with
    | none => none
    | some ts => ((E.ephem r).bind (E.to .icrs base)).map fun p => (p, ts, refsys)

/-- pixell/coordinates.py:363-380: the reference points one after the other. -/
noncomputable def refPoints (E : SysEnv) (ts : Option (List ℕ)) (base : Sys) : Sys → List (List Char) → Option (List ((ℝ × ℝ) × List ℕ))
  | _, [] => some []
  | prev, tok :: rest =>
    (refPoint E ts base prev tok).bind fun r =>
      (refPoints E ts base r.2.2 rest).map fun l => (r.1, r.2.1) :: l

/-- A system with its reference points, if any. Used for coordinates.py:383. -/
structure SysFull where
  base : Sys
  ref : Option (Bool × List (ℝ × ℝ) × List ℕ)

/-- pixell/coordinates.py:322-383 (getsys_full) for a text. np.array of arrays of different shapes raises. -/
noncomputable def getsysFull (E : SysEnv) (ts : Option (List ℕ)) (text : List Char) : Option SysFull :=
  let (b, ref) := strSplit1 ':' text
  let sidelobe := b = "sidelobe".toList
  (getsys (if sidelobe then "bore".toList else b)).bind fun base =>
    match ref with
    | none => some ⟨base, none⟩
    | some ref => (refPoints E ts base base (strSplit '/' ref)).bind fun pts =>
      let shape := (pts.map (·.2)).headD []
      if pts.all fun p => p.2 = shape then some ⟨base, some (decide sidelobe, pts.map (·.1), shape)⟩ else none

/-- pixell/coordinates.py:302-303: two or four rows; otherwise ra0 is not defined. -/
def centerOf : List (ℝ × ℝ) → Option Center
  | [a] => some (.at2 a.1 a.2)
  | [a, b] => some (.at4 a.1 a.2 b.1 b.2)
  | _ => none

/-- The length of two axes together in numpy's broadcasting, aligned at the end. Used for coordinates.py:285. -/
def bcast2 (a b : ℕ) : Option ℕ := if a = b then some a else if a = 1 then some b else if b = 1 then some a else none

/-- pixell/coordinates.py:280-287 (euler_rot), the shapes: angles of the shape `s` and `n` positions; the result must have as many
elements as the positions to be put back in their shape. -/
def rotShapeOk (s : List ℕ) (n : ℕ) : Bool :=
  match s.reverse with
  | [] => true
  | last :: front => match bcast2 last n with
    | none => false
    | some m => front.prod * m = n

/-- pixell/coordinates.py:126-181 (transform_raw) of one of `n` positions, between systems that have been parsed. -/
noncomputable def sysConv (E : SysEnv) (n : ℕ) (a b : SysFull) (p : ℝ × ℝ) : Option (ℝ × ℝ) :=
  (match a.ref with
    | none => some p
    | some (s, pts, shape) => if rotShapeOk shape n then (centerOf pts).map fun c => decenter p c s else none).bind fun p =>
  (E.to a.base b.base p).bind fun p =>
  match b.ref with
    | none => some p
    | some (s, pts, shape) => if rotShapeOk shape n then (centerOf pts).map fun c => recenter p c s else none

/-- pixell/coordinates.py:24-65 (transform), the position. The systems are parsed with the times in their own shape (line 32). -/
noncomputable def sysTransform (E : SysEnv) (ts : Option (List ℕ)) (n : ℕ) (fromText toText : List Char) (p : ℝ × ℝ) : Option (ℝ × ℝ) :=
  (getsysFull E ts fromText).bind fun a => (getsysFull E ts toText).bind fun b => sysConv E n a b p

/-- pixell/coordinates.py:217-244: hor2cel and cel2hor index with len(time)/2, which is not an integer in Python 3. The
other steps of transform_raw are `other`. -/
def convStep {P : Type} (other : Sys → Sys → P → P) (a b : Sys) (p : Option P) : Option P :=
  if (a = .altaz ∧ b = .icrs) ∨ (a = .icrs ∧ b = .altaz) then none else p.map (other a b)

/-! ### Moving objects -/

/-- pixell/coordinates.py:410: the time interval widened by one part in a hundred. -/
noncomputable def trackBox (lo hi : ℝ) : ℝ × ℝ := (lo - (hi - lo) * (1 / 100) / 2, hi + (hi - lo) * (1 / 100) / 2)

/-- pixell/coordinates.py:411: sub_nsamp. dt is in seconds, times are in days. -/
noncomputable def trackN (lo hi dt : ℝ) : ℕ := max 3 ⌊((trackBox lo hi).2 - (trackBox lo hi).1) * 24 * 3600 / dt⌋.toNat

/-- pixell/coordinates.py:412: sub_mjd. -/
noncomputable def trackNode (lo hi dt : ℝ) (k : ℕ) : ℝ :=
  (trackBox lo hi).1 + ((trackBox lo hi).2 - (trackBox lo hi).1) * k / (trackN lo hi dt - 1)

/-- pixell/coordinates.py:422: inds. `none`: 0/0. -/
noncomputable def trackInd (lo hi dt t : ℝ) : Option ℝ :=
  let (b0, b1) := trackBox lo hi
  if b1 - b0 = 0 then none else some ((t - b0) * (trackN lo hi dt - 1) / (b1 - b0))

/-- pixell/coordinates.py:404-424 (interpol_pos), the first coordinate at the time `t`. `ra` is that of the object at any time, as
given by transform_raw, and `interp` interpolates values at whole numbers. Line 420 rewinds the second coordinate only. -/
noncomputable def trackRa (interp : (ℕ → ℝ) → ℝ → ℝ) (ra : ℝ → ℝ) (lo hi dt t : ℝ) : Option ℝ :=
  (trackInd lo hi dt t).map fun x => interp (fun k => ra (trackNode lo hi dt k)) x

end Pixell
