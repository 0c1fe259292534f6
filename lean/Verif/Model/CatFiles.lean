import Verif.Model.Num

/-
pixell/pointsrcs.py:495-653: catalogs of point sources in files. A row of a text file is the list of its numbers; the value
of a degree in radians is an argument.
-/
namespace Pixell

/-- C's and Python's "%.nf", as a number: rounded to n decimals, ties to even. -/
def fixedDec (n : ℕ) (x : ℚ) : ℚ := rint (x * 10 ^ n) / 10 ^ n

/-- One object of a catalog of pixell/pointsrcs.py:560-660; flux and dflux are [nfield][ncomp]. -/
structure SauronRow where
  ra : ℚ
  dec : ℚ
  snr : List ℚ
  fluxTot : List ℚ
  dfluxTot : List ℚ
  flux : List (List ℚ)
  dflux : List (List ℚ)
  case_ : Option ℤ
  contam : Option (List ℚ)
  deriving DecidableEq, Repr

/-- Values and their uncertainties side by side, `for j in range(len(flux))`; none for too few uncertainties. -/
def sideBySide : List ℚ → List ℚ → Option (List ℚ)
  | [], _ => some []
  | _ :: _, [] => none
  | a :: as, b :: bs => (sideBySide as bs).map fun r => fixedDec 2 a :: fixedDec 2 b :: r

/-- pixell/pointsrcs.py:573-593 (format_sauron): one line; none if snr is empty or an array too short. -/
def sauronWrite (deg : ℚ) (r : SauronRow) : Option (List ℚ) :=
  match r.snr, sideBySide r.fluxTot r.dfluxTot, sideBySide r.flux.flatten r.dflux.flatten with
  | s :: ss, some tot, some fl =>
    some ([fixedDec 4 (r.ra / deg), fixedDec 4 (r.dec / deg)] ++ (s :: ss).map (fixedDec 2) ++ tot ++ fl ++
      (match r.case_ with
        | some c => [(c : ℚ)]
        | none => []) ++
      (match r.contam with
        | some c => c.map (fixedDec 2)
        | none => []))
  | _, _, _ => none

/-- `raw[0:n:2]` and `raw[1:n:2]`. -/
def everyOther (start n : ℕ) (raw : List ℚ) : List ℚ :=
  ((List.range n).filter fun i => start ≤ i ∧ (i - start) % 2 = 0).filterMap fun i => raw[i]?

/-- reshape(-1,n,k) of one row: n lists of length k; none if the size is wrong. -/
def rowReshape (n k : ℕ) (a : List ℚ) : Option (List (List ℚ)) :=
  if a.length = n * k then some ((List.range n).map fun i => (a.drop (i * k)).take k) else none

/-- pixell/pointsrcs.py:621-635 (read_sauron_txt): one line; none if it raises. Arrays of the wrong length cannot be
assigned, unless they have length one. -/
def sauronRead (deg : ℚ) (ncomp : ℕ) (raw : List ℚ) : Option SauronRow := do
  let ncol := raw.length
  let nfreq := ((ncol : ℤ) - 2 - ncomp - 1).fdiv (2 * ncomp + 1)
  if nfreq < 0 then none
  let nf := nfreq.toNat
  let fit : ℕ → List ℚ → Option (List ℚ) := fun n a =>
    if a.length = n then some a else if a.length = 1 then some (List.replicate n (a.getD 0 0)) else none
  let ra ← raw[0]?
  let dec ← raw[1]?
  let raw := raw.drop 2
  let snr ← fit ncomp (raw.take ncomp)
  let raw := raw.drop ncomp
  let ft ← fit ncomp (everyOther 0 (2 * ncomp) raw)
  let dft ← fit ncomp (everyOther 1 (2 * ncomp) raw)
  let raw := raw.drop (2 * ncomp)
  let fl ← rowReshape nf ncomp (everyOther 0 (2 * ncomp * nf) raw)
  let dfl ← rowReshape nf ncomp (everyOther 1 (2 * ncomp * nf) raw)
  let raw := raw.drop (2 * ncomp * nf)
  let c ← raw[0]?
  let raw := raw.drop 1
  let cont ← fit nf (raw.take nf)
  return ⟨ra * deg, dec * deg, snr, ft, dft, fl, dfl, some (intTrunc c), some cont⟩

/-- pixell/pointsrcs.py:603-608 (write_sauron_fits): positions in the table. -/
def sauronFitsWrite (deg : ℚ) (r : SauronRow) : SauronRow := { r with ra := r.ra / deg, dec := r.dec / deg }

/-- pixell/pointsrcs.py:610-615 (read_sauron_fits). -/
def sauronFitsRead (deg : ℚ) (r : SauronRow) : SauronRow := { r with ra := r.ra * deg, dec := r.dec * deg }

/-! ### read -/

/-- A catalog file, as far as the readers look at it: a FITS table with its columns and the number of components of amp, or a
text file whose rows have columns that are numbers or not; whether the rows are those of nemo is given. -/
inductive CatFile
  | fits (cols : List String) (namp : ℕ)
  | text (numeric : List Bool) (isNemo : Bool)

/-- What a reader does: returns, raises one of the errors that read catches, or another one. -/
inductive CatRes | ok | caught | raised
  deriving DecidableEq, Repr

/-- The formats of pixell/pointsrcs.py:496. -/
inductive CatFormat | doryFits | doryTxt | fits | nemo | simple
  deriving DecidableEq, Repr

/-- The readers, pixell/pointsrcs.py:509-558: a FITS table without a column raises AttributeError, with the wrong number of
components ValueError; loadtxt of a FITS file raises a ValueError; a text file is not FITS (OSError). -/
def catReader (f : CatFormat) (file : CatFile) : CatRes :=
  match f, file with
  | .doryFits, .fits cols namp =>
    if "ra" ∈ cols ∧ "dec" ∈ cols ∧ "amp" ∈ cols then (if namp = 3 then .ok else .caught) else .raised
  | .doryFits, .text _ _ => .caught
  | .doryTxt, .fits _ _ => .caught
  | .doryTxt, .text num _ => if [0, 1, 3, 5, 7].all (fun i => num.getD i false) then .ok else .caught
  | .fits, .fits _ _ => .ok
  | .fits, .text _ _ => .caught
  | .nemo, .fits _ _ => .caught
  | .nemo, .text _ nemo => if nemo then .ok else .caught
  | .simple, .fits _ _ => .caught
  | .simple, .text num _ => if (num.getD 0 false && num.getD 1 false && num.getD 2 false) then .ok else .caught

/-- pixell/pointsrcs.py:498-507: the loop of read: the format read, or whether the error is the IOError of the last line. -/
def catReadLoop (file : CatFile) : List CatFormat → CatFormat ⊕ CatRes
  | [] => .inr .caught
  | f :: fs => match catReader f file with
    | .ok => .inl f
    | .caught => catReadLoop file fs
    | .raised => .inr .raised

/-- pixell/pointsrcs.py:495-507 (read) with format="auto". -/
def catReadAuto (file : CatFile) : CatFormat ⊕ CatRes := catReadLoop file [.doryFits, .doryTxt, .fits, .nemo, .simple]

/-- The position each reader returns for one given in the file in degrees: pixell/pointsrcs.py:521 (nemo), :532-533 (simple),
:539-540, :549-550 (dory), :554-558 (fits). -/
def catPos (deg : ℚ) (f : CatFormat) (p : ℚ) : ℚ :=
  match f with
  | .nemo => p
  | .simple => p * deg
  | .doryFits => p * deg
  | .doryTxt => p * deg
  | .fits => p

/-- pixell/pointsrcs.py:641-653 (src2param): the position. -/
def src2paramPos (deg p : ℚ) : ℚ := p * deg

/-- pixell/pointsrcs.py:637-639 (translate_dtype_keys): the names of the columns. -/
def translateKeys (tr : List (String × String)) (names : List String) : List String :=
  names.map fun n => (tr.lookup n).getD n

/-! ### radial_bin -/

/-- pixell/pointsrcs.py:203-206 (radial_bin): the shape to which div is reshaped, from the shapes [nobj,...,nbin] of profs
and div; none if the sizes differ and reshape raises. -/
def radialDivShape (profs div : List ℕ) : Option (List ℕ) :=
  let target := profs.take 1 ++ List.replicate (profs.length - div.length) 1 ++ profs.drop (profs.length - 1)
  if target.prod = div.prod then some target else none

end Pixell
