import Verif.Model.CatFiles
import Verif.Props.Submap
import Mathlib.Tactic

/-!
C170: catalogs of sources written to files and read back are the same up to the decimals written; which format a file is
taken for; units of positions; radial profiles with weights.
-/
namespace Pixell

theorem rint_near (x : ℚ) : |x - rint x| ≤ 1 / 2 := by
  have h1 := Int.floor_le x
  have h2 := Int.lt_floor_add_one x
  unfold rint
  simp only
  split_ifs with a b c
  · rw [abs_le]; constructor <;> linarith
  · push_cast; rw [abs_le]; constructor <;> linarith
  · rw [abs_le]; constructor <;> linarith
  · push_cast; rw [abs_le]; constructor <;> linarith

/-- What is written is within half a unit of the last decimal. -/
theorem fixedDec_near (n : ℕ) (x : ℚ) : |fixedDec n x - x| ≤ 1 / 2 / 10 ^ n := by
  have h := rint_near (x * 10 ^ n)
  have hp : (0 : ℚ) < 10 ^ n := by positivity
  unfold fixedDec
  rw [show (rint (x * 10 ^ n) : ℚ) / 10 ^ n - x = -(x * 10 ^ n - rint (x * 10 ^ n)) / 10 ^ n by field_simp; ring, abs_div, abs_neg,
    abs_of_pos hp]
  exact div_le_div_of_nonneg_right h hp.le

theorem everyOther_zero (n : ℕ) (raw : List ℚ) :
    everyOther 0 (2 * n) raw = (List.range n).filterMap fun i => raw[2 * i]? := by
  unfold everyOther
  have : (List.range (2 * n)).filter (fun i => decide (0 ≤ i ∧ (i - 0) % 2 = 0)) = (List.range n).map (2 * ·) := by
    induction n with
    | zero => rfl
    | succ n ih =>
      rw [show 2 * (n + 1) = 2 * n + 1 + 1 by ring, List.range_succ, List.range_succ, List.filter_append, List.filter_append, ih,
        List.range_succ, List.map_append]
      have a : (0 ≤ 2 * n ∧ (2 * n - 0) % 2 = 0) := by omega
      have b : ¬(0 ≤ 2 * n + 1 ∧ (2 * n + 1 - 0) % 2 = 0) := by omega
      simp only [List.filter_cons, List.filter_nil, a, b, decide_false, List.map_cons,
        List.map_nil, List.append_nil, Bool.false_eq_true, if_false]
      simp
  rw [this, List.filterMap_map]
  rfl

theorem everyOther_one (n : ℕ) (raw : List ℚ) :
    everyOther 1 (2 * n) raw = (List.range n).filterMap fun i => raw[2 * i + 1]? := by
  unfold everyOther
  have : (List.range (2 * n)).filter (fun i => decide (1 ≤ i ∧ (i - 1) % 2 = 0)) = (List.range n).map (2 * · + 1) := by
    induction n with
    | zero => rfl
    | succ n ih =>
      rw [show 2 * (n + 1) = 2 * n + 1 + 1 by ring, List.range_succ, List.range_succ, List.filter_append, List.filter_append, ih,
        List.range_succ, List.map_append]
      have a : ¬(1 ≤ 2 * n ∧ (2 * n - 1) % 2 = 0) := by omega
      have b : (1 ≤ 2 * n + 1 ∧ (2 * n + 1 - 1) % 2 = 0) := by omega
      simp only [List.filter_cons, List.filter_nil, a, b, decide_false, List.map_cons,
        List.map_nil, List.append_nil, Bool.false_eq_true, if_false]
      simp
  rw [this, List.filterMap_map]
  rfl

theorem everyOther_cons (n : ℕ) (x y : ℚ) (r : List ℚ) :
    everyOther 0 (2 * (n + 1)) (x :: y :: r) = x :: everyOther 0 (2 * n) r ∧
    everyOther 1 (2 * (n + 1)) (x :: y :: r) = y :: everyOther 1 (2 * n) r := by
  constructor
  · rw [everyOther_zero, everyOther_zero, List.range_succ_eq_map, List.filterMap_cons, List.filterMap_map]
    simp only [mul_zero, List.getElem?_cons_zero]
    congr 1
  · rw [everyOther_one, everyOther_one, List.range_succ_eq_map, List.filterMap_cons, List.filterMap_map]
    simp only [mul_zero, zero_add, List.getElem?_cons_succ, List.getElem?_cons_zero]
    congr 1

/-- What is written side by side is taken apart again. -/
theorem sideBySide_spec (a b : List ℚ) (h : a.length = b.length) : ∃ s, sideBySide a b = some s ∧ s.length = 2 * a.length ∧
    ∀ rest, everyOther 0 (2 * a.length) (s ++ rest) = a.map (fixedDec 2) ∧
      everyOther 1 (2 * a.length) (s ++ rest) = b.map (fixedDec 2) := by
  induction a generalizing b with
  | nil =>
    have : b = [] := List.length_eq_zero_iff.1 h.symm
    subst this
    refine ⟨[], rfl, rfl, fun rest => ⟨?_, ?_⟩⟩ <;> simp [everyOther]
  | cons x a ih =>
    cases b with
    | nil => simp at h
    | cons y b =>
      obtain ⟨s, h1, h2, h3⟩ := ih b (by simpa using h)
      refine ⟨fixedDec 2 x :: fixedDec 2 y :: s, by simp [sideBySide, h1], by simp [h2]; ring, fun rest => ?_⟩
      obtain ⟨e1, e2⟩ := everyOther_cons a.length (fixedDec 2 x) (fixedDec 2 y) (s ++ rest)
      obtain ⟨q1, q2⟩ := h3 rest
      rw [List.length_cons, List.cons_append, List.cons_append, e1, e2, q1, q2]
      simp

theorem flatten_length {L : List (List ℚ)} {k : ℕ} (h : ∀ l ∈ L, l.length = k) : L.flatten.length = L.length * k := by
  induction L with
  | nil => simp
  | cons x L ih =>
    rw [List.flatten_cons, List.length_append, h x (by simp), ih fun l hl => h l (by simp [hl]), List.length_cons]
    ring

theorem rowReshape_flatten (f : ℚ → ℚ) (L : List (List ℚ)) (k : ℕ) (h : ∀ l ∈ L, l.length = k) :
    rowReshape L.length k (L.flatten.map f) = some (L.map (List.map f)) := by
  unfold rowReshape
  rw [if_pos (by rw [List.length_map, flatten_length h])]
  congr 1
  induction L with
  | nil => rfl
  | cons x L ih =>
    have hx : x.length = k := h x (by simp)
    rw [List.length_cons, List.range_succ_eq_map, List.map_cons, List.map_map, List.flatten_cons, List.map_append, List.map_cons,
      ← ih fun l hl => h l (by simp [hl])]
    congr 1
    · simp [← hx]
    · refine List.map_congr_left fun i _ => ?_
      simp only [Function.comp_apply, Nat.succ_eq_add_one]
      rw [show (i + 1) * k = k + i * k by ring, ← List.drop_drop, List.drop_left' (by simp [hx])]

/-- The catalog with every number as written. -/
def roundedRow (deg : ℚ) (r : SauronRow) : SauronRow where
  ra := fixedDec 4 (r.ra / deg) * deg
  dec := fixedDec 4 (r.dec / deg) * deg
  snr := r.snr.map (fixedDec 2)
  fluxTot := r.fluxTot.map (fixedDec 2)
  dfluxTot := r.dfluxTot.map (fixedDec 2)
  flux := r.flux.map (List.map (fixedDec 2))
  dflux := r.dflux.map (List.map (fixedDec 2))
  case_ := r.case_
  contam := r.contam.map (List.map (fixedDec 2))

/-- **C170_text.** A catalog of any number of components and fields, written as text and read with that number of components,
comes back with all numbers as they were written. -/
theorem C170_text (deg : ℚ) (r : SauronRow) (ncomp nf : ℕ) (hc : 0 < ncomp) (h1 : r.snr.length = ncomp)
    (h2 : r.fluxTot.length = ncomp) (h3 : r.dfluxTot.length = ncomp) (h4 : r.flux.length = nf) (h5 : r.dflux.length = nf)
    (h6 : ∀ l ∈ r.flux, l.length = ncomp) (h7 : ∀ l ∈ r.dflux, l.length = ncomp) {c : ℤ} (h8 : r.case_ = some c)
    {ct : List ℚ} (h9 : r.contam = some ct) (h10 : ct.length = nf) :
    ∃ line, sauronWrite deg r = some line ∧ sauronRead deg ncomp line = some (roundedRow deg r) := by
  obtain ⟨tot, t1, t2, t3⟩ := sideBySide_spec r.fluxTot r.dfluxTot (by omega)
  have lf : r.flux.flatten.length = nf * ncomp := by rw [flatten_length h6, h4]
  have lg : r.dflux.flatten.length = nf * ncomp := by rw [flatten_length h7, h5]
  obtain ⟨fl, f1, f2, f3⟩ := sideBySide_spec r.flux.flatten r.dflux.flatten (by rw [lf, lg])
  rw [h2] at t2 t3
  rw [lf] at f2 f3
  obtain ⟨s0, ss, hs⟩ : ∃ s0 ss, r.snr = s0 :: ss := by
    cases hh : r.snr with
    | nil => rw [hh] at h1; simp at h1; omega
    | cons a b => exact ⟨a, b, rfl⟩
  set snr' := (s0 :: ss).map (fixedDec 2) with hsnr
  have ls : snr'.length = ncomp := by rw [hsnr, List.length_map, ← hs, h1]
  set ct' := ct.map (fixedDec 2) with hct
  have lc : ct'.length = nf := by rw [hct, List.length_map, h10]
  have hline : sauronWrite deg r = some ([fixedDec 4 (r.ra / deg), fixedDec 4 (r.dec / deg)] ++ snr' ++ tot ++ fl ++ [(c : ℚ)] ++ ct') := by
    unfold sauronWrite
    rw [hs, t1, f1, h8, h9]
  refine ⟨_, hline, ?_⟩
  have hlen : ([fixedDec 4 (r.ra / deg), fixedDec 4 (r.dec / deg)] ++ snr' ++ tot ++ fl ++ [(c : ℚ)] ++ ct').length =
      2 + ncomp + 2 * ncomp + 2 * (nf * ncomp) + 1 + nf := by
    simp only [List.length_append, List.length_cons, List.length_nil, ls, t2, f2, lc]
  have hnf : (((2 + ncomp + 2 * ncomp + 2 * (nf * ncomp) + 1 + nf : ℕ) : ℤ) - 2 - ncomp - 1).fdiv (2 * ncomp + 1) = nf := by
    rw [Int.fdiv_eq_ediv_of_nonneg _ (by positivity)]
    have : (((2 + ncomp + 2 * ncomp + 2 * (nf * ncomp) + 1 + nf : ℕ) : ℤ) - 2 - ncomp - 1) = 2 * ncomp + (2 * ncomp + 1) * nf := by
      push_cast; ring
    rw [this, Int.add_mul_ediv_left _ _ (by positivity), Int.ediv_eq_zero_of_lt (by positivity) (by omega), zero_add]
  have hreshape1 := rowReshape_flatten (fixedDec 2) r.flux ncomp h6
  have hreshape2 := rowReshape_flatten (fixedDec 2) r.dflux ncomp h7
  rw [h4] at hreshape1
  rw [h5] at hreshape2
  have d1 : ([fixedDec 4 (r.ra / deg), fixedDec 4 (r.dec / deg)] ++ snr' ++ tot ++ fl ++ [(c : ℚ)] ++ ct').drop 2 =
      snr' ++ (tot ++ (fl ++ ((c : ℚ) :: ct'))) := by simp
  have d2 : (snr' ++ (tot ++ (fl ++ ((c : ℚ) :: ct')))).drop ncomp = tot ++ (fl ++ ((c : ℚ) :: ct')) := by
    rw [← ls, List.drop_left]
  have d2' : (snr' ++ (tot ++ (fl ++ ((c : ℚ) :: ct')))).take ncomp = snr' := by
    rw [← ls, List.take_left]
  have d3 : (tot ++ (fl ++ ((c : ℚ) :: ct'))).drop (2 * ncomp) = fl ++ ((c : ℚ) :: ct') := by
    rw [← t2, List.drop_left]
  have d4 : (fl ++ ((c : ℚ) :: ct')).drop (2 * (nf * ncomp)) = (c : ℚ) :: ct' := by
    rw [← f2, List.drop_left]
  unfold sauronRead
  simp only [hlen]
  rw [hnf]
  simp only [d1, d2, d2', d3, Int.toNat_natCast, show 2 * ncomp * nf = 2 * (nf * ncomp) by ring, d4, (t3 _).1, (t3 _).2, (f3 _).1,
    (f3 _).2, hreshape1, hreshape2]
  have hneg : ¬((nf : ℤ) < 0) := by omega
  have htr : intTrunc (c : ℚ) = c := by
    unfold intTrunc
    split_ifs <;> simp
  have htk : ct'.take nf = ct' := by rw [← lc, List.take_length]
  have hr : roundedRow deg r = ⟨fixedDec 4 (r.ra / deg) * deg, fixedDec 4 (r.dec / deg) * deg, snr', r.fluxTot.map (fixedDec 2),
      r.dfluxTot.map (fixedDec 2), r.flux.map (List.map (fixedDec 2)), r.dflux.map (List.map (fixedDec 2)), some c, some ct'⟩ := by
    simp only [roundedRow, hs, h8, h9, hsnr, hct, Option.map_some]
  rw [hr]
  clear_value snr' ct'
  simp [hneg, ls, h2, h3, htk, lc, htr]

/-- **C170_decimals.** As written means: within half a unit of the fourth decimal of a degree for positions, of the second for
the rest. -/
theorem C170_decimals {deg : ℚ} (hd : 0 < deg) (r : SauronRow) :
    |(roundedRow deg r).ra - r.ra| ≤ deg / 20000 ∧ |(roundedRow deg r).dec - r.dec| ≤ deg / 20000 ∧
    (∀ x ∈ r.snr.zip (roundedRow deg r).snr, |x.2 - x.1| ≤ 1 / 200) ∧
    (∀ x ∈ r.flux.flatten.zip (roundedRow deg r).flux.flatten, |x.2 - x.1| ≤ 1 / 200) := by
  have pos : ∀ x : ℚ, |fixedDec 4 (x / deg) * deg - x| ≤ deg / 20000 := by
    intro x
    have h := fixedDec_near 4 (x / deg)
    have e : fixedDec 4 (x / deg) * deg - x = (fixedDec 4 (x / deg) - x / deg) * deg := by field_simp
    rw [e, abs_mul, abs_of_pos hd]
    have := mul_le_mul_of_nonneg_right h hd.le
    calc _ ≤ 1 / 2 / 10 ^ 4 * deg := this
      _ = deg / 20000 := by ring
  have lst : ∀ l : List ℚ, ∀ x ∈ l.zip (l.map (fixedDec 2)), |x.2 - x.1| ≤ 1 / 200 := by
    intro l x hx
    rw [List.zip_map_right, List.mem_map] at hx
    obtain ⟨⟨p, q⟩, hy, rfl⟩ := hx
    have : p = q := by
      clear * - hy
      induction l with
      | nil => simp at hy
      | cons a l ih =>
        rw [List.zip_cons_cons, List.mem_cons] at hy
        rcases hy with h | h
        · cases h; rfl
        · exact ih h
    subst this
    have := fixedDec_near 2 p
    simp only [Prod.map_fst, Prod.map_snd, id]
    calc _ ≤ 1 / 2 / (10 : ℚ) ^ 2 := this
      _ = 1 / 200 := by norm_num
  refine ⟨pos _, pos _, lst _, ?_⟩
  intro x hx
  apply lst r.flux.flatten x
  have : (roundedRow deg r).flux.flatten = r.flux.flatten.map (fixedDec 2) := by
    simp [roundedRow, List.map_flatten]
  rwa [this] at hx

/-- **C170_fits.** Written to FITS and read back a catalog is the same. -/
theorem C170_fits {deg : ℚ} (hd : deg ≠ 0) (r : SauronRow) : sauronFitsRead deg (sauronFitsWrite deg r) = r := by
  cases r
  simp [sauronFitsRead, sauronFitsWrite, hd]

/-- A catalog of one component and two fields. -/
def oneComp : SauronRow := ⟨1, 1 / 2, [5], [10], [2], [[11], [9]], [[3], [1]], some 1, some [1 / 4, 1 / 2]⟩

/-- **C170_components_refuted.** read_sauron does not know the number of components: a catalog of temperatures only is read as
one of three components, silently, the fluxes being mixed up with signal to noise ratios and with each other. -/
theorem C170_components_refuted : (sauronWrite 1 oneComp).bind (sauronRead 1 3) =
    some ⟨1, 1 / 2, [5, 10, 2], [11, 9, 1], [3, 1, 1 / 4], [], [], some 0, some []⟩ := by decide +kernel

/-- **C170_case_refuted.** What can be written without case and contam cannot always be read: there are catalogs of three
components with one, two and three fields for which read_sauron raises. -/
theorem C170_case_refuted : ∀ nf ∈ [1, 2, 3], ∃ r : SauronRow, r.flux.length = nf ∧ (sauronWrite 1 r).isSome ∧
    (sauronWrite 1 r).bind (sauronRead 1 3) = none := by
  intro nf h
  have : nf = 1 ∨ nf = 2 ∨ nf = 3 := by simpa using h
  rcases this with rfl | rfl | rfl
  · exact ⟨⟨1, 1, [1, 2, 3], [1, 2, 3], [1, 1, 1], [[1, 2, 3]], [[1, 1, 1]], none, none⟩, by decide +kernel⟩
  · exact ⟨⟨1, 1, [1, 2, 3], [1, 2, 3], [1, 1, 1], [[1, 2, 3], [4, 5, 6]], [[1, 1, 1], [1, 1, 1]], none, none⟩, by decide +kernel⟩
  · exact ⟨⟨1, 1, [1, 2, 3], [1, 2, 3], [1, 1, 1], [[1, 2, 3], [4, 5, 6], [7, 8, 9]], [[1, 1, 1], [1, 1, 1], [1, 1, 1]], none, none⟩,
      by decide +kernel⟩

/-! ### read -/

theorem getD_all {num : List Bool} (h : num.all (· = true)) {i : ℕ} (hi : i < num.length) : num.getD i false = true := by
  have := List.all_eq_true.1 h _ (List.getElem_mem hi)
  simpa [List.getElem?_eq_getElem hi] using this

/-- **C170_auto.** read with format="auto" takes the first format whose reader succeeds, if those before it fail in one of
the ways it knows; it recognizes catalogs of dory in both formats, other FITS catalogs whose amp has not three components, those of nemo and simple ones of less than eight columns. -/
theorem C170_auto (cols : List String) (num : List Bool) (nemo : Bool) :
    ("ra" ∈ cols → "dec" ∈ cols → "amp" ∈ cols → catReadAuto (.fits cols 3) = .inl .doryFits) ∧
    (∀ namp ≠ 3, "ra" ∈ cols → "dec" ∈ cols → "amp" ∈ cols → catReadAuto (.fits cols namp) = .inl .fits) ∧
    (8 ≤ num.length → num.all (· = true) → catReadAuto (.text num nemo) = .inl .doryTxt) ∧
    (num.length < 8 → nemo = true → catReadAuto (.text num nemo) = .inl .nemo) ∧
    (num.length < 8 → 3 ≤ num.length → num.all (· = true) → nemo = false → catReadAuto (.text num nemo) = .inl .simple) := by
  have short : num.length < 8 → ([0, 1, 3, 5, 7].all fun i => num.getD i false) = false := by
    intro h
    have : num.getD 7 false = false := by
      rw [List.getD_eq_getElem?_getD, List.getElem?_eq_none (by omega)]; rfl
    simp only [List.all_cons, this, Bool.false_and, Bool.and_false]
  refine ⟨?_, ?_, ?_, ?_, ?_⟩
  · intro h1 h2 h3
    simp [catReadAuto, catReadLoop, catReader, h1, h2, h3]
  · intro namp hn h1 h2 h3
    simp [catReadAuto, catReadLoop, catReader, h1, h2, h3, hn]
  · intro h1 h2
    have h2' : ∀ i, i < 8 → num.getD i false = true := by
      intro i hi
      exact getD_all h2 (by omega)
    simp only [catReadAuto, catReadLoop, catReader, List.all_cons, List.all_nil, h2' 0 (by omega), h2' 1 (by omega), h2' 3 (by omega),
      h2' 5 (by omega), h2' 7 (by omega), Bool.and_true, if_true]
  · intro h1 h2
    subst h2
    simp only [catReadAuto, catReadLoop, catReader, short h1, Bool.false_eq_true, if_false, if_true]
  · intro h1 h2 h3 h4
    subst h4
    have h3' : ∀ i, i < 3 → num.getD i false = true := by
      intro i hi
      exact getD_all h3 (by omega)
    simp only [catReadAuto, catReadLoop, catReader, short h1, h3' 0 (by omega), h3' 1 (by omega), h3' 2 (by omega), Bool.and_true,
      if_true, Bool.false_eq_true, if_false]

/-- **C170_auto_refuted.** A FITS catalog with other columns is never read with format="auto", although read_fits reads it:
AttributeError is not among the errors caught. A simple catalog with eight columns or more of numbers is taken for one of
dory. -/
theorem C170_auto_refuted (cols : List String) (h : "amp" ∉ cols) (namp : ℕ) (num : List Bool) (h8 : 8 ≤ num.length)
    (hn : num.all (· = true)) :
    catReadAuto (.fits cols namp) = .inr .raised ∧ catReader .fits (.fits cols namp) = .ok ∧
    catReader .simple (.text num false) = .ok ∧ catReadAuto (.text num false) ≠ .inl .simple := by
  have h2' : ∀ i, i < 8 → num.getD i false = true := by
    intro i hi
    exact getD_all hn (by omega)
  refine ⟨?_, rfl, ?_, ?_⟩
  · simp [catReadAuto, catReadLoop, catReader, h]
  · simp only [catReader, h2' 0 (by omega), h2' 1 (by omega), h2' 2 (by omega), Bool.and_true, if_true]
  · rw [(C170_auto [] num false).2.2.1 h8 hn]
    simp

/-- **C170_units_refuted.** The readers do not agree on units: the position p degrees comes back in radians from some formats
and in degrees from others, so that src2param is right for the latter only, and converts twice for the former. -/
theorem C170_units_refuted {deg p : ℚ} (hd : 0 < deg) (hd1 : deg < 1) (hp : p ≠ 0) :
    catPos deg .simple p = p * deg ∧ catPos deg .nemo p ≠ p * deg ∧
    src2paramPos deg (catPos deg .nemo p) = p * deg ∧ src2paramPos deg (catPos deg .simple p) ≠ p * deg := by
  have h1 : p ≠ p * deg := by
    intro h
    have : p * (1 - deg) = 0 := by linear_combination h
    rcases mul_eq_zero.1 this with h | h
    · exact hp h
    · linarith
  refine ⟨rfl, h1, rfl, ?_⟩
  intro h
  have : p * deg * deg = p * deg := h
  exact h1 (mul_right_cancel₀ hd.ne' this).symm

/-- **C170_weights_partial.** radial_bin with one weight map for all components divides the profiles [nobj,ncomp,nbin] by
sums of shape [nobj,1,nbin]. -/
theorem C170_weights_partial (nobj ncomp nbin : ℕ) :
    radialDivShape [nobj, ncomp, nbin] [nobj, nbin] = some [nobj, 1, nbin] ∧
    radialDivShape [nobj, nbin] [nobj, nbin] = some [nobj, nbin] := by
  simp [radialDivShape]

/-- **C170_weights_refuted.** With weights for each component radial_bin raises. -/
theorem C170_weights_refuted {nobj ncomp nbin : ℕ} (h1 : 0 < nobj) (h2 : 1 < ncomp) (h3 : 0 < nbin) :
    radialDivShape [nobj, ncomp, nbin] [nobj, ncomp, nbin] = none := by
  have : ¬(nobj * nbin = nobj * (ncomp * nbin)) := by
    intro h
    have := Nat.eq_of_mul_eq_mul_left h1 h
    nlinarith
  simp only [radialDivShape, List.take_succ_cons, List.take_zero, List.length_cons, List.length_nil, List.drop_succ_cons, List.drop_zero,
    Nat.sub_self, List.replicate_zero, List.append_nil, List.cons_append, List.nil_append, Nat.add_sub_cancel, List.prod_cons, List.prod_nil,
    mul_one]
  rw [if_neg this]

/-- Non-vacuity of C170_text. -/
example : (sauronWrite 1 oneComp).bind (sauronRead 1 1) = some (roundedRow 1 oneComp) := by decide +kernel

end Pixell
