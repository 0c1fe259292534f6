import Verif.Model.SpecIO
import Verif.Props.Powspec
import Verif.Lemmas.Wavelets
import Mathlib.Tactic.Linarith
import Mathlib.Tactic.FieldSimp
import Mathlib.Tactic.Positivity

/-! C147: files with power spectra, and correlation functions. -/

namespace Pixell

theorem rintR_abs (x : ℝ) : |x - rintR x| ≤ 1 / 2 := by
  unfold rintR
  have h1 := Int.floor_le x
  have h2 := Int.lt_floor_add_one x
  dsimp only
  split_ifs <;> rw [abs_le] <;> push_cast <;> constructor <;> linarith

theorem rintR_int (n : ℤ) : rintR (n : ℝ) = n := by
  unfold rintR
  simp

/-- Eight digits are within 5e-8 of the number. -/
theorem sig8_error (x : ℝ) : |sig8 x - x| ≤ 5e-8 * |x| := by
  unfold sig8
  by_cases h : x = 0
  · simp [h]
  · rw [if_neg h]
    dsimp only
    have hpos : 0 < |x| := abs_pos.2 h
    have hu : (0:ℝ) < (10:ℝ) ^ (Int.log 10 |x| - 7) := by positivity
    have hle := Int.zpow_log_le_self (R := ℝ) (b := 10) (by norm_num) hpos
    push_cast at hle
    have hue : (10:ℝ) ^ (Int.log 10 |x| - 7) = (10:ℝ) ^ (Int.log 10 |x|) * 1e-7 := by
      rw [zpow_sub₀ (by norm_num)]
      norm_num
      ring
    have hr := rintR_abs (x / (10:ℝ) ^ (Int.log 10 |x| - 7))
    set u := (10:ℝ) ^ (Int.log 10 |x| - 7) with hud
    have e : (rintR (x / u) : ℝ) * u - x = -((x / u - rintR (x / u)) * u) := by
      field_simp
      ring
    rw [e, abs_neg, abs_mul, abs_of_pos hu]
    have : |x / u - (rintR (x / u) : ℝ)| * u ≤ 1 / 2 * u := mul_le_mul_of_nonneg_right hr hu.le
    have hu2 : u ≤ |x| * 1e-7 := by rw [hue]; nlinarith
    linarith

/-- Integers below 10^8 are written exactly. -/
theorem sig8_nat (n : ℕ) (h : n < 10 ^ 8) : sig8 n = n := by
  unfold sig8
  by_cases h0 : n = 0
  · simp [h0]
  · have hn : (n : ℝ) ≠ 0 := by exact_mod_cast h0
    rw [if_neg hn]
    dsimp only
    have hab : |(n:ℝ)| = n := abs_of_nonneg (Nat.cast_nonneg n)
    rw [hab]
    have hlog : Int.log 10 (n:ℝ) ≤ 7 := by
      have : Int.log 10 (n:ℝ) < 8 := by
        rw [← Int.lt_zpow_iff_log_lt (by norm_num) (by positivity)]
        exact_mod_cast h
      omega
    obtain ⟨k, hk⟩ : ∃ k : ℕ, 7 - Int.log 10 (n:ℝ) = k := ⟨(7 - Int.log 10 (n:ℝ)).toNat, by omega⟩
    have hu : (10:ℝ) ^ (Int.log 10 (n:ℝ) - 7) = ((10:ℝ) ^ k)⁻¹ := by
      rw [show Int.log 10 (n:ℝ) - 7 = -(k:ℤ) by omega, zpow_neg, zpow_natCast]
    rw [hu, div_inv_eq_mul]
    have : (n:ℝ) * 10 ^ k = ((n * 10 ^ k : ℤ) : ℝ) := by push_cast; ring
    rw [this, rintR_int]
    push_cast
    field_simp

theorem expandInds_id {R : Type} [Zero R] (nrow : ℕ) (x : ℕ → ℕ) (hx : ∀ i < nrow, x i = i) (y : ℕ → R) (k : ℕ) :
    expandInds nrow x y k = if k < nrow then y k else 0 := by
  unfold expandInds
  induction nrow with
  | zero => simp
  | succ n ih =>
    rw [List.range_succ, List.foldl_append, ih (fun i hi => hx i (by omega))]
    simp only [List.foldl_cons, List.foldl_nil]
    rw [hx n (by omega)]
    by_cases h : n = k
    · subst h; simp
    · rw [if_neg h]
      by_cases h2 : k < n
      · rw [if_pos h2, if_pos (by omega)]
      · rw [if_neg h2, if_neg (by omega)]

/-- C147: `expand_inds` puts every entry at its index, the last one if an index is repeated, and zeros elsewhere. -/
theorem C147_inds {R : Type} [Zero R] (nrow : ℕ) (x : ℕ → ℕ) (y : ℕ → R) (k : ℕ) :
    ((∀ i < nrow, x i ≠ k) → expandInds nrow x y k = 0) ∧
    (∀ i < nrow, x i = k → (∀ j, i < j → j < nrow → x j ≠ k) → expandInds nrow x y k = y i) ∧
    ∀ n, expandLen nrow x = some n → (∀ i < nrow, x i < n) ∧ ∃ i < nrow, x i + 1 = n := by
  refine ⟨?_, ?_, ?_⟩
  · intro h
    unfold expandInds
    induction nrow with
    | zero => rfl
    | succ n ih =>
      rw [List.range_succ, List.foldl_append, ih (fun i hi => h i (by omega))]
      simp [h n (by omega)]
  · intro i hi hxi hlast
    unfold expandInds
    induction nrow with
    | zero => omega
    | succ n ih =>
      rw [List.range_succ, List.foldl_append]
      simp only [List.foldl_cons, List.foldl_nil]
      by_cases he : i = n
      · rw [if_pos (he ▸ hxi), he]
      · rw [if_neg (hlast n (by omega) (by omega)), ih (by omega) (fun j h1 h2 => hlast j h1 (by omega))]
  · intro n hn
    unfold expandLen at hn
    split_ifs at hn with h0
    injection hn with hn
    subst hn
    have key : ∀ (l : List ℕ) (a : ℕ), (∀ z ∈ l, z ≤ l.foldl max a) ∧ a ≤ l.foldl max a ∧ (l.foldl max a = a ∨ l.foldl max a ∈ l) := by
      intro l
      induction l with
      | nil => intro a; simp
      | cons z l ih =>
        intro a
        obtain ⟨h1, h2, h3⟩ := ih (max a z)
        rw [List.foldl_cons]
        refine ⟨?_, by omega, ?_⟩
        · intro w hw
          rcases List.mem_cons.1 hw with rfl | hw
          · omega
          · exact h1 w hw
        · rcases h3 with h3 | h3
          · by_cases h : a ≤ z
            · right; rw [h3, max_eq_right h]; exact List.mem_cons_self
            · left; rw [h3, max_eq_left (by omega)]
          · right; exact List.mem_cons_of_mem _ h3
    obtain ⟨h1, h2, h3⟩ := key ((List.range nrow).map x) 0
    constructor
    · intro i hi
      have := h1 (x i) (List.mem_map.2 ⟨i, List.mem_range.2 hi, rfl⟩)
      omega
    · rcases h3 with h3 | h3
      · refine ⟨0, by omega, ?_⟩
        have := h1 (x 0) (List.mem_map.2 ⟨0, List.mem_range.2 (by omega), rfl⟩)
        omega
      · obtain ⟨i, hi, hx⟩ := List.mem_map.1 h3
        exact ⟨i, List.mem_range.1 hi, by omega⟩

example : expandInds 3 (fun i => [2, 4, 2].getD i 0) (fun i => [(5:ℚ), 6, 7].getD i 0) 2 = 7 := by decide +kernel

/-- C147: scaling by `2pi/(l(l+1))^(1+extra)` and back changes nothing but entry 0, which becomes zero; the same for phi. -/
theorem C147_scale (extra : ℝ) (a : ℕ → ℝ) (dir : ℤ) (l : ℕ) :
    scaleSpectrum dir extra (fun l => l) (scaleSpectrum (-dir) extra (fun l => l) a) l = (if l = 0 then 0 else a l) ∧
    scaleCambPhi dir (fun l => l) (scaleCambPhi (-dir) (fun l => l) a) l = (if l = 0 then 0 else a l) ∧
    (l ≠ 0 → scaleSpectrum 1 0 (fun l => l) a l = a l * (2 * Real.pi) / (l * (l + 1))) := by
  unfold scaleSpectrum scaleCambPhi
  by_cases h : l = 0
  · simp [h]
  · have hl : (0:ℝ) < l := by exact_mod_cast Nat.pos_of_ne_zero h
    have hp : (0:ℝ) < 2 * Real.pi / ((l:ℝ) * (l + 1)) ^ (1 + extra) := by
      have := Real.pi_pos
      positivity
    have hq : (0:ℝ) < (l:ℝ) ^ 4 * (2.726e6) ^ 2 := by positivity
    simp only [h, if_false]
    refine ⟨?_, ?_, ?_⟩
    · rw [mul_assoc, ← zpow_add₀ hp.ne', neg_add_cancel, zpow_zero, mul_one]
    · rw [div_div, ← zpow_add₀ hq.ne', neg_add_cancel, zpow_zero, div_one]
    · intro _
      rw [zpow_one, add_zero, Real.rpow_one]
      ring

/-- **C147 refuted (given multipoles).** With `l` given and not starting at 0, as for a spectrum from l = 2 on, the first multipole is set to zero. -/
theorem C147_scale_refuted (dir : ℤ) : ∃ a : ℕ → ℝ, a 0 = 1 ∧ scaleSpectrum dir 0 (fun i => i + 2) a 0 = 0 :=
  ⟨fun _ => 1, rfl, by simp [scaleSpectrum]⟩

theorem loadTable_many (t : TextTable) (h : t.nrow ≠ 1) : loadTable t = t := by
  unfold loadTable
  rw [if_neg h]

/-- Reading what was written, column by column. -/
theorem readCols_writeCols (inds scale : Bool) (nl : ℕ) (h2 : 2 ≤ nl) (h8 : nl ≤ 10 ^ 8) (spec : List (ℕ → ℝ)) :
    readCols inds scale (writeCols inds nl spec) =
      some (nl, spec.map fun c => (if scale then scaleSpectrum 1 0 (fun l => l) else fun d => d)
        (fun l => if inds = true ∧ nl ≤ l then 0 else sig8 (c l))) := by
  have hw : loadTable (writeCols inds nl spec) = writeCols inds nl spec := loadTable_many _ (by
    show nl ≠ 1; omega)
  have hx : ∀ i < nl, ⌊sig8 (i:ℝ)⌋.toNat = i := by
    intro i hi
    rw [sig8_nat i (by omega), Int.floor_natCast]
    simp
  unfold readCols readRows
  rw [hw]
  cases inds with
  | true =>
    have hlen : expandLen nl (fun i => ⌊sig8 ((i:ℕ):ℝ)⌋.toNat) = some nl := by
      unfold expandLen
      rw [if_neg (by omega)]
      have : (List.range nl).map (fun i => ⌊sig8 ((i:ℕ):ℝ)⌋.toNat) = List.range nl := by
        conv_rhs => rw [← List.map_id (List.range nl)]
        apply List.map_congr_left
        intro i hi
        exact hx i (List.mem_range.1 hi)
      rw [this, foldl_max_eq (List.range nl) (nl - 1) 0 (fun x hx => by have := List.mem_range.1 hx; omega) (by omega)
        (List.mem_range.2 (by omega))]
      congr 1
      omega
    simp only [writeCols, if_true, List.map_cons, hlen, Option.map_some]
    have he : (spec.map fun c l => sig8 (c l)).map (expandInds nl fun i => ⌊sig8 ((i:ℕ):ℝ)⌋.toNat) =
        spec.map fun c l => if nl ≤ l then 0 else sig8 (c l) := by
      rw [List.map_map]
      apply List.map_congr_left
      intro c _
      funext l
      rw [Function.comp_apply, expandInds_id nl _ hx]
      by_cases h : l < nl
      · rw [if_pos h, if_neg (by omega)]
      · rw [if_neg h, if_pos (by omega)]
    rw [he]
    cases scale <;> simp
  | false =>
    simp only [writeCols, Bool.false_eq_true, if_false, Option.map_some, false_and]
    cases scale <;> simp

/-- C147: what `write_spectrum` writes with `expand=None` and without scaling, `read_spectrum` reads back within a part in 2e7 in the same number
of rows and multipoles, with and without the column of multipoles. -/
theorem C147_columns (inds : Bool) (nl : ℕ) (h2 : 2 ≤ nl) (h8 : nl ≤ 10 ^ 8) (spec : List (ℕ → ℝ)) :
    ∃ rows, readCols inds false (writeCols inds nl spec) = some (nl, rows) ∧ rows.length = spec.length ∧
      ∀ r (hr : r < spec.length) (hr' : r < rows.length), ∀ l < nl, |rows[r] l - spec[r] l| ≤ 5e-8 * |spec[r] l| := by
  refine ⟨_, readCols_writeCols inds false nl h2 h8 spec, by simp, ?_⟩
  intro r hr hr' l hl
  rw [List.getElem_map]
  simp only [Bool.false_eq_true, if_false]
  rw [if_neg (by omega)]
  exact sig8_error _

/-- C147: a symmetric spectrum of any number of components that is written and read back, with the same options, has the same size and, for l > 0, all
its values within a part in 2e7. With scaling (the default) entry 0 comes back as zero. -/
theorem C147_roundtrip_partial (inds scale : Bool) (sch : Scheme) (N nl : ℕ) (hN : 0 < N) (h2 : 2 ≤ nl) (h8 : nl ≤ 10 ^ 8)
    (spec : ℕ → ℕ → ℕ → ℝ) (hsym : ∀ i j, spec i j = spec j i) :
    ∃ res, readSpectrum inds scale sch (writeSpectrum inds scale sch N nl spec) = some (nl, N, res) ∧
      ∀ i < N, ∀ j < N, ∀ l < nl,
        |res i j l - (if scale = true ∧ l = 0 then 0 else spec i j l)| ≤ 5e-8 * |spec i j l| := by
  set sc : (ℕ → ℝ) → (ℕ → ℝ) := if scale then scaleSpectrum (-1) 0 (fun l => l) else fun d => d with hsc
  set back : (ℕ → ℝ) → (ℕ → ℝ) := fun c => (if scale then scaleSpectrum 1 0 (fun l => l) else fun d => d)
        (fun l => if inds = true ∧ nl ≤ l then 0 else sig8 (c l)) with hback
  have e1 : writeSpectrum inds scale sch N nl spec = writeCols inds nl (symCompress N (fun i j => sc (spec i j)) sch false) := by
    unfold writeSpectrum
    rw [hsc]
    cases scale <;> rfl
  have e2 : (symCompress N (fun i j => sc (spec i j)) sch false).map back = symCompress N (fun i j => back (sc (spec i j))) sch false := by
    unfold symCompress
    simp [List.map_map, Function.comp_def]
  obtain ⟨res, hres, hval⟩ := C47_round_trip N hN (fun i j => back (sc (spec i j))) (fun i j => by rw [hsym i j]) sch
  refine ⟨res, ?_, ?_⟩
  · unfold readSpectrum
    rw [e1, readCols_writeCols inds scale nl h2 h8]
    simp only [Option.bind_eq_bind, Option.bind_some]
    rw [e2, hres]
    rfl
  · intro i hi j hj l hl
    rw [hval i j hi hj]
    have hin : ¬ (inds = true ∧ nl ≤ l) := by omega
    cases scale with
    | false =>
      simp only [hback, hsc, Bool.false_eq_true, if_false, false_and]
      rw [if_neg hin]
      exact sig8_error _
    | true =>
      simp only [hback, hsc, if_true, true_and]
      by_cases h0 : l = 0
      · rw [if_pos h0]
        have : ∀ d : ℕ → ℝ, scaleSpectrum 1 0 (fun l => (l:ℝ)) d l = 0 := fun d => by
          unfold scaleSpectrum; rw [if_pos h0]
        rw [this, sub_zero, abs_zero]
        positivity
      · rw [if_neg h0]
        set f : ℝ := 2 * Real.pi / ((l:ℝ) * (l + 1)) ^ (1 + (0:ℝ)) with hf
        have hfp : 0 < f := by
          have hl' : (0:ℝ) < l := by exact_mod_cast Nat.pos_of_ne_zero h0
          have := Real.pi_pos
          rw [hf]; positivity
        have a1 : ∀ (d : ℕ → ℝ), scaleSpectrum 1 0 (fun l => (l:ℝ)) d l = d l * f := fun d => by
          unfold scaleSpectrum; rw [if_neg h0, zpow_one]
        have a2 : scaleSpectrum (-1) 0 (fun l => (l:ℝ)) (spec i j) l = spec i j l * f⁻¹ := by
          unfold scaleSpectrum; rw [if_neg h0, zpow_neg_one]
        rw [a1]
        simp only [if_neg hin]
        rw [a2]
        have := sig8_error (spec i j l * f⁻¹)
        rw [abs_mul, abs_of_pos (inv_pos.2 hfp)] at this
        have e3 : sig8 (spec i j l * f⁻¹) * f - spec i j l = (sig8 (spec i j l * f⁻¹) - spec i j l * f⁻¹) * f := by
          field_simp
        rw [e3, abs_mul, abs_of_pos hfp]
        calc _ ≤ 5e-8 * (|spec i j l| * f⁻¹) * f := mul_le_mul_of_nonneg_right this hfp.le
          _ = 5e-8 * |spec i j l| := by field_simp

/-- **C147 refuted (monopole).** With the default options the value at l = 0 is not written: whatever it was, it is read back as zero. -/
theorem C147_monopole_refuted (inds : Bool) (sch : Scheme) (nl : ℕ) (h2 : 2 ≤ nl) (h8 : nl ≤ 10 ^ 8) :
    ∃ spec res, (∀ i j, spec i j = spec j i) ∧ spec 0 0 0 = 1 ∧
      readSpectrum inds true sch (writeSpectrum inds true sch 1 nl spec) = some (nl, 1, res) ∧ res 0 0 0 = 0 := by
  obtain ⟨res, h, hv⟩ := C147_roundtrip_partial inds true sch 1 nl (by omega) h2 h8 (fun _ _ _ => 1) (fun _ _ => rfl)
  refine ⟨fun _ _ _ => 1, res, fun _ _ => rfl, rfl, h, ?_⟩
  have h' : ∀ b, readSpectrum inds true sch (writeSpectrum inds true sch 1 nl (fun _ _ l => if l = 0 then b else 1)) =
      readSpectrum inds true sch (writeSpectrum inds true sch 1 nl (fun _ _ _ => 1)) := by
    intro b
    have : writeSpectrum inds true sch 1 nl (fun _ _ l => if l = 0 then b else 1) = writeSpectrum inds true sch 1 nl (fun _ _ _ => 1) := by
      unfold writeSpectrum
      simp only [if_true]
      congr 2
      funext i j l
      unfold scaleSpectrum
      by_cases hl : l = 0 <;> simp [hl]
    rw [this]
  obtain ⟨res2, h2', hv2⟩ := C147_roundtrip_partial inds true sch 1 nl (by omega) h2 h8 (fun _ _ l => if l = 0 then 0 else 1) (fun _ _ => rfl)
  rw [h' 0, h] at h2'
  have : res = res2 := by
    injection h2' with h2'
    exact (Prod.mk.injEq _ _ _ _).mp ((Prod.mk.injEq _ _ _ _).mp h2').2 |>.2
  have := hv2 0 (by omega) 0 (by omega) 0 (by omega)
  simp at this
  rw [‹res = res2›]
  exact this

/-- **C147 refuted (one multipole).** A spectrum with a single multipole is written to a file of one line, which cannot be read back: the line is taken for one row. -/
theorem C147_single_refuted (scale : Bool) (sch : Scheme) (N : ℕ) (spec : ℕ → ℕ → ℕ → ℝ) :
    readSpectrum true scale sch (writeSpectrum true scale sch N 1 spec) = none := by
  unfold readSpectrum readCols readRows
  have : ∀ t : TextTable, t.nrow = 1 → loadTable t = ⟨t.cols.length, [fun k => (t.cols.getD k (fun _ => 0)) 0]⟩ := by
    intro t h; unfold loadTable; rw [if_pos h]
  rw [this _ rfl]
  simp only [if_true, Option.bind_eq_bind]
  have hemp : ∀ sch, symExpand ([] : List (ℕ → ℝ)) sch false = none := by
    intro sch
    unfold symExpand
    have := (C46_distinct 0 sch).1
    rw [show ([] : List (ℕ → ℝ)).length = 0 from rfl, if_pos (List.eq_nil_of_length_eq_zero this)]
  cases expandLen (writeSpectrum true scale sch N 1 spec).cols.length
      (fun i => ⌊(writeSpectrum true scale sch N 1 spec).cols.getD i (fun _ => 0) 0⌋.toNat) with
  | none => rfl
  | some n => cases scale <;> simp [hemp]

/-! ### camb files -/

/-- C147: `read_camb_scalar` gives the spectra of T, E and B with the columns after l being TT, EE and TE, no B, and phi from the next
column. -/
theorem C147_camb_partial (t : TextTable) (n : ℕ) (TT EE TE pp : ℕ → ℝ) (rest : List (ℕ → ℝ))
    (h : readCols true false t = some (n, TT :: EE :: TE :: pp :: rest)) :
    ∃ ps, readCambScalar true t = some (n, ps, scaleCambPhi 1 (fun l => l) pp) ∧
      ps 0 0 = scaleSpectrum 1 0 (fun l => l) TT ∧ ps 1 1 = scaleSpectrum 1 0 (fun l => l) EE ∧
      ps 0 1 = scaleSpectrum 1 0 (fun l => l) TE ∧ ps 1 0 = scaleSpectrum 1 0 (fun l => l) TE ∧
      ∀ i, ps 2 i = 0 ∧ ps i 2 = 0 := by
  have h2 : readCols true true t = some (n, (TT :: EE :: TE :: pp :: rest).map (scaleSpectrum 1 0 (fun l => (l:ℝ)))) := by
    unfold readCols at h ⊢
    rw [Option.map_eq_some_iff] at h ⊢
    obtain ⟨p, hp, h⟩ := h
    refine ⟨p, hp, ?_⟩
    have h3 := (Prod.mk.injEq _ _ _ _).mp h
    simp only [Bool.false_eq_true, if_false] at h3
    rw [h3.1, h3.2]
    rfl
  have ho : compressedOrder 3 .diag = [(0, 0), (1, 1), (0, 1)] := by decide +kernel
  refine ⟨symExpandN (((TT :: EE :: TE :: pp :: rest).map (scaleSpectrum 1 0 (fun l => (l:ℝ)))).take 3) .diag, ?_, ?_⟩
  · unfold readCambScalar
    simp [h, h2]
  · simp only [List.map_cons, List.take_succ_cons, List.take_zero, symExpandN]
    rw [show ([scaleSpectrum 1 0 (fun l => (l:ℝ)) TT, scaleSpectrum 1 0 (fun l => (l:ℝ)) EE, scaleSpectrum 1 0 (fun l => (l:ℝ)) TE]).length = 3 from rfl, ho]
    simp only [List.zip_cons_cons, List.zip_nil_right, List.foldl_cons, List.foldl_nil, expandStep]
    refine ⟨by simp [setEntry], by simp [setEntry], by simp [setEntry], by simp [setEntry], fun i => ⟨by simp [setEntry], by simp [setEntry]⟩⟩

/-- **C147 refuted (expand=False).** `read_camb_scalar(fname, expand=False)` fails for every file. -/
theorem C147_camb_refuted (t : TextTable) : readCambScalar false t = none := rfl

/-! ### Correlation functions -/

/-- C147: `spec2corr` gives, for every pair of components, the sum of (2l+1)/4pi C_l P_l(cos theta); at zero distance this is the variance,
the sum of (2l+1)/4pi C_l. -/
theorem C147_corr (N nl : ℕ) (hN : 0 < N) (spec : ℕ → ℕ → ℕ → ℝ) (hsym : ∀ i j, spec i j = spec j i) (θ : ℝ) :
    ∃ res, spec2corr N nl spec false θ = some (N, res) ∧ spec2corr N nl spec true (Real.cos θ) = some (N, res) ∧
      ∀ i < N, ∀ j < N, res i j = ∑ l ∈ Finset.range nl, (2 * l + 1) / (4 * Real.pi) * spec i j l * legendreP l (Real.cos θ) ∧
        (θ = 0 → res i j = ∑ l ∈ Finset.range nl, (2 * l + 1) / (4 * Real.pi) * spec i j l) := by
  obtain ⟨res, hres, hval⟩ := C47_round_trip N hN (fun i j => corrRow nl (spec i j) (Real.cos θ)) (fun i j => by rw [hsym i j]) .diag
  have e : (symCompress N spec .diag false).map (fun cl => corrRow nl cl (Real.cos θ)) =
      symCompress N (fun i j => corrRow nl (spec i j) (Real.cos θ)) .diag false := by
    unfold symCompress
    simp [List.map_map, Function.comp_def]
  have h1 : ∀ l, legendreP l 1 = 1 := by
    intro l
    induction l using Nat.strong_induction_on with
    | _ l ih =>
      match l with
      | 0 => rfl
      | 1 => rfl
      | l + 2 =>
        unfold legendreP
        rw [ih (l + 1) (by omega), ih l (by omega)]
        have : (0:ℝ) < l + 2 := by positivity
        field_simp
        ring
  refine ⟨res, ?_, ?_, ?_⟩
  · unfold spec2corr
    simp only [Bool.false_eq_true, if_false]
    rw [e, hres]
  · unfold spec2corr
    simp only [if_true]
    rw [e, hres]
  · intro i hi j hj
    refine ⟨hval i j hi hj, ?_⟩
    intro h0
    rw [hval i j hi hj]
    unfold corrRow
    apply Finset.sum_congr rfl
    intro l _
    rw [h0, Real.cos_zero, h1, mul_one]

/-- P_2(x) = (3x²-1)/2. -/
example (x : ℝ) : legendreP 2 x = (3 * x ^ 2 - 1) / 2 := by
  simp [legendreP]; ring

end Pixell
