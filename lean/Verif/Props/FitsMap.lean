import Verif.Model.FitsMap
import Verif.Lemmas.Num
import Verif.Lemmas.Extract
import Verif.Props.Extract
import Mathlib.Data.ZMod.Basic
import Mathlib.Tactic.FieldSimp
import Mathlib.Tactic.Linarith
import Mathlib.Algebra.BigOperators.Group.List.Lemmas
/-
C131: maps read from fits files.
-/
namespace Pixell

/-! ### Polarization convention -/

/-- Specification: the Stokes parameter (1 = I, 2 = Q, 3 = U, ...) stored at index `k` of an axis according to its
header cards, whose defaults are 1. -/
def stokesAt (a : StokesAxis) (k : ℤ) : ℚ := a.crval.getD 1 + (k + 1 - a.crpix.getD 1) * a.cdelt.getD 1

/-- Specification: the convention stated by a header: POLCCONV before POLCONV, IAU if there is neither. -/
def statedIAU (h : StokesHeader) : Prop :=
  match h.polcconv, h.polconv with
  | some c, _ => stripBlanks c = "IAU".toList
  | none, some c => stripBlanks c = "IAU".toList
  | none, none => True

theorem uInd_spec {a : StokesAxis} (hs : a.isStokes = true) (hd : a.cdelt.getD 1 ≠ 0) {u : ℤ} (hu : stokesAt a u = 3) :
    a.uInd = u := by
  unfold StokesAxis.uInd
  rw [if_pos hs]
  unfold stokesAt at hu
  have e : (3 - a.crval.getD 1) / a.cdelt.getD 1 + a.crpix.getD 1 = ((u + 1 : ℤ) : ℚ) := by
    push_cast
    field_simp
    linarith
  rw [e, rint_int]
  ring

theorem stokesAt_inj {a : StokesAxis} (hd : a.cdelt.getD 1 ≠ 0) {u k : ℤ} (hu : stokesAt a u = 3) :
    stokesAt a k = 3 ↔ k = u := by
  constructor
  · intro hk
    unfold stokesAt at hu hk
    have h1 : ((k : ℚ) - u) * a.cdelt.getD 1 = 0 := by linarith
    rcases mul_eq_zero.1 h1 with h | h
    · have : (k : ℚ) = u := by linarith
      exact_mod_cast this
    · exact absurd h hd
  · rintro rfl; exact hu

theorem getStokesFlips_eq (h : StokesHeader) :
    (statedIAU h → getStokesFlips h = (List.range h.axes.length).map fun i => (h.axis i).uInd) ∧
    (¬ statedIAU h → getStokesFlips h = List.replicate h.axes.length (-1)) := by
  have hall : ((List.range h.axes.length).map fun i => (h.axis i).uInd).all (· = -1) = true →
      ((List.range h.axes.length).map fun i => (h.axis i).uInd) = List.replicate h.axes.length (-1) := by
    intro ha
    rw [List.all_eq_true] at ha
    refine List.eq_replicate_iff.2 ⟨by simp, fun b hb => by simpa using ha b hb⟩
  have hc : "COSMO".toList ≠ "IAU".toList := by decide
  unfold getStokesFlips statedIAU
  simp only
  by_cases ha : ((List.range h.axes.length).map fun i => (h.axis i).uInd).all (· = -1) = true
  · rw [if_pos ha]
    exact ⟨fun _ => (hall ha).symm, fun _ => rfl⟩
  · rw [if_neg ha]
    cases h1 : h.polcconv with
    | some c =>
      simp only [Option.or]
      refine ⟨fun hi => ?_, fun hi => ?_⟩
      · rw [if_neg (by rw [hi]; exact hc.symm), if_pos hi]
      · by_cases hcc : stripBlanks c = "COSMO".toList
        · rw [if_pos hcc]
        · rw [if_neg hcc, if_neg hi]
    | none =>
      cases h2 : h.polconv with
      | some c =>
        simp only [Option.or]
        refine ⟨fun hi => ?_, fun hi => ?_⟩
        · rw [if_neg (by rw [hi]; exact hc.symm), if_pos hi]
        · by_cases hcc : stripBlanks c = "COSMO".toList
          · rw [if_pos hcc]
          · rw [if_neg hcc, if_neg hi]
      | none =>
        simp only [Option.or]
        exact ⟨fun _ => trivial, fun hi => absurd trivial hi⟩

/-- C131.  For any file whose Stokes axes are leading axes with whole steps: reading finds a sign for every leading
index, which is -1 for each Stokes axis along which that index is U if the header states the IAU convention or none,
and 1 in all other cases. -/
theorem C131_stokes (h : StokesHeader) (shape : List ℕ) (hl : shape.length = h.axes.length)
    (hst : ∀ i < shape.length, (h.axis i).isStokes = true →
      i + 2 < shape.length ∧ (h.axis i).cdelt.getD 1 ≠ 0 ∧ ∃ u : ℤ, stokesAt (h.axis i) u = 3) :
    ∃ sgn, signArray (getStokesFlips h) shape = some sgn ∧
      (¬ statedIAU h → ∀ pre, sgn pre = 1) ∧
      (statedIAU h → ∀ pre : List ℕ, (∀ i < shape.length, pre.getD i 0 < shape.getD i 0) →
        open Classical in
        sgn pre = ((List.range shape.length).map fun i =>
          if (h.axis i).isStokes = true ∧ stokesAt (h.axis i) (pre.getD i 0) = 3 then (-1 : ℤ) else 1).prod) := by
  by_cases hi : statedIAU h
  · rw [(getStokesFlips_eq h).1 hi]
    have hget : ∀ i < shape.length,
        ((List.range h.axes.length).map fun i => (h.axis i).uInd).getD i (-1) = (h.axis i).uInd := by
      intro i hlt
      rw [hl] at hlt
      simp [List.getD, hlt]
    have hlen : ((List.range h.axes.length).map fun i => (h.axis i).uInd).length = shape.length := by simp [hl]
    have hnon : ∀ i, (h.axis i).isStokes ≠ true → (h.axis i).uInd = -1 := by
      intro i hn
      unfold StokesAxis.uInd
      rw [if_neg hn]
    refine ⟨signFun ((List.range h.axes.length).map fun i => (h.axis i).uInd) shape, ?_, fun hn => absurd hi hn, ?_⟩
    · unfold signArray
      rw [if_pos]
      rw [List.all_eq_true]
      intro i him
      rw [hlen, List.mem_range] at him
      rw [decide_eq_true_iff, hget i him]
      intro hb
      by_cases hs : (h.axis i).isStokes = true
      · exact (hst i him hs).1
      · rw [hnon i hs] at hb; omega
    · intro _ pre hpre
      unfold signFun
      rw [hlen]
      congr 1
      apply List.map_congr_left
      intro i him
      rw [List.mem_range] at him
      rw [hget i him]
      have hp := hpre i him
      by_cases hs : (h.axis i).isStokes = true
      · obtain ⟨_, hd, u, hu⟩ := hst i him hs
        rw [uInd_spec hs hd hu]
        have hiff := stokesAt_inj hd (k := ((pre.getD i 0 : ℕ) : ℤ)) hu
        by_cases hk : ((pre.getD i 0 : ℕ) : ℤ) = u
        · rw [if_pos (show (h.axis i).isStokes = true ∧ _ from ⟨hs, hiff.2 hk⟩),
            if_pos (show 0 ≤ u ∧ u < _ from by omega), if_pos hk]
        · rw [if_neg (show ¬ ((h.axis i).isStokes = true ∧ _) from fun hh => hk (hiff.1 hh.2))]
          split
          · rfl
          · rfl
      · rw [hnon i hs, if_neg (show ¬ ((h.axis i).isStokes = true ∧ _) from fun hh => hs hh.1), if_neg (by omega)]
  · rw [(getStokesFlips_eq h).2 hi]
    have hget : ∀ i, (List.replicate h.axes.length (-1 : ℤ)).getD i (-1) = -1 := by
      intro i
      by_cases hlt : i < h.axes.length
      · simp [List.getD, hlt]
      · simp [List.getD, hlt]
    refine ⟨signFun (List.replicate h.axes.length (-1)) shape, ?_, ?_, fun hn => absurd hn hi⟩
    · unfold signArray
      rw [if_pos]
      rw [List.all_eq_true]
      intro i _
      rw [decide_eq_true_iff, hget i]
      omega
    · intro _ pre
      apply List.prod_eq_one
      intro x hx
      obtain ⟨i, _, rfl⟩ := List.mem_map.1 hx
      rw [hget i, if_neg (by omega)]

/-- The usual header of a map with three Stokes parameters. -/
def iauHeader : StokesHeader :=
  ⟨[⟨some "RA---CAR".toList, some 1, some 0, some 1⟩, ⟨some "DEC--CAR".toList, some 1, some 0, some 1⟩,
    ⟨some "STOKES ".toList, none, none, none⟩], none, some "IAU ".toList⟩

example : getStokesFlips iauHeader = [2, -1, -1] := by decide +kernel
example : (signArray (getStokesFlips iauHeader) [3, 10, 20]).map (fun s => (List.range 3).map fun i => s [i, 4, 5])
    = some [1, 1, -1] := by decide +kernel
example : ∀ i < 3, (iauHeader.axis i).isStokes = true →
    i + 2 < 3 ∧ (iauHeader.axis i).cdelt.getD 1 ≠ 0 ∧ ∃ u : ℤ, stokesAt (iauHeader.axis i) u = 3 := by
  intro i hi hs
  have : i = 0 := by
    by_contra h
    have h12 : i = 1 ∨ i = 2 := by omega
    rcases h12 with rfl | rfl <;> exact absurd hs (by decide +kernel)
  subst this
  exact ⟨by decide, by decide +kernel, 2, by decide +kernel⟩

/-! ### Histories of reads -/

/-- What "the numbers can be stored" means. -/
structure Codec.Lawful {B V : Type} (C : Codec B V) : Prop where
  dec_enc : ∀ v, C.dec (C.enc v) = v
  swap_swap : ∀ b, C.swap (C.swap b) = b

/-- Specification: the value of an element in the file, in the COSMO convention. -/
def fileValue {P B V : Type} [AddCommGroup V] (C : Codec B V) (flip : Bool) (sgn : P → ℤ) (mem : P → B) (p : P) : V :=
  if flip then sgn p • C.dec (mem p) else C.dec (mem p)

theorem proxyRead_fst {P B V : Type} [DecidableEq P] [AddCommGroup V] {C : Codec B V} (hC : C.Lawful)
    (big flip inMem : Bool) (sgn : P → ℤ) (mem : P → B) (L : List P) :
    (proxyRead C big flip inMem sgn mem L).1 = L.map (fileValue C flip sgn mem) := by
  unfold proxyRead fileValue
  simp only
  apply List.map_congr_left
  intro p hp
  cases big <;> cases flip <;> simp [hp, hC.dec_enc, hC.swap_swap]

theorem proxyRead_snd {P B V : Type} [DecidableEq P] [AddCommGroup V] (C : Codec B V)
    (big flip inMem : Bool) (sgn : P → ℤ) (mem : P → B) (L : List P) (p : P) (hp : p ∉ L ∨ inMem = false) :
    (proxyRead C big flip inMem sgn mem L).2 p = mem p := by
  unfold proxyRead
  simp only
  rcases hp with hp | rfl
  · cases inMem <;> cases big <;> cases flip <;> simp [hp]
  · simp

theorem proxyReads_congr {P B V : Type} [DecidableEq P] [AddCommGroup V] {C : Codec B V} (hC : C.Lawful)
    (big flip inMem : Bool) (sgn : P → ℤ) (mem0 : P → B) (Ls : List (List P))
    (hd : inMem = false ∨ Ls.Pairwise (fun a b => ∀ p ∈ a, p ∉ b)) (mem : P → B)
    (hm : ∀ L ∈ Ls, ∀ p ∈ L, mem p = mem0 p) :
    proxyReads C big flip inMem sgn mem Ls = Ls.map fun L => L.map (fileValue C flip sgn mem0) := by
  induction Ls generalizing mem with
  | nil => rfl
  | cons L Ls ih =>
    rw [proxyReads, List.map_cons]
    congr 1
    · rw [proxyRead_fst hC]
      apply List.map_congr_left
      intro p hp
      unfold fileValue
      rw [hm L List.mem_cons_self p hp]
    · apply ih
      · exact hd.imp id fun h => (List.pairwise_cons.1 h).2
      · intro L' hL' p hp
        rw [proxyRead_snd]
        · exact hm L' (List.mem_cons_of_mem _ hL') p hp
        · rcases hd with h | h
          · exact Or.inr h
          · left
            intro hpL
            exact (List.pairwise_cons.1 h).1 L' hL' p hpL hp

/-- Full claim: whatever has been read through a proxy before, a read returns the values in the file. -/
def C131_reads_claim {P B V : Type} [DecidableEq P] [AddCommGroup V] (C : Codec B V) (big flip inMem : Bool)
    (sgn : P → ℤ) (mem : P → B) (Ls : List (List P)) : Prop :=
  proxyReads C big flip inMem sgn mem Ls = Ls.map fun L => L.map (fileValue C flip sgn mem)

/-- C131: it holds for all histories of a large file, and for histories of disjoint reads of any file; in particular
the first read is right. -/
theorem C131_reads_partial {P B V : Type} [DecidableEq P] [AddCommGroup V] {C : Codec B V} (hC : C.Lawful)
    (big flip inMem : Bool) (sgn : P → ℤ) (mem : P → B) (Ls : List (List P))
    (hd : inMem = false ∨ Ls.Pairwise (fun a b => ∀ p ∈ a, p ∉ b)) :
    C131_reads_claim C big flip inMem sgn mem Ls :=
  proxyReads_congr hC big flip inMem sgn mem Ls hd mem fun _ _ _ _ => rfl

/-- Two-byte integers, stored with the more significant byte first. -/
def int16Codec : Codec (Fin 256 × Fin 256) (ZMod 65536) where
  dec b := ((b.1.val * 256 + b.2.val : ℕ) : ZMod 65536)
  enc v := (⟨v.val / 256, by have := v.val_lt; omega⟩, ⟨v.val % 256, by omega⟩)
  swap b := (b.2, b.1)

theorem int16Codec_lawful : int16Codec.Lawful where
  dec_enc v := by
    show ((v.val / 256 * 256 + v.val % 256 : ℕ) : ZMod 65536) = v
    rw [show v.val / 256 * 256 + v.val % 256 = v.val from by omega, ZMod.natCast_zmod_val]
  swap_swap b := rfl

/-- C131 refuted: reading the same pixel of a small file twice through one proxy gives 1 the first time and 256 the
second time, because the bytes are swapped in place in the array kept by the file. -/
theorem C131_reread_refuted :
    ¬ (∀ (Ls : List (List ℕ)), C131_reads_claim int16Codec true false true (fun _ => 1) (fun _ => (0, 1)) Ls) ∧
      proxyReads int16Codec true false true (fun _ => 1) (fun _ : ℕ => (0, 1)) [[0], [0]] = [[1], [256]] := by
  have h2 : proxyReads int16Codec true false true (fun _ => 1) (fun _ : ℕ => (0, 1)) [[0], [0]] = [[1], [256]] := by
    decide +kernel
  refine ⟨fun h => ?_, h2⟩
  have h1 := h [[0], [0]]
  unfold C131_reads_claim at h1
  rw [h2] at h1
  revert h1
  decide +kernel

/-- C131 refuted also where the bytes need no swapping: U changes its sign with every read. -/
theorem C131_resign_refuted {B V P : Type} [DecidableEq P] [AddCommGroup V] {C : Codec B V} (hC : C.Lawful)
    (sgn : P → ℤ) (mem : P → B) (p : P) (hs : sgn p = -1) :
    proxyReads C false true true sgn mem [[p], [p]] = [[-C.dec (mem p)], [C.dec (mem p)]] := by
  simp [proxyReads, proxyRead, hs, hC.dec_enc]

/-! ### Reading a pixel box -/

theorem piecesOf_flatten (ys xs : List (List (ℤ × ℤ))) : (piecesOf ys xs).flatten = writesOf ys xs := by
  unfold piecesOf writesOf
  simp [List.flatMap_def, List.flatten_flatten, List.map_map, Function.comp_def]

theorem zip_foldl_upd {V : Type} (piece : List ((ℤ × ℤ) × (ℤ × ℤ))) (f : ℤ × ℤ → V) (o : Arr V) :
    ((piece.map Prod.snd).zip ((piece.map Prod.fst).map f)).foldl (fun o p => upd o p.1 p.2) o
      = piece.foldl (fun o p => upd o p.2 (f p.1)) o := by
  induction piece generalizing o with
  | nil => rfl
  | cons a l ih =>
    simp only [List.map_cons, List.zip_cons_cons, List.foldl_cons]
    exact ih _

theorem extract_fold {B V : Type} [AddCommGroup V] {C : Codec B V} (hC : C.Lawful) (big flip inMem : Bool)
    (sgn : ℤ × ℤ → ℤ) (mem0 : ℤ × ℤ → B) (pieces : List (List ((ℤ × ℤ) × (ℤ × ℤ))))
    (hn : inMem = false ∨ (pieces.flatten.map Prod.fst).Nodup) (mem : ℤ × ℤ → B) (o : Arr V)
    (hm : ∀ q ∈ pieces.flatten, mem q.1 = mem0 q.1) :
    (pieces.foldl (extractStep C big flip inMem sgn) (mem, o)).2
      = pieces.flatten.foldl (fun o p => upd o p.2 (fileValue C flip sgn mem0 p.1)) o := by
  induction pieces generalizing mem o with
  | nil => rfl
  | cons a l ih =>
    rw [List.foldl_cons, List.flatten_cons, List.foldl_append]
    have e1 : (extractStep C big flip inMem sgn (mem, o) a).2
        = a.foldl (fun o p => upd o p.2 (fileValue C flip sgn mem0 p.1)) o := by
      unfold extractStep
      simp only
      rw [proxyRead_fst hC]
      have e2 : (a.map Prod.fst).map (fileValue C flip sgn mem) = (a.map Prod.fst).map (fileValue C flip sgn mem0) := by
        apply List.map_congr_left
        intro p hp
        obtain ⟨q, hq, rfl⟩ := List.mem_map.1 hp
        unfold fileValue
        rw [hm q (by rw [List.flatten_cons]; exact List.mem_append_left _ hq)]
      rw [e2, zip_foldl_upd]
    rw [show extractStep C big flip inMem sgn (mem, o) a
      = ((extractStep C big flip inMem sgn (mem, o) a).1, (extractStep C big flip inMem sgn (mem, o) a).2) from rfl, e1]
    apply ih
    · refine hn.imp id fun h => ?_
      rw [List.flatten_cons, List.map_append] at h
      exact (List.nodup_append.1 h).2.1
    · intro q hq
      unfold extractStep
      simp only
      rw [proxyRead_snd]
      · exact hm q (by rw [List.flatten_cons]; exact List.mem_append_right _ hq)
      · rcases hn with h | h
        · exact Or.inr h
        · left
          intro hqa
          rw [List.flatten_cons, List.map_append] at h
          exact (List.nodup_append.1 h).2.2 q.1 hqa q.1 (List.mem_map_of_mem hq) rfl

/-- Full claim: reading a pixel box from a file gives what extracting that box from the whole map gives (C08). -/
def C131_pixbox_claim {B V : Type} [AddCommGroup V] (C : Codec B V) (big flip inMem : Bool) (sgn : ℤ × ℤ → ℤ)
    (mem : ℤ × ℤ → B) (nIn : ℕ × ℕ) (omap : Arr V) (nOut : ℕ × ℕ) (bY bX : SBox) (wX : ℕ) : Prop :=
  readPixbox C big flip inMem sgn mem nIn omap nOut bY bX 0 wX
    = extractPixbox (fileValue C flip sgn mem) nIn omap nOut bY bX 0 wX

/-- C131: it does for large files and all boxes, and for small files and boxes of at most a full turn. -/
theorem C131_pixbox_partial {B V : Type} [AddCommGroup V] {C : Codec B V} (hC : C.Lawful) (big flip inMem : Bool)
    (sgn : ℤ × ℤ → ℤ) (mem : ℤ × ℤ → B) (nIn nOut : ℕ × ℕ) (omap : Arr V) (bY bX : SBox)
    (hY : bY.step = 1 ∨ bY.step = -1) (hX : bX.step = 1 ∨ bX.step = -1) (wX : ℕ)
    (h1 : 0 < nIn.1) (h2 : 0 < nIn.2) (hwX : wX ≠ 0 → nIn.2 ≤ wX)
    (hoY : nOut.1 = bY.idx.length) (hoX : nOut.2 = bX.idx.length)
    (hturn : inMem = false ∨ wX = 0 ∨ nOut.2 ≤ wX) :
    C131_pixbox_claim C big flip inMem sgn mem nIn omap nOut bY bX wX := by
  have hlY : (nOut.1 : Int) = max (sboxSize bY) 0 := by rw [hoY, ← C12_size bY (by omega)]; omega
  have hlX : (nOut.2 : Int) = max (sboxSize bX) 0 := by rw [hoX, ← C12_size bX (by omega)]; omega
  obtain ⟨ys, ey, my, ny⟩ := axisPairs_spec nIn.1 nOut.1 bY hY 0 h1 (by simp) (by omega)
  obtain ⟨xs, ex, mx, nx⟩ := axisPairs_spec nIn.2 nOut.2 bX hX wX h2 hwX (by omega)
  unfold C131_pixbox_claim readPixbox extractPixbox
  rw [ey, ex]
  show some _ = some _
  congr 1
  rw [extract_fold hC big flip inMem sgn mem (piecesOf ys xs) _ mem omap (fun _ _ => rfl), piecesOf_flatten]
  rcases hturn with h | h
  · exact Or.inl h
  right
  rw [piecesOf_flatten]
  apply writesOf_sources_nodup
  · apply fst_nodup_of ny
    intro x k k' hk hk'
    have e1 := ((my x k).1 hk).2.2.1
    have e2 := ((my x k').1 hk').2.2.1
    unfold wrapPos at e1 e2
    simp only [if_true] at e1 e2
    rcases hY with hY | hY <;> rw [hY] at e1 e2 <;> omega
  · apply fst_nodup_of nx
    intro x k k' hk hk'
    obtain ⟨a1, a2, e1, _, _⟩ := (mx x k).1 hk
    obtain ⟨b1, b2, e2, _, _⟩ := (mx x k').1 hk'
    unfold wrapPos at e1 e2
    by_cases hw : wX = 0
    · rw [if_pos hw] at e1 e2
      rcases hX with hX | hX <;> rw [hX] at e1 e2 <;> omega
    · rw [if_neg hw] at e1 e2
      have hle : sboxSize bX ≤ wX := by rcases h with h | h <;> omega
      have hmod : (bX.start + k * bX.step) % (wX : ℤ) = (bX.start + k' * bX.step) % (wX : ℤ) := by rw [← e1, ← e2]
      have hdvd := Int.emod_emod_of_dvd (bX.start + k * bX.step) (dvd_refl (wX : ℤ))
      have hsub := Int.emod_eq_emod_iff_emod_sub_eq_zero.1 hmod
      obtain ⟨c, hc⟩ := Int.dvd_of_emod_eq_zero hsub
      have hwpos : (0 : ℤ) < wX := by omega
      have hb : |bX.start + k * bX.step - (bX.start + k' * bX.step)| < wX := by
        rw [abs_lt]
        rcases hX with hX | hX <;> rw [hX] <;> constructor <;> omega
      have hz : bX.start + k * bX.step - (bX.start + k' * bX.step) = 0 := Int.eq_zero_of_abs_lt_dvd ⟨c, hc⟩ hb
      rcases hX with hX | hX <;> rw [hX] at hz <;> omega

/-- C131 refuted for boxes wider than a turn: the columns read a second time have their bytes the wrong way round. -/
theorem C131_pixbox_refuted :
    ¬ C131_pixbox_claim int16Codec true false true (fun _ => 1) (fun _ => (0, 1)) (1, 2) (fun _ => 0) (1, 4)
      ⟨0, 1, 1⟩ ⟨0, 4, 1⟩ 2 := by
  intro h
  unfold C131_pixbox_claim at h
  have h3 : (readPixbox int16Codec true false true (fun _ => 1) (fun _ => (0, 1)) (1, 2) (fun _ => 0) (1, 4)
      ⟨0, 1, 1⟩ ⟨0, 4, 1⟩ 0 2).map (fun o => o (0, 3)) = some 256 := by decide +kernel
  rw [h] at h3
  revert h3
  decide +kernel

example : (readPixbox int16Codec true false true (fun _ => 1) (fun p => (0, Fin.ofNat 256 p.2.toNat)) (1, 4) (fun _ => 9) (1, 3)
      ⟨0, 1, 1⟩ ⟨-2, 1, 1⟩ 0 4).map (fun o => [o (0, 0), o (0, 1), o (0, 2)]) = some [2, 3, 0] := by decide +kernel

/-! ### Headers -/

theorem insertIdx_append_length {α : Type} (a b : List α) (x : α) :
    (a ++ b).insertIdx a.length x = a ++ x :: b := by
  induction a with
  | nil => simp
  | cons c a ih => simp [List.insertIdx_succ_cons, ih]

theorem foldl_insertIdx (vals : List FitsCard) (pre wcs : List FitsCard) (f : ℕ → FitsCard) (n : ℕ)
    (hv : vals = (List.range n).map f) :
    (List.range n).foldl (fun h i => h.insertIdx (pre.length + i) (f i)) (pre ++ wcs) = pre ++ vals ++ wcs := by
  subst hv
  induction n with
  | zero => simp
  | succ n ih =>
    rw [List.range_succ, List.foldl_append, ih]
    simp only [List.foldl_cons, List.foldl_nil, List.map_append, List.map_cons, List.map_nil]
    have : pre.length + n = (pre ++ (List.range n).map f).length := by simp
    rw [this, insertIdx_append_length]
    simp

theorem writeFitsGeometry_eq (shape : List ℕ) (wcs : List FitsCard) :
    writeFitsGeometry shape wcs = [(("SIMPLE", 0), 1), (("BITPIX", 0), -32), (("NAXIS", 0), (shape.length : ℤ))]
      ++ (List.range shape.length).map (fun i => (("NAXIS", i + 1), (shape.reverse.getD i 0 : ℤ))) ++ wcs := by
  unfold writeFitsGeometry
  exact foldl_insertIdx _ [(("SIMPLE", 0), 1), (("BITPIX", 0), -32), (("NAXIS", 0), (shape.length : ℤ))] wcs
    (fun i => (("NAXIS", i + 1), (shape.reverse.getD i 0 : ℤ))) shape.length rfl

theorem find_naxis (vals : ℕ → ℤ) (n i : ℕ) (hi : i < n) (rest : List FitsCard) :
    cardGet ((List.range n).map (fun i => (("NAXIS", i + 1), vals i)) ++ rest) ("NAXIS", i + 1) = some (vals i) := by
  unfold cardGet
  induction n with
  | zero => omega
  | succ n ih =>
    rw [List.range_succ, List.map_append, List.append_assoc, List.find?_append]
    by_cases h : i < n
    · have := ih h
      rw [List.find?_append] at this
      cases h' : List.find? (fun c => decide (c.1 = ("NAXIS", i + 1)))
          ((List.range n).map (fun i => (("NAXIS", i + 1), vals i))) with
      | some c => rw [h'] at this; simpa using this
      | none =>
        rw [List.find?_eq_none] at h'
        exact absurd (h' (("NAXIS", i + 1), vals i) (List.mem_map.2 ⟨i, List.mem_range.2 h, rfl⟩)) (by simp)
    · have : i = n := by omega
      subst this
      have h' : List.find? (fun c => decide (c.1 = ("NAXIS", i + 1)))
          ((List.range i).map (fun i => (("NAXIS", i + 1), vals i))) = none := by
        rw [List.find?_eq_none]
        intro c hc
        obtain ⟨j, hj, rfl⟩ := List.mem_map.1 hc
        rw [List.mem_range] at hj
        simp
        omega
      rw [h']
      simp

/-- C131: a geometry written to a file is read back with its shape, whatever cards the coordinate system needs, also
if only the first block of the header is read. -/
theorem C131_shape (shape : List ℕ) (wcs : List FitsCard) (h2 : 2 ≤ shape.length) (h33 : shape.length ≤ 33)
    (quick : Bool) : readFitsShape quick (writeFitsGeometry shape wcs) = some (shape.map fun (n : ℕ) => (n : ℤ)) := by
  have key : ∃ rest, readFitsHeader quick (writeFitsGeometry shape wcs)
      = [(("SIMPLE", 0), 1), (("BITPIX", 0), -32), (("NAXIS", 0), (shape.length : ℤ))]
      ++ ((List.range shape.length).map (fun i => (("NAXIS", i + 1), (shape.reverse.getD i 0 : ℤ))) ++ rest) := by
    rw [writeFitsGeometry_eq]
    unfold readFitsHeader
    cases quick
    · exact ⟨wcs, by simp⟩
    · refine ⟨wcs.take (36 - (3 + shape.length)), ?_⟩
      rw [if_pos rfl, show 2880 / 80 = 36 from rfl, List.take_append, List.take_of_length_le (by simp; omega),
        List.append_assoc]
      simp
      omega
  obtain ⟨rest, hr⟩ := key
  unfold readFitsShape
  rw [hr]
  have hn : cardGet ([(("SIMPLE", 0), 1), (("BITPIX", 0), -32), (("NAXIS", 0), (shape.length : ℤ))]
      ++ ((List.range shape.length).map (fun i => (("NAXIS", i + 1), (shape.reverse.getD i 0 : ℤ))) ++ rest))
      ("NAXIS", 0) = some (shape.length : ℤ) := by
    simp [cardGet]
  have hi : ∀ i < shape.length, cardGet ([(("SIMPLE", 0), 1), (("BITPIX", 0), -32), (("NAXIS", 0), (shape.length : ℤ))]
      ++ ((List.range shape.length).map (fun i => (("NAXIS", i + 1), (shape.reverse.getD i 0 : ℤ))) ++ rest))
      ("NAXIS", i + 1) = some (shape.reverse.getD i 0 : ℤ) := by
    intro i hi
    have := find_naxis (fun i => (shape.reverse.getD i 0 : ℤ)) shape.length i hi rest
    rw [← this]
    simp [cardGet]
  simp only [hn]
  show (if (shape.length : ℤ) < 2 then none else _) = _
  rw [if_neg (by omega), mapM_total _ _ (fun i => (shape.reverse.getD i 0 : ℤ))]
  · congr 1
    apply List.ext_getElem
    · simp
    · intro j h1 h3
      simp at h1
      simp only [List.getElem_map, List.getElem_reverse, List.getElem_range, List.length_range, Int.toNat_natCast]
      rw [List.getD, List.getElem?_eq_getElem (by simp; omega), Option.getD_some, List.getElem_reverse]
      congr 2
      omega
  · intro i him
    rw [List.mem_reverse, List.mem_range] at him
    exact hi i (by simpa using him)

/-- Full claim: reading the header the quick way finds the same value for every keyword. -/
def C131_header_claim (cards : List FitsCard) : Prop :=
  ∀ k, cardGet (readFitsHeader true cards) k = cardGet (readFitsHeader false cards) k

/-- C131: so it does for headers of at most 36 cards. -/
theorem C131_header_partial (cards : List FitsCard) (h : cards.length ≤ 36) : C131_header_claim cards := by
  intro k
  unfold readFitsHeader
  rw [if_pos rfl, show 2880 / 80 = 36 from rfl, List.take_of_length_le h]
  rfl

/-- C131 refuted: for longer headers every keyword that comes after the 36th card only is missing. -/
theorem C131_header_refuted (cards : List FitsCard) (c : FitsCard) (rest : List FitsCard) (h : cards.length = 36)
    (hc : ∀ d ∈ cards, d.1 ≠ c.1) : ¬ C131_header_claim (cards ++ c :: rest) := by
  intro hh
  have := hh c.1
  unfold readFitsHeader cardGet at this
  rw [if_pos rfl, show 2880 / 80 = 36 from rfl, ← h, List.take_left', if_neg (by decide), List.find?_append] at this
  · have hnone : cards.find? (fun d => decide (d.1 = c.1)) = none := by
      rw [List.find?_eq_none]
      intro d hd
      simpa using hc d hd
    rw [hnone] at this
    simp at this
  · rfl

example : ¬ C131_header_claim ((List.range 36).map (fun i => (("HISTORY", i), 0)) ++ [(("CRVAL", 1), 5)]) :=
  C131_header_refuted _ _ [] (by simp) (by
    intro d hd
    obtain ⟨i, _, rfl⟩ := List.mem_map.1 hd
    simp)

example : readFitsShape true (writeFitsGeometry [3, 10, 20] [(("CRVAL", 1), 5)]) = some [3, 10, 20] := by decide +kernel

/-- Specification: the type of the numbers in a fits image without scaling, by the fits standard. -/
def fitsStandardType (bitpix : ℤ) : Option ElemType :=
  if bitpix = 8 then some .uint8 else if bitpix = 16 then some .int16 else if bitpix = 32 then some .int32
  else if bitpix = 64 then some .int64 else if bitpix = -32 then some .float32
  else if bitpix = -64 then some .float64 else none

/-- C131: read_map_dtype gives the type of the numbers in the file, or the error, for all but bytes. -/
theorem C131_dtype_partial (bitpix : ℤ) (h : bitpix ≠ 8) : readFitsDtype bitpix = fitsStandardType bitpix := by
  unfold readFitsDtype fitsStandardType
  rw [if_neg h]
  rw [if_neg (c := bitpix = 8) h]
  by_cases h1 : bitpix = -32
  · subst h1; decide
  by_cases h2 : bitpix = -64
  · subst h2; decide
  simp [h1, h2]

/-- C131 refuted: bytes have no sign in fits files, but are announced as signed. -/
theorem C131_dtype_refuted : readFitsDtype 8 ≠ fitsStandardType 8 := by decide

end Pixell
