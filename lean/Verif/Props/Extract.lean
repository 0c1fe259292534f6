import Verif.Lemmas.Extract
/-
C11 (wrapping of slice boxes), C08 (extraction) and C09 (insertion) of pixel boxes.
-/
namespace Pixell
open PySpec

/-! ## C11 -/

/-- Full claim: every index of the box whose wrapped position is inside the cap appears in exactly one
piece, paired with its own position in the box, and nothing else appears. -/
def C11_claim (b : SBox) (w : Nat) (c : Int) : Prop :=
  (∀ x k : Int, (x, k) ∈ (sboxWrapAxis b w c).flatMap (fun p => p.1.idx.zip p.2.idx) ↔
      0 ≤ k ∧ k < b.idx.length ∧ x = (if w = 0 then b.start + k * b.step else (b.start + k * b.step) % w) ∧
      (c = 0 ∨ (0 ≤ x ∧ x < c))) ∧
    (((sboxWrapAxis b w c).flatMap (fun p => p.1.idx.zip p.2.idx)).map Prod.snd).Nodup

/-- C11 for contiguous boxes, forwards or backwards; the cap may not exceed the wrapping length. -/
theorem C11_wrap_partial (b : SBox) (hs : b.step = 1 ∨ b.step = -1) (w : Nat) (c : Int) (hc0 : 0 ≤ c)
    (hcw : w ≠ 0 → c ≤ w) : C11_claim b w c := by
  obtain ⟨h1, h2, _⟩ := wrapAxis_spec b hs w c hc0 hcw
  refine ⟨?_, h2⟩
  intro x k
  have := h1 x k
  have hl : (b.idx.length : Int) = max (sboxSize b) 0 := by
    rw [← C12_size b (by omega)]; omega
  rw [show (sboxWrapAxis b w c).flatMap (fun p => p.1.idx.zip p.2.idx)
    = (sboxWrapAxis b w c).flatMap pairsOf from rfl, this, hl]
  unfold wrapPos
  constructor
  · rintro ⟨g1, g2, g3, g4⟩
    exact ⟨g1, by omega, g3, g4⟩
  · rintro ⟨g1, g2, g3, g4⟩
    exact ⟨g1, by omega, g3, g4⟩

/-- The pieces are non-empty and the two sides of each piece have the same number of elements. -/
theorem C11_pieces (b : SBox) (hs : b.step = 1 ∨ b.step = -1) (w : Nat) (c : Int) (hc0 : 0 ≤ c)
    (hcw : w ≠ 0 → c ≤ w) (h : w ≠ 0 ∨ c ≠ 0) :
    ∀ p ∈ sboxWrapAxis b w c, p.1.idx ≠ [] ∧ p.1.idx.length = p.2.idx.length := by
  obtain ⟨_, _, h3⟩ := wrapAxis_spec b hs w c hc0 hcw
  intro p hp
  obtain ⟨_, _, g1, g2, _⟩ := h3 h p hp
  exact ⟨g2, g1⟩

/-- With a stride that does not divide the wrapping length the second turn starts one stride too
early, at a negative index. -/
theorem C11_stride_refuted : ¬ C11_claim ⟨0, 10, 2⟩ 5 5 := by
  intro h
  have := (h.1 (-1) 3).1 (by decide +kernel)
  omega

/-- The same without wrapping, for a strided box that starts before the array. -/
theorem C11_stride_nowrap_refuted : ¬ C11_claim ⟨-3, 6, 2⟩ 0 6 := by
  intro h
  have := (h.1 (-1) 1).1 (by decide +kernel)
  omega

/-- A cap larger than the wrapping length makes pieces overlap. -/
theorem C11_cap_refuted : ¬ C11_claim ⟨0, 8, 1⟩ 5 8 := by
  intro h
  have h2 := h.2
  revert h2
  decide +kernel

/-- The wrapping length chosen for a map is a multiple of the sky circumference and not smaller than
the map. -/
theorem C11_wrapLength (nphi nx : Nat) (h : 0 < nphi) :
    nphi ∣ wrapLength nphi nx ∧ nx ≤ wrapLength nphi nx ∧ (nx ≤ nphi → 0 < nx → wrapLength nphi nx = nphi) := by
  unfold wrapLength
  refine ⟨Nat.dvd_mul_right _ _, ?_, ?_⟩
  · have := Nat.div_add_mod (nphi + nx - 1) nphi
    have := Nat.mod_lt (nphi + nx - 1) h
    omega
  · intro h1 h2
    have : (nphi + nx - 1) / nphi = 1 := by
      apply Nat.div_eq_of_lt_le <;> omega
    rw [this, Nat.mul_one]

example : (sboxWrapAxis ⟨8, -3, -1⟩ 6 5).flatMap (fun p => p.1.idx.zip p.2.idx)
    = [(4, 10), (0, 8), (1, 7), (2, 6), (3, 5), (4, 4), (0, 2), (1, 1), (2, 0)] := by decide +kernel

/-! ## C08 -/

/-- The input pixel index that belongs to position `k` of a box (wrapped if `w > 0`). -/
def srcIndex (b : SBox) (w : Nat) (k : Int) : Int :=
  if w = 0 then b.start + k * b.step else (b.start + k * b.step) % w

/-- C08.  For any contiguous pixel box (also reversed, partly or totally outside, or wrapping several
times): the extraction succeeds, every output pixel whose input pixel exists receives
`op(old, input)`, and all others keep the value they had (the fill value). -/
theorem C08_extract {α} (map omap : Arr α) (nIn nOut : Nat × Nat) (bY bX : SBox)
    (hY : bY.step = 1 ∨ bY.step = -1) (hX : bX.step = 1 ∨ bX.step = -1) (wY wX : Nat)
    (h1 : 0 < nIn.1) (h2 : 0 < nIn.2) (hwY : wY ≠ 0 → nIn.1 ≤ wY) (hwX : wX ≠ 0 → nIn.2 ≤ wX)
    (hoY : nOut.1 = bY.idx.length) (hoX : nOut.2 = bX.idx.length) (op : α → α → α) :
    ∃ out, extractPixbox map nIn omap nOut bY bX wY wX op = some out ∧
      ∀ ky kx, out (ky, kx) =
        if (0 ≤ ky ∧ ky < nOut.1 ∧ 0 ≤ kx ∧ kx < nOut.2) ∧
            (0 ≤ srcIndex bY wY ky ∧ srcIndex bY wY ky < nIn.1) ∧
            (0 ≤ srcIndex bX wX kx ∧ srcIndex bX wX kx < nIn.2)
        then op (omap (ky, kx)) (map (srcIndex bY wY ky, srcIndex bX wX kx)) else omap (ky, kx) := by
  have hlY : (nOut.1 : Int) = max (sboxSize bY) 0 := by rw [hoY, ← C12_size bY (by omega)]; omega
  have hlX : (nOut.2 : Int) = max (sboxSize bX) 0 := by rw [hoX, ← C12_size bX (by omega)]; omega
  obtain ⟨ys, ey, my, ny⟩ := axisPairs_spec nIn.1 nOut.1 bY hY wY h1 hwY (by omega)
  obtain ⟨xs, ex, mx, nx⟩ := axisPairs_spec nIn.2 nOut.2 bX hX wX h2 hwX (by omega)
  refine ⟨(writesOf ys xs).foldl (fun o p => upd o p.2 (op (o p.2) (map p.1))) omap, ?_, ?_⟩
  · unfold extractPixbox
    rw [ey, ex]
    rfl
  · intro ky kx
    split
    · rename_i h
      have hmem : ((srcIndex bY wY ky, srcIndex bX wX kx), (ky, kx)) ∈ writesOf ys xs := by
        rw [mem_writesOf, my, mx]
        refine ⟨⟨h.1.1, by omega, rfl, h.2.1⟩, h.1.2.2.1, by omega, rfl, h.2.2⟩
      exact foldl_upd_hit (writesOf ys xs) Prod.snd (fun o p => op o (map p.1)) omap
        (writesOf_targets_nodup ys xs ny nx) _ hmem
    · rename_i h
      apply foldl_upd_frame (writesOf ys xs) Prod.snd (fun o p => op (o p.2) (map p.1))
      rintro ⟨⟨a, b⟩, c, d⟩ hp he
      rw [mem_writesOf, my, mx] at hp
      simp only [Prod.mk.injEq] at he
      obtain ⟨rfl, rfl⟩ := he
      apply h
      obtain ⟨⟨g1, g2, g3, g4⟩, g5, g6, g7, g8⟩ := hp
      have e1 : srcIndex bY wY c = a := g3.symm
      have e2 : srcIndex bX wX d = b := g7.symm
      rw [e1, e2]
      omega

/-- The special case of the default `op` and a fresh map filled with `cval`. -/
theorem C08_extract_fill {α} (map : Arr α) (cval : α) (nIn nOut : Nat × Nat) (bY bX : SBox)
    (hY : bY.step = 1 ∨ bY.step = -1) (hX : bX.step = 1 ∨ bX.step = -1) (wX : Nat)
    (h1 : 0 < nIn.1) (h2 : 0 < nIn.2) (hwX : wX ≠ 0 → nIn.2 ≤ wX)
    (hoY : nOut.1 = bY.idx.length) (hoX : nOut.2 = bX.idx.length) :
    ∃ out, extractPixbox map nIn (fun _ => cval) nOut bY bX 0 wX = some out ∧
      ∀ ky kx : Int, 0 ≤ ky → ky < nOut.1 → 0 ≤ kx → kx < nOut.2 → out (ky, kx) =
        if (0 ≤ bY.start + ky * bY.step ∧ bY.start + ky * bY.step < nIn.1) ∧
            (0 ≤ srcIndex bX wX kx ∧ srcIndex bX wX kx < nIn.2)
        then map (bY.start + ky * bY.step, srcIndex bX wX kx) else cval := by
  obtain ⟨out, e, h⟩ := C08_extract map (fun _ => cval) nIn nOut bY bX hY hX 0 wX h1 h2 (by simp) hwX
    hoY hoX (fun _ b => b)
  refine ⟨out, e, ?_⟩
  intro ky kx a1 a2 a3 a4
  rw [h ky kx]
  have e0 : srcIndex bY 0 ky = bY.start + ky * bY.step := by simp [srcIndex]
  rw [e0]
  simp only [a1, a2, a3, a4, true_and]

example : axisPairs 3 6 ⟨-2, 4, 1⟩ 4 = some [[(2, 0)], [(0, 2), (1, 3), (2, 4)]] := by decide +kernel
example : axisPairs 2 3 ⟨2, -1, -1⟩ 0 = some [[(0, 2), (1, 1)]] := by decide +kernel

/-! ## C09 -/

/-- Inserting what was extracted changes nothing, even if the box covers pixels several times. -/
theorem C09_roundtrip {α} (map omap : Arr α) (nIn nOut : Nat × Nat) (bY bX : SBox)
    (hY : bY.step = 1 ∨ bY.step = -1) (hX : bX.step = 1 ∨ bX.step = -1) (wY wX : Nat)
    (h1 : 0 < nIn.1) (h2 : 0 < nIn.2) (hwY : wY ≠ 0 → nIn.1 ≤ wY) (hwX : wX ≠ 0 → nIn.2 ≤ wX)
    (hoY : nOut.1 = bY.idx.length) (hoX : nOut.2 = bX.idx.length) :
    ∃ out, extractPixbox map nIn omap nOut bY bX wY wX = some out ∧
      insertPixbox map nIn out nOut bY bX wY wX = some map := by
  obtain ⟨out, e, h⟩ := C08_extract map omap nIn nOut bY bX hY hX wY wX h1 h2 hwY hwX hoY hoX (fun _ b => b)
  refine ⟨out, e, ?_⟩
  have hlY : (nOut.1 : Int) = max (sboxSize bY) 0 := by rw [hoY, ← C12_size bY (by omega)]; omega
  have hlX : (nOut.2 : Int) = max (sboxSize bX) 0 := by rw [hoX, ← C12_size bX (by omega)]; omega
  obtain ⟨ys, ey, my, ny⟩ := axisPairs_spec nIn.1 nOut.1 bY hY wY h1 hwY (by omega)
  obtain ⟨xs, ex, mx, nx⟩ := axisPairs_spec nIn.2 nOut.2 bX hX wX h2 hwX (by omega)
  unfold insertPixbox
  rw [ey, ex]
  show some _ = some map
  congr 1
  have key : ∀ ws : List ((Int × Int) × (Int × Int)), (∀ p ∈ ws, out p.2 = map p.1) →
      ws.foldl (fun m p => upd m p.1 (out p.2)) map = map := by
    intro ws hws
    induction ws with
    | nil => rfl
    | cons p ws ih =>
      rw [List.foldl_cons]
      have : upd map p.1 (out p.2) = map := by
        funext t
        simp only [upd]
        split
        · rename_i ht; rw [ht]; exact hws p List.mem_cons_self
        · rfl
      rw [this]
      exact ih fun q hq => hws q (List.mem_cons_of_mem _ hq)
  apply key
  rintro ⟨⟨a, b⟩, c, d⟩ hp
  rw [mem_writesOf, my, mx] at hp
  obtain ⟨⟨g1, g2, g3, g4⟩, g5, g6, g7, g8⟩ := hp
  have e1 : srcIndex bY wY c = a := g3.symm
  have e2 : srcIndex bX wX d = b := g7.symm
  simp only
  rw [h c d, e1, e2, if_pos ⟨⟨g1, by omega, g5, by omega⟩, g4, g8⟩]

/-- A box covers no pixel of the map twice (along one axis). -/
def NoOverlap (n : Nat) (b : SBox) (w : Nat) : Prop :=
  ∀ k k' : Int, 0 ≤ k → k < b.idx.length → 0 ≤ k' → k' < b.idx.length →
    srcIndex b w k = srcIndex b w k' → 0 ≤ srcIndex b w k → srcIndex b w k < n → k = k'

/-- Inserting arbitrary data: pixels not covered by the box keep their value, and covered ones receive
the inserted value if no pixel is covered twice. -/
theorem C09_insert {α} (map omap : Arr α) (nIn nOut : Nat × Nat) (bY bX : SBox)
    (hY : bY.step = 1 ∨ bY.step = -1) (hX : bX.step = 1 ∨ bX.step = -1) (wY wX : Nat)
    (h1 : 0 < nIn.1) (h2 : 0 < nIn.2) (hwY : wY ≠ 0 → nIn.1 ≤ wY) (hwX : wX ≠ 0 → nIn.2 ≤ wX)
    (hoY : nOut.1 = bY.idx.length) (hoX : nOut.2 = bX.idx.length) (op : α → α → α) :
    ∃ out, insertPixbox map nIn omap nOut bY bX wY wX op = some out ∧
      (∀ y x, (∀ ky kx : Int, 0 ≤ ky → ky < nOut.1 → 0 ≤ kx → kx < nOut.2 →
          ¬ ((srcIndex bY wY ky = y ∧ 0 ≤ y ∧ y < nIn.1) ∧ (srcIndex bX wX kx = x ∧ 0 ≤ x ∧ x < nIn.2))) →
        out (y, x) = map (y, x)) ∧
      (NoOverlap nIn.1 bY wY → NoOverlap nIn.2 bX wX →
        ∀ ky kx : Int, 0 ≤ ky → ky < nOut.1 → 0 ≤ kx → kx < nOut.2 →
          0 ≤ srcIndex bY wY ky → srcIndex bY wY ky < nIn.1 →
          0 ≤ srcIndex bX wX kx → srcIndex bX wX kx < nIn.2 →
          out (srcIndex bY wY ky, srcIndex bX wX kx)
            = op (map (srcIndex bY wY ky, srcIndex bX wX kx)) (omap (ky, kx))) := by
  have hlY : (nOut.1 : Int) = max (sboxSize bY) 0 := by rw [hoY, ← C12_size bY (by omega)]; omega
  have hlX : (nOut.2 : Int) = max (sboxSize bX) 0 := by rw [hoX, ← C12_size bX (by omega)]; omega
  obtain ⟨ys, ey, my, ny⟩ := axisPairs_spec nIn.1 nOut.1 bY hY wY h1 hwY (by omega)
  obtain ⟨xs, ex, mx, nx⟩ := axisPairs_spec nIn.2 nOut.2 bX hX wX h2 hwX (by omega)
  refine ⟨(writesOf ys xs).foldl (fun m p => upd m p.1 (op (m p.1) (omap p.2))) map, ?_, ?_, ?_⟩
  · unfold insertPixbox
    rw [ey, ex]
    rfl
  · intro y x h
    apply foldl_upd_frame (writesOf ys xs) Prod.fst (fun o p => op (o p.1) (omap p.2))
    rintro ⟨⟨a, b⟩, c, d⟩ hp he
    rw [mem_writesOf, my, mx] at hp
    simp only [Prod.mk.injEq] at he
    obtain ⟨rfl, rfl⟩ := he
    obtain ⟨⟨g1, g2, g3, g4⟩, g5, g6, g7, g8⟩ := hp
    exact h c d g1 (by omega) g5 (by omega) ⟨⟨g3.symm, g4⟩, g7.symm, g8⟩
  · intro oY oX ky kx a1 a2 a3 a4 a5 a6 a7 a8
    have hmem : ((srcIndex bY wY ky, srcIndex bX wX kx), (ky, kx)) ∈ writesOf ys xs := by
      rw [mem_writesOf, my, mx]
      exact ⟨⟨a1, by omega, rfl, a5, a6⟩, a3, by omega, rfl, a7, a8⟩
    have nY : (ys.flatten.map Prod.fst).Nodup := by
      apply fst_nodup_of ny
      intro x k k' hk hk'
      rw [my] at hk hk'
      obtain ⟨b1, b2, b3, b4⟩ := hk
      obtain ⟨c1, c2, c3, c4⟩ := hk'
      have b3' : x = srcIndex bY wY k := b3
      have c3' : x = srcIndex bY wY k' := c3
      exact oY k k' b1 (by omega) c1 (by omega) (by rw [← b3', ← c3']) (by omega) (by omega)
    have nX : (xs.flatten.map Prod.fst).Nodup := by
      apply fst_nodup_of nx
      intro x k k' hk hk'
      rw [mx] at hk hk'
      obtain ⟨b1, b2, b3, b4⟩ := hk
      obtain ⟨c1, c2, c3, c4⟩ := hk'
      have b3' : x = srcIndex bX wX k := b3
      have c3' : x = srcIndex bX wX k' := c3
      exact oX k k' b1 (by omega) c1 (by omega) (by rw [← b3', ← c3']) (by omega) (by omega)
    exact foldl_upd_hit (writesOf ys xs) Prod.fst (fun o p => op o (omap p.2)) map
      (writesOf_sources_nodup ys xs nY nX) _ hmem

/-- A box no longer than the wrapping length covers no pixel twice. -/
theorem C09_noOverlap (n : Nat) (b : SBox) (hs : b.step = 1 ∨ b.step = -1) (w : Nat)
    (h : w ≠ 0 → b.idx.length ≤ w) : NoOverlap n b w := by
  intro k k' h1 h2 h3 h4 h5 _ _
  unfold srcIndex at h5
  split at h5
  · rcases hs with hs | hs <;> rw [hs] at h5 <;> omega
  · rename_i hw
    have hl := h hw
    have : (w:Int) ∣ (b.start + k * b.step) - (b.start + k' * b.step) := Int.dvd_of_emod_eq_zero (by
      rw [Int.sub_emod, h5, Int.sub_self, Int.zero_emod])
    obtain ⟨q, hq⟩ := this
    have hq' : (k - k') * b.step = w * q := by linear_combination hq
    have hlt : -(w:Int) < w * q ∧ (w:Int) * q < w := by
      rcases hs with hs | hs <;> rw [hs] at hq' <;> constructor <;> omega
    have hq0 : q = 0 := by
      rcases Int.lt_trichotomy q 0 with hneg | h0 | hpos
      · have : (w:Int) * q ≤ w * (-1) := mul_le_mul_of_nonneg_left (by omega) (by omega)
        omega
      · exact h0
      · have : (w:Int) * 1 ≤ w * q := mul_le_mul_of_nonneg_left (by omega) (by omega)
        omega
    rw [hq0] at hq'
    rcases hs with hs | hs <;> rw [hs] at hq' <;> omega

/-- Extracting after inserting returns the inserted data on the part of the box that overlaps the map. -/
theorem C09_insert_extract {α} (map omap omap2 : Arr α) (nIn nOut : Nat × Nat) (bY bX : SBox)
    (hY : bY.step = 1 ∨ bY.step = -1) (hX : bX.step = 1 ∨ bX.step = -1) (wY wX : Nat)
    (h1 : 0 < nIn.1) (h2 : 0 < nIn.2) (hwY : wY ≠ 0 → nIn.1 ≤ wY) (hwX : wX ≠ 0 → nIn.2 ≤ wX)
    (hoY : nOut.1 = bY.idx.length) (hoX : nOut.2 = bX.idx.length)
    (nY : NoOverlap nIn.1 bY wY) (nX : NoOverlap nIn.2 bX wX) :
    ∃ m out, insertPixbox map nIn omap nOut bY bX wY wX = some m ∧
      extractPixbox m nIn omap2 nOut bY bX wY wX = some out ∧
      ∀ ky kx : Int, 0 ≤ ky → ky < nOut.1 → 0 ≤ kx → kx < nOut.2 →
          0 ≤ srcIndex bY wY ky → srcIndex bY wY ky < nIn.1 →
          0 ≤ srcIndex bX wX kx → srcIndex bX wX kx < nIn.2 → out (ky, kx) = omap (ky, kx) := by
  obtain ⟨m, em, _, hm⟩ := C09_insert map omap nIn nOut bY bX hY hX wY wX h1 h2 hwY hwX hoY hoX (fun _ b => b)
  obtain ⟨out, eo, ho⟩ := C08_extract m omap2 nIn nOut bY bX hY hX wY wX h1 h2 hwY hwX hoY hoX (fun _ b => b)
  refine ⟨m, out, em, eo, ?_⟩
  intro ky kx a1 a2 a3 a4 a5 a6 a7 a8
  rw [ho, if_pos ⟨⟨a1, a2, a3, a4⟩, ⟨a5, a6⟩, a7, a8⟩]
  exact hm nY nX ky kx a1 a2 a3 a4 a5 a6 a7 a8

example : NoOverlap 3 ⟨-2, 2, 1⟩ 4 := C09_noOverlap 3 ⟨-2, 2, 1⟩ (by decide) 4 (by decide +kernel)

end Pixell
