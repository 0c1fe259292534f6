import Mathlib.Algebra.Order.BigOperators.Group.Finset
import Verif.Lemmas.DistSound

/-
Invariants of the cellgrid method for its termination and for where it is exact: one cell.
-/
namespace Pixell

variable {α : Type} [LinearOrder α]
set_option linter.unusedSectionVars false

/-- Value and point stored for a local pixel. -/
def DCell.val (g : DGrid α) (c : DCell α) (y x : Nat) : α := c.dists.getD (y * c.nx + x) g.rmax
def DCell.dom (c : DCell α) (y x : Nat) : Option Nat := c.domains.getD (y * c.nx + x) none

/-- Storing an entry. -/
def DCell.put (c : DCell α) (y x : Nat) (v : α) (dom : Option Nat) (cur : List (Nat × Nat)) : DCell α :=
  ⟨c.status, c.y1, c.x1, c.ny, c.nx, c.dists.set (y * c.nx + x) v, c.domains.set (y * c.nx + x) dom, cur⟩

/-- The point of this pixel cannot improve any neighbour inside the cell. -/
def PixStable (g : DGrid α) (c : DCell α) (y x : Nat) : Prop :=
  ∀ i, c.dom y x = some i → ∀ o ∈ neighOffs, ∀ y2 x2 : Nat, (y : Int) + o.1 = y2 → (x : Int) + o.2 = x2 → y2 < c.ny → x2 < c.nx →
    c.val g y2 x2 ≤ g.dist c i y2 x2 ∨ g.rmax ≤ g.dist c i y2 x2

/-- How often the values of a cell can still be lowered. -/
def cmeas (g : DGrid α) (npt : Nat) (c : DCell α) : Nat :=
  ∑ q ∈ Finset.range c.ny ×ˢ Finset.range c.nx, ((Finset.range npt).filter fun i => g.dist c i q.1 q.2 < c.val g q.1 q.2).card

/-- A cell in a consistent state. -/
structure CellGood (g : DGrid α) (npt by' bx : Nat) (c : DCell α) : Prop where
  ok : CellOk g npt by' bx c
  le : ∀ y < c.ny, ∀ x < c.nx, c.val g y x ≤ g.rmax
  bnd : ∀ p ∈ c.current, p.1 < c.ny ∧ p.2 < c.nx
  inv : ∀ y < c.ny, ∀ x < c.nx, (y, x) ∈ c.current ∨ PixStable g c y x

section
variable {g : DGrid α} {npt by' bx : Nat} {c : DCell α}

theorem CellOk.put_val (h : CellOk g npt by' bx c) {y x y' x' : Nat} (hy : y < c.ny) (hx : x < c.nx) (hx' : x' < c.nx) (v : α)
    (dom : Option Nat) (cur : List (Nat × Nat)) :
    (c.put y x v dom cur).val g y' x' = if y' = y ∧ x' = x then v else c.val g y' x' := by
  unfold DCell.val DCell.put
  simp only
  split_ifs with e
  · rw [e.1, e.2]; exact getD_set_eq _ _ _ _ (by rw [h.dl]; exact flat_lt hy hx)
  · exact getD_set_ne _ _ _ _ _ fun e' => e (by obtain ⟨a, b⟩ := flat_inj hx hx' e'; exact ⟨a.symm, b.symm⟩)

theorem CellOk.put_dom (h : CellOk g npt by' bx c) {y x y' x' : Nat} (hy : y < c.ny) (hx : x < c.nx) (hx' : x' < c.nx) (v : α)
    (dom : Option Nat) (cur : List (Nat × Nat)) :
    (c.put y x v dom cur).dom y' x' = if y' = y ∧ x' = x then dom else c.dom y' x' := by
  unfold DCell.dom DCell.put
  simp only
  split_ifs with e
  · rw [e.1, e.2]; exact getD_set_eq _ _ _ _ (by rw [h.ml]; exact flat_lt hy hx)
  · exact getD_set_ne _ _ _ _ _ fun e' => e (by obtain ⟨a, b⟩ := flat_inj hx hx' e'; exact ⟨a.symm, b.symm⟩)

theorem put_cdist (y x : Nat) (v : α) (dom : Option Nat) (cur : List (Nat × Nat)) (i y' x' : Nat) :
    g.dist (c.put y x v dom cur) i y' x' = g.dist c i y' x' := rfl

theorem CellOk.put_meas (h : CellOk g npt by' bx c) {y x i : Nat} (hy : y < c.ny) (hx : x < c.nx) (hi : i < npt)
    (hlt : g.dist c i y x < c.val g y x) (dom : Option Nat) (cur : List (Nat × Nat)) :
    cmeas g npt (c.put y x (g.dist c i y x) dom cur) < cmeas g npt c := by
  unfold cmeas
  have hny : (c.put y x (g.dist c i y x) dom cur).ny = c.ny := rfl
  have hnx : (c.put y x (g.dist c i y x) dom cur).nx = c.nx := rfl
  rw [hny, hnx]
  have hle : ∀ q ∈ Finset.range c.ny ×ˢ Finset.range c.nx, (c.put y x (g.dist c i y x) dom cur).val g q.1 q.2 ≤ c.val g q.1 q.2 := by
    intro q hq
    simp only [Finset.mem_product, Finset.mem_range] at hq
    rw [h.put_val hy hx hq.2]
    split_ifs with e
    · rw [e.1, e.2]; exact hlt.le
    · exact le_rfl
  apply Finset.sum_lt_sum
  · intro q hq
    apply Finset.card_le_card
    intro j hj
    simp only [Finset.mem_filter] at hj ⊢
    exact ⟨hj.1, lt_of_lt_of_le hj.2 (hle q hq)⟩
  · refine ⟨(y, x), by simp [hy, hx], ?_⟩
    apply Finset.card_lt_card
    rw [Finset.ssubset_iff_of_subset]
    · refine ⟨i, ?_, ?_⟩
      · simp only [Finset.mem_filter, Finset.mem_range]; exact ⟨hi, hlt⟩
      · simp only [Finset.mem_filter, Finset.mem_range, not_and]
        intro _
        rw [h.put_val hy hx hx, if_pos ⟨rfl, rfl⟩]
        exact lt_irrefl _
    · intro j hj
      simp only [Finset.mem_filter, Finset.mem_range] at hj ⊢
      exact ⟨hj.1, lt_of_lt_of_le hj.2 (hle (y, x) (by simp [hy, hx]))⟩

/-! ### Solving one cell -/

/-- The invariant of one pass over the work list: `todo` are the entries still to be visited. -/
structure CPass (g : DGrid α) (npt by' bx m0 : Nat) (b0 : DCell α) (orig : DCell α) (todo : Nat → Nat → Prop)
    (s : DCell α × List (Nat × Nat)) : Prop where
  ok : CellOk g npt by' bx s.1
  st : s.1.status = b0.status
  le : ∀ y < s.1.ny, ∀ x < s.1.nx, s.1.val g y x ≤ g.rmax
  inr : ∀ p ∈ s.2, p.1 < s.1.ny ∧ p.2 < s.1.nx
  meas : cmeas g npt s.1 + s.2.length ≤ m0
  low : ∀ y < s.1.ny, ∀ x < s.1.nx, s.1.val g y x ≤ b0.val g y x
  cover : ∀ y < s.1.ny, ∀ x < s.1.nx, todo y x ∨ (y, x) ∈ s.2 ∨ PixStable g s.1 y x
  origin : ∀ y < s.1.ny, ∀ x < s.1.nx, (y, x) ∈ s.2 ∨ s.1.dom y x = orig.dom y x

theorem tryPix_cases (s : DCell α × List (Nat × Nat)) (hs : CellOk g npt by' bx s.1) {ip y x : Nat} (o : Int × Int) :
    (g.tryPix ip y x s o = s ∧ ∀ y2 x2 : Nat, (y : Int) + o.1 = y2 → (x : Int) + o.2 = x2 → y2 < s.1.ny → x2 < s.1.nx →
      s.1.val g y2 x2 ≤ g.dist s.1 ip y2 x2 ∨ g.rmax ≤ g.dist s.1 ip y2 x2) ∨
    ∃ y2 x2 : Nat, (y : Int) + o.1 = y2 ∧ (x : Int) + o.2 = x2 ∧ y2 < s.1.ny ∧ x2 < s.1.nx ∧
      g.dist s.1 ip y2 x2 < s.1.val g y2 x2 ∧ g.dist s.1 ip y2 x2 < g.rmax ∧
      g.tryPix ip y x s o = (s.1.put y2 x2 (g.dist s.1 ip y2 x2) (some ip) s.1.current, s.2 ++ [(y2, x2)]) := by
  unfold DGrid.tryPix
  simp only
  split_ifs with h1 h2 h3
  · left
    refine ⟨rfl, fun y2 x2 e1 e2 l1 l2 => ?_⟩
    exfalso; rw [e1, e2] at h1; omega
  · left
    refine ⟨rfl, fun y2 x2 e1 e2 l1 l2 => Or.inl ?_⟩
    rw [e1, e2] at h2
    simp only [Int.toNat_natCast] at h2
    rcases hs.pix y2 l1 x2 l2 with ⟨-, h⟩ | ⟨i, -, h, h'⟩
    · rw [h2] at h; cases h
    · rw [h2] at h
      obtain rfl := Option.some.inj h
      unfold DCell.val
      rw [h']
  · right
    push Not at h1
    refine ⟨((y : Int) + o.1).toNat, ((x : Int) + o.2).toNat, by omega, by omega, by omega, by omega, h3.1, h3.2, rfl⟩
  · left
    refine ⟨rfl, fun y2 x2 e1 e2 l1 l2 => ?_⟩
    rw [e1, e2] at h3
    simp only [Int.toNat_natCast] at h3
    by_cases h4 : g.dist s.1 ip y2 x2 < g.rmax
    · left
      by_contra h5
      exact h3 ⟨not_le.mp h5, h4⟩
    · exact Or.inr (not_lt.mp h4)

/-- Lowering other pixels keeps a pixel stable. -/
theorem PixStable.mono {c' : DCell α} (hny : c'.ny = c.ny) (hnx : c'.nx = c.nx) (hd : ∀ i y x, g.dist c' i y x = g.dist c i y x)
    {y x : Nat} (hdom : c'.dom y x = c.dom y x) (hle : ∀ y < c.ny, ∀ x < c.nx, c'.val g y x ≤ c.val g y x)
    (h : PixStable g c y x) : PixStable g c' y x := by
  intro i hi o ho y2 x2 e1 e2 l1 l2
  rw [hdom] at hi
  rw [hny] at l1
  rw [hnx] at l2
  rw [hd]
  rcases h i hi o ho y2 x2 e1 e2 l1 l2 with h | h
  · exact Or.inl (le_trans (hle _ l1 _ l2) h)
  · exact Or.inr h

theorem tryPix_pass {m0 : Nat} {b0 orig : DCell α} {todo : Nat → Nat → Prop} (s : DCell α × List (Nat × Nat))
    (hs : CPass g npt by' bx m0 b0 orig todo s) {ip y x : Nat} (hi : ip < npt) (o : Int × Int) :
    CPass g npt by' bx m0 b0 orig todo (g.tryPix ip y x s o) ∧
    (g.tryPix ip y x s o).1.ny = s.1.ny ∧ (g.tryPix ip y x s o).1.nx = s.1.nx ∧
    (∀ p ∈ s.2, p ∈ (g.tryPix ip y x s o).2) ∧
    (∀ y' < s.1.ny, ∀ x' < s.1.nx, (g.tryPix ip y x s o).1.val g y' x' ≤ s.1.val g y' x') ∧
    (∀ i y x y' x', g.dist (g.tryPix ip y' x' s o).1 i y x = g.dist s.1 i y x) ∧
    ∀ y2 x2 : Nat, (y : Int) + o.1 = y2 → (x : Int) + o.2 = x2 → y2 < s.1.ny → x2 < s.1.nx →
      (g.tryPix ip y x s o).1.val g y2 x2 ≤ g.dist s.1 ip y2 x2 ∨ g.rmax ≤ g.dist s.1 ip y2 x2 := by
  have hdist : ∀ i y x y' x', g.dist (g.tryPix ip y' x' s o).1 i y x = g.dist s.1 i y x := by
    intro i y x y' x'
    rw [(CellOk.tryPix ip y' x' hi s o hs.ok).dist_eq, hs.ok.dist_eq]
  rcases tryPix_cases s hs.ok (ip := ip) (y := y) (x := x) o with ⟨h, hn⟩ | ⟨y2, x2, e1, e2, l1, l2, hlt, hr, h⟩
  · refine ⟨by rw [h]; exact hs, by rw [h], by rw [h], by rw [h]; exact fun p hp => hp, ?_, hdist, ?_⟩
    · intro y' _ x' _; rw [h]
    · rw [h]; exact hn
  · have hok := CellOk.tryPix ip y x hi s o hs.ok
    rw [h] at hok ⊢
    have hle : ∀ y' < s.1.ny, ∀ x' < s.1.nx, (s.1.put y2 x2 (g.dist s.1 ip y2 x2) (some ip) s.1.current).val g y' x' ≤
        s.1.val g y' x' := by
      intro y' _ x' hx'
      rw [hs.ok.put_val l1 l2 hx']
      split_ifs with e
      · rw [e.1, e.2]; exact hlt.le
      · exact le_rfl
    refine ⟨⟨hok, hs.st, ?_, ?_, ?_, ?_, ?_, ?_⟩, rfl, rfl, fun p hp => List.mem_append_left _ hp, hle, ?_, ?_⟩
    · intro y' hy' x' hx'
      exact le_trans (hle y' hy' x' hx') (hs.le y' hy' x' hx')
    · intro p hp
      rcases List.mem_append.mp hp with hp | hp
      · exact hs.inr p hp
      · rw [List.mem_singleton] at hp
        rw [hp]; exact ⟨l1, l2⟩
    · have := hs.ok.put_meas l1 l2 hi hlt (some ip) s.1.current
      have := hs.meas
      simp only [List.length_append, List.length_singleton]
      omega
    · intro y' hy' x' hx'
      exact le_trans (hle y' hy' x' hx') (hs.low y' hy' x' hx')
    · intro y' hy' x' hx'
      by_cases e : y' = y2 ∧ x' = x2
      · right; left
        rw [e.1, e.2]
        simp
      · rcases hs.cover y' hy' x' hx' with hc | hc | hc
        · exact Or.inl hc
        · exact Or.inr (Or.inl (List.mem_append_left _ hc))
        · right; right
          exact PixStable.mono (c := s.1) (c' := s.1.put y2 x2 (g.dist s.1 ip y2 x2) (some ip) s.1.current) rfl rfl (fun _ _ _ => rfl) (by rw [hs.ok.put_dom l1 l2 hx', if_neg e]) hle hc
    · intro y' hy' x' hx'
      by_cases e : y' = y2 ∧ x' = x2
      · left
        rw [e.1, e.2]
        simp
      · rcases hs.origin y' hy' x' hx' with hc | hc
        · exact Or.inl (List.mem_append_left _ hc)
        · right
          rw [hs.ok.put_dom l1 l2 hx', if_neg e]; exact hc
    · intro i y x y' x'; exact hdist i y x y' x'
    · intro y3 x3 e3 e4 l3 l4
      left
      have : y3 = y2 := by omega
      have : x3 = x2 := by omega
      subst y3 x3
      rw [hs.ok.put_val l1 l2 l2, if_pos ⟨rfl, rfl⟩]

theorem tryPix_fold {m0 : Nat} {b0 orig : DCell α} {todo : Nat → Nat → Prop} {ip y x : Nat} (hi : ip < npt)
    (os : List (Int × Int)) (s : DCell α × List (Nat × Nat)) (hs : CPass g npt by' bx m0 b0 orig todo s) :
    CPass g npt by' bx m0 b0 orig todo (os.foldl (g.tryPix ip y x) s) ∧
    (os.foldl (g.tryPix ip y x) s).1.ny = s.1.ny ∧ (os.foldl (g.tryPix ip y x) s).1.nx = s.1.nx ∧
    (∀ p ∈ s.2, p ∈ (os.foldl (g.tryPix ip y x) s).2) ∧
    (∀ y' < s.1.ny, ∀ x' < s.1.nx, (os.foldl (g.tryPix ip y x) s).1.val g y' x' ≤ s.1.val g y' x') ∧
    (∀ i y' x', g.dist (os.foldl (g.tryPix ip y x) s).1 i y' x' = g.dist s.1 i y' x') ∧
    ∀ o ∈ os, ∀ y2 x2 : Nat, (y : Int) + o.1 = y2 → (x : Int) + o.2 = x2 → y2 < s.1.ny → x2 < s.1.nx →
      (os.foldl (g.tryPix ip y x) s).1.val g y2 x2 ≤ g.dist s.1 ip y2 x2 ∨ g.rmax ≤ g.dist s.1 ip y2 x2 := by
  induction os generalizing s with
  | nil => exact ⟨hs, rfl, rfl, fun p hp => hp, fun _ _ _ _ => le_rfl, fun _ _ _ => rfl, by simp⟩
  | cons o os ih =>
    obtain ⟨a1, a2, a3, a4, a5, a6, a7⟩ := tryPix_pass s hs (ip := ip) (y := y) (x := x) hi o
    obtain ⟨b1, b2, b3, b4, b5, b6, b7⟩ := ih _ a1
    rw [List.foldl_cons]
    refine ⟨b1, b2.trans a2, b3.trans a3, fun p hp => b4 p (a4 p hp), ?_, ?_, ?_⟩
    · intro y' hy' x' hx'
      exact le_trans (b5 y' (by rw [a2]; exact hy') x' (by rw [a3]; exact hx')) (a5 y' hy' x' hx')
    · intro i y' x'; rw [b6, a6]
    · intro o' ho' y2 x2 e1 e2 l1 l2
      rcases List.mem_cons.mp ho' with rfl | ho'
      · rcases a7 y2 x2 e1 e2 l1 l2 with h | h
        · exact Or.inl (le_trans (b5 y2 (by rw [a2]; exact l1) x2 (by rw [a3]; exact l2)) h)
        · exact Or.inr h
      · have := b7 o' ho' y2 x2 e1 e2 (by rw [a2]; exact l1) (by rw [a3]; exact l2)
        rw [a6] at this
        exact this

theorem visit_pass {m0 : Nat} {b0 orig : DCell α} (hw : orig.nx = blkLen g.nx g.bsize bx) (ho : ∀ k i, orig.domains.getD k none = some i → i < npt)
    (p : Nat × Nat) (ps : List (Nat × Nat)) (s : DCell α × List (Nat × Nat)) (hp : p.1 < s.1.ny ∧ p.2 < s.1.nx)
    (hs : CPass g npt by' bx m0 b0 orig (fun y x => (y, x) ∈ p :: ps) s) :
    CPass g npt by' bx m0 b0 orig (fun y x => (y, x) ∈ ps) (g.visit orig.domains orig.nx s p) := by
  have aux : ∀ t : DCell α × List (Nat × Nat), CPass g npt by' bx m0 b0 orig (fun y x => (y, x) ∈ p :: ps) t →
      (p ∈ t.2 ∨ PixStable g t.1 p.1 p.2) → CPass g npt by' bx m0 b0 orig (fun y x => (y, x) ∈ ps) t := by
    intro t ht hst
    refine ⟨ht.ok, ht.st, ht.le, ht.inr, ht.meas, ht.low, fun y hy x hx => ?_, ht.origin⟩
    rcases ht.cover y hy x hx with h | h | h
    · rcases List.mem_cons.mp h with h | h
      · right
        have e1 : y = p.1 := by rw [← h]
        have e2 : x = p.2 := by rw [← h]
        rw [e1, e2]; exact hst
      · exact Or.inl h
    · exact Or.inr (Or.inl h)
    · exact Or.inr (Or.inr h)
  unfold DGrid.visit
  cases hdom : orig.domains.getD (p.1 * orig.nx + p.2) none with
  | none =>
    apply aux s hs
    rcases hs.origin p.1 hp.1 p.2 hp.2 with h | h
    · exact Or.inl h
    · right
      intro i hi
      rw [h] at hi
      unfold DCell.dom at hi
      rw [hdom] at hi; cases hi
  | some ip =>
    have hi := ho _ _ hdom
    obtain ⟨b1, b2, b3, b4, b5, b6, b7⟩ := tryPix_fold (y := p.1) (x := p.2) hi neighOffs s hs
    apply aux _ b1
    rcases b1.origin p.1 (by rw [b2]; exact hp.1) p.2 (by rw [b3]; exact hp.2) with h | h
    · exact Or.inl h
    · right
      intro i hi' o ho' y2 x2 e1 e2 l1 l2
      rw [h] at hi'
      unfold DCell.dom at hi'
      rw [hdom] at hi'
      obtain rfl := Option.some.inj hi'
      rw [b2] at l1
      rw [b3] at l2
      rw [b6]
      exact b7 o ho' y2 x2 e1 e2 l1 l2

theorem visit_fold {m0 : Nat} {b0 orig : DCell α} (hw : orig.nx = blkLen g.nx g.bsize bx) (ho : ∀ k i, orig.domains.getD k none = some i → i < npt)
    (ps : List (Nat × Nat)) (s : DCell α × List (Nat × Nat)) (hp : ∀ p ∈ ps, p.1 < s.1.ny ∧ p.2 < s.1.nx)
    (hs : CPass g npt by' bx m0 b0 orig (fun y x => (y, x) ∈ ps) s) :
    CPass g npt by' bx m0 b0 orig (fun _ _ => False) (ps.foldl (g.visit orig.domains orig.nx) s) := by
  induction ps generalizing s with
  | nil => simpa using hs
  | cons p ps ih =>
    have h := visit_pass hw ho p ps s (hp p (by simp)) hs
    refine ih _ (fun q hq => ?_) h
    rw [h.ok.ny, h.ok.nx, ← hs.ok.ny, ← hs.ok.nx]
    exact hp q (List.mem_cons_of_mem _ hq)

/-- Solving a cell finishes, lowers its values, and leaves every pixel stable and no work. -/
theorem solve_good (fuel : Nat) (c : DCell α) (cur : List (Nat × Nat)) (h : CellOk g npt by' bx c)
    (hle : ∀ y < c.ny, ∀ x < c.nx, c.val g y x ≤ g.rmax) (hcur : ∀ p ∈ cur, p.1 < c.ny ∧ p.2 < c.nx)
    (hinv : ∀ y < c.ny, ∀ x < c.nx, (y, x) ∈ cur ∨ PixStable g c y x) (hf : cmeas g npt c < fuel ∨ cur = []) :
    ∃ c', g.solve fuel c cur = some c' ∧ CellGood g npt by' bx c' ∧ c'.status = c.status ∧ c'.current = [] ∧
      cmeas g npt c' ≤ cmeas g npt c ∧ (∀ y < c.ny, ∀ x < c.nx, c'.val g y x ≤ c.val g y x) := by
  have hnil : ∀ c : DCell α, CellOk g npt by' bx c → (∀ y < c.ny, ∀ x < c.nx, c.val g y x ≤ g.rmax) →
      (∀ y < c.ny, ∀ x < c.nx, (y, x) ∈ ([] : List (Nat × Nat)) ∨ PixStable g c y x) →
      CellGood g npt by' bx { c with current := [] } := by
    intro c h hle hinv
    exact ⟨h.current _, hle, by simp, fun y hy x hx => Or.inr ((hinv y hy x hx).resolve_left (by simp))⟩
  induction fuel generalizing c cur with
  | zero =>
    rcases hf with hf | rfl
    · omega
    · exact ⟨_, rfl, hnil c h hle hinv, rfl, rfl, le_rfl, fun _ _ _ _ => le_rfl⟩
  | succ f ih =>
    cases cur with
    | nil => exact ⟨_, rfl, hnil c h hle hinv, rfl, rfl, le_rfl, fun _ _ _ _ => le_rfl⟩
    | cons p ps =>
      have hm := hf.resolve_right (by simp)
      have hpass := visit_fold (orig := c) (m0 := cmeas g npt c) (b0 := c) h.nx (fun k i hk => h.dom k i hk) (p :: ps) (c, []) hcur
        ⟨h, rfl, hle, by simp, by simp, fun _ _ _ _ => le_rfl, fun y hy x hx => (hinv y hy x hx).imp id Or.inr, fun _ _ _ _ => Or.inr rfl⟩
      unfold DGrid.solve
      simp only
      have hny : (List.foldl (g.visit c.domains c.nx) (c, []) (p :: ps)).1.ny = c.ny := by rw [hpass.ok.ny, h.ny]
      have hnx : (List.foldl (g.visit c.domains c.nx) (c, []) (p :: ps)).1.nx = c.nx := by rw [hpass.ok.nx, h.nx]
      obtain ⟨c', e, hg, hst, hc, hme, hlo⟩ := ih _ _ hpass.ok hpass.le hpass.inr
        (fun y hy x hx => (hpass.cover y hy x hx).resolve_left (fun h => h)) (by
          have := hpass.meas
          by_cases hl : (List.foldl (g.visit c.domains c.nx) (c, []) (p :: ps)).2 = []
          · exact Or.inr hl
          · have := List.length_pos_of_ne_nil hl
            exact Or.inl (by omega))
      have := hpass.meas
      refine ⟨c', e, hg, hst.trans hpass.st, hc, by omega, fun y hy x hx => ?_⟩
      exact le_trans (hlo y (by rw [hny]; exact hy) x (by rw [hnx]; exact hx)) (hpass.low y (by rw [hny]; exact hy) x (by rw [hnx]; exact hx))

/-! ### Fetching an edge -/

/-- A later state of the same cell: values only go down, and a pixel that changed is on the work list. -/
structure Later (g : DGrid α) (c c' : DCell α) : Prop where
  st : c'.status = c.status
  ny : c'.ny = c.ny
  nx : c'.nx = c.nx
  low : ∀ y < c.ny, ∀ x < c.nx, c'.val g y x ≤ c.val g y x
  cur : ∀ p ∈ c.current, p ∈ c'.current
  chg : ∀ y < c.ny, ∀ x < c.nx, (c'.val g y x = c.val g y x ∧ c'.dom y x = c.dom y x) ∨ (y, x) ∈ c'.current

theorem Later.refl (c : DCell α) : Later g c c := ⟨rfl, rfl, rfl, fun _ _ _ _ => le_rfl, fun _ h => h, fun _ _ _ _ => Or.inl ⟨rfl, rfl⟩⟩

theorem Later.trans {c1 c2 c3 : DCell α} (a : Later g c1 c2) (b : Later g c2 c3) : Later g c1 c3 := by
  refine ⟨b.st.trans a.st, b.ny.trans a.ny, b.nx.trans a.nx, fun y hy x hx => ?_, fun p hp => b.cur p (a.cur p hp), fun y hy x hx => ?_⟩
  · exact le_trans (b.low y (by rw [a.ny]; exact hy) x (by rw [a.nx]; exact hx)) (a.low y hy x hx)
  · rcases b.chg y (by rw [a.ny]; exact hy) x (by rw [a.nx]; exact hx) with h | h
    · rcases a.chg y hy x hx with h' | h'
      · exact Or.inl ⟨h.1.trans h'.1, h.2.trans h'.2⟩
      · exact Or.inr (b.cur _ h')
    · exact Or.inr h

/-- Fetching a list of pixel pairs of a shared edge. -/
theorem fetch_fold {by2 bx2 : Nat} (cfrom : DCell α) (hfrom : CellOk g npt by2 bx2 cfrom)
    (ps : List (Nat × Nat)) (cto : DCell α) (h : CellGood g npt by' bx cto)
    (hps : ∀ p ∈ ps, ∃ y x y' x', y < cto.ny ∧ x < cto.nx ∧ y' < cfrom.ny ∧ x' < cfrom.nx ∧
      p = (y * cto.nx + x, y' * cfrom.nx + x') ∧ ∀ i, g.dist cto i y x = g.dist cfrom i y' x') :
    CellGood g npt by' bx (ps.foldl (g.fetch1 cfrom) cto) ∧ Later g cto (ps.foldl (g.fetch1 cfrom) cto) ∧
    cmeas g npt (ps.foldl (g.fetch1 cfrom) cto) + (ps.foldl (g.fetch1 cfrom) cto).current.length ≤ cmeas g npt cto + cto.current.length ∧
    ∀ p ∈ ps, ∀ y x y' x', y < cto.ny → x < cto.nx → p = (y * cto.nx + x, y' * cfrom.nx + x') →
      (ps.foldl (g.fetch1 cfrom) cto).val g y x ≤ cfrom.val g y' x' := by
  induction ps generalizing cto with
  | nil => exact ⟨h, Later.refl _, le_rfl, by simp⟩
  | cons p ps ih =>
    obtain ⟨y, x, y', x', e1, e2, e3, e4, hp, hd⟩ := hps p (by simp)
    rw [List.foldl_cons]
    have key : CellGood g npt by' bx (g.fetch1 cfrom cto p) ∧ Later g cto (g.fetch1 cfrom cto p) ∧
        cmeas g npt (g.fetch1 cfrom cto p) + (g.fetch1 cfrom cto p).current.length ≤ cmeas g npt cto + cto.current.length ∧
        (g.fetch1 cfrom cto p).val g y x ≤ cfrom.val g y' x' := by
      have hdiv := flat_div (nx := cto.nx) (y := y) (x := x) e2
      by_cases hlt : cfrom.val g y' x' < cto.val g y x
      · have hf : g.fetch1 cfrom cto p = cto.put y x (cfrom.val g y' x') (cfrom.dom y' x') (cto.current ++ [(y, x)]) := by
          unfold DGrid.fetch1
          rw [hp]
          simp only
          unfold DCell.val at hlt
          rw [if_pos hlt, hdiv.1, hdiv.2]
          rfl
        have hpix := hfrom.pix y' e3 x' e4
        obtain ⟨i, hi, hdom, hv⟩ : ∃ i < npt, cfrom.dom y' x' = some i ∧ cfrom.val g y' x' = g.dist cto i y x := by
          rcases hpix with ⟨a, -⟩ | ⟨i, hi, a, b⟩
          · exfalso
            have : cfrom.val g y' x' = g.rmax := a
            rw [this] at hlt
            exact absurd hlt (not_lt.mpr (h.le y e1 x e2))
          · exact ⟨i, hi, a, by rw [hd i]; exact b⟩
        have hok : CellOk g npt by' bx (cto.put y x (cfrom.val g y' x') (cfrom.dom y' x') (cto.current ++ [(y, x)])) :=
          h.ok.store y x e1 e2 _ _ (Or.inr ⟨i, hi, hdom, hv⟩) _
        have hle : ∀ y2 < cto.ny, ∀ x2 < cto.nx, (cto.put y x (cfrom.val g y' x') (cfrom.dom y' x') (cto.current ++ [(y, x)])).val g y2 x2 ≤
            cto.val g y2 x2 := by
          intro y2 _ x2 hx2
          rw [h.ok.put_val e1 e2 hx2]
          split_ifs with e
          · rw [e.1, e.2]; exact hlt.le
          · exact le_rfl
        rw [hf]
        refine ⟨⟨hok, fun y2 h2 x2 h3 => le_trans (hle y2 h2 x2 h3) (h.le y2 h2 x2 h3), ?_, ?_⟩,
          ⟨rfl, rfl, rfl, hle, fun q hq => List.mem_append_left _ hq, ?_⟩, ?_, ?_⟩
        · intro q hq
          rcases List.mem_append.mp hq with hq | hq
          · exact h.bnd q hq
          · rw [List.mem_singleton] at hq; rw [hq]; exact ⟨e1, e2⟩
        · intro y2 h2 x2 h3
          by_cases e : y2 = y ∧ x2 = x
          · left; rw [e.1, e.2]; exact List.mem_append_right _ (by simp)
          · rcases h.inv y2 h2 x2 h3 with h' | h'
            · exact Or.inl (List.mem_append_left _ h')
            · right
              exact PixStable.mono (c := cto) (c' := cto.put y x (cfrom.val g y' x') (cfrom.dom y' x') (cto.current ++ [(y, x)])) rfl rfl (fun _ _ _ => rfl) (by rw [h.ok.put_dom e1 e2 h3, if_neg e]) hle h'
        · intro y2 h2 x2 h3
          by_cases e : y2 = y ∧ x2 = x
          · right; rw [e.1, e.2]; exact List.mem_append_right _ (by simp)
          · left; rw [h.ok.put_val e1 e2 h3, if_neg e, h.ok.put_dom e1 e2 h3, if_neg e]; exact ⟨rfl, rfl⟩
        · have := h.ok.put_meas e1 e2 hi (by rw [← hv]; exact hlt) (cfrom.dom y' x') (cto.current ++ [(y, x)])
          rw [← hv] at this
          have hl : (cto.put y x (cfrom.val g y' x') (cfrom.dom y' x') (cto.current ++ [(y, x)])).current.length = cto.current.length + 1 := by
            simp [DCell.put]
          omega
        · rw [h.ok.put_val e1 e2 e2, if_pos ⟨rfl, rfl⟩]
      · have hf : g.fetch1 cfrom cto p = cto := by
          unfold DGrid.fetch1
          rw [hp]
          simp only
          unfold DCell.val at hlt
          rw [if_neg hlt]
        rw [hf]
        exact ⟨h, Later.refl _, le_rfl, not_lt.mp hlt⟩
    obtain ⟨k1, k2, k3, k4⟩ := key
    obtain ⟨r1, r2, r3, r4⟩ := ih _ k1 (fun q hq => by
      obtain ⟨y, x, y', x', a1, a2, a3, a4, a5, a6⟩ := hps q (List.mem_cons_of_mem _ hq)
      refine ⟨y, x, y', x', by rw [k2.ny]; exact a1, by rw [k2.nx]; exact a2, a3, a4, by rw [k2.nx]; exact a5, fun i => ?_⟩
      rw [← a6 i, k1.ok.dist_eq, h.ok.dist_eq])
    refine ⟨r1, k2.trans r2, le_trans r3 k3, ?_⟩
    intro q hq z w z' w' hz hw hqe
    rcases List.mem_cons.mp hq with rfl | hq
    · have hval : (g.fetch1 cfrom cto q).val g z w ≤ cfrom.val g z' w' := by
        rw [hp] at hqe
        have a := congrArg Prod.fst hqe
        have b := congrArg Prod.snd hqe
        simp only at a b
        obtain ⟨rfl, rfl⟩ := flat_inj e2 hw a
        have : cfrom.val g z' w' = cfrom.val g y' x' := by unfold DCell.val; rw [b]
        rw [this]; exact k4
      exact le_trans (r2.low z (by rw [k2.ny]; exact hz) w (by rw [k2.nx]; exact hw)) hval
    · exact r4 q hq z w z' w' (by rw [k2.ny]; exact hz) (by rw [k2.nx]; exact hw) (by rw [k2.nx]; exact hqe)

/-- A new cell is consistent. -/
theorem CellGood.alloc (g : DGrid α) (npt by' bx : Nat) : CellGood g npt by' bx (g.alloc by' bx) := by
  have hr : ∀ (γ : Type) (n k : Nat) (a : γ), (List.replicate n a).getD k a = a := by
    intro γ n k a
    rw [List.getD_eq_getElem?_getD, List.getElem?_replicate]
    split_ifs <;> rfl
  refine ⟨CellOk.alloc g npt by' bx, fun y _ x _ => ?_, by simp [DGrid.alloc], fun y _ x _ => Or.inr ?_⟩
  · exact (hr _ _ _ _).le
  · intro i hi
    have : (g.alloc by' bx).dom y x = none := hr _ _ _ _
    rw [this] at hi; cases hi

end

end Pixell
