import Mathlib.Data.List.Perm.Basic
import Verif.Lemmas.SBoxWrap
import Verif.Props.SBoxAlgebra
/-
Sequences of element updates.
-/
namespace Pixell
open PySpec

/-- Updates whose targets avoid `t` leave `t` alone. -/
theorem foldl_upd_frame {α β} (ws : List β) (tgt : β → Int × Int) (val : Arr α → β → α) (f : Arr α)
    (t : Int × Int) (h : ∀ p ∈ ws, tgt p ≠ t) :
    (ws.foldl (fun o p => upd o (tgt p) (val o p)) f) t = f t := by
  induction ws generalizing f with
  | nil => rfl
  | cons w ws ih =>
    rw [List.foldl_cons, ih _ (fun p hp => h p (List.mem_cons_of_mem _ hp))]
    simp only [upd]
    rw [if_neg (fun he => h w List.mem_cons_self he.symm)]

/-- With distinct targets each target is updated once, from its original value. -/
theorem foldl_upd_hit {α β} (ws : List β) (tgt : β → Int × Int) (g : α → β → α) (f : Arr α)
    (hn : (ws.map tgt).Nodup) (p : β) (hp : p ∈ ws) :
    (ws.foldl (fun o q => upd o (tgt q) (g (o (tgt q)) q)) f) (tgt p) = g (f (tgt p)) p := by
  induction ws generalizing f with
  | nil => simp at hp
  | cons w ws ih =>
    rw [List.map_cons, List.nodup_cons] at hn
    rw [List.foldl_cons]
    rcases List.mem_cons.1 hp with rfl | hp
    · rw [foldl_upd_frame ws tgt (fun o q => g (o (tgt q)) q)]
      · simp [upd]
      · intro q hq he
        exact hn.1 (List.mem_map.2 ⟨q, hq, he⟩)
    · rw [ih _ hn.2 hp]
      congr 1
      simp only [upd]
      rw [if_neg]
      intro he
      exact hn.1 (List.mem_map.2 ⟨p, hp, he⟩)

theorem mem_writesOf (ys xs : List (List (Int × Int))) (a b c d : Int) :
    ((a, b), (c, d)) ∈ writesOf ys xs ↔ (a, c) ∈ ys.flatten ∧ (b, d) ∈ xs.flatten := by
  simp only [writesOf, List.mem_flatMap, List.mem_map, Prod.mk.injEq, List.mem_flatten]
  constructor
  · rintro ⟨py, hpy, px, hpx, y, hy, x, hx, ⟨rfl, rfl⟩, rfl, rfl⟩
    exact ⟨⟨py, hpy, hy⟩, px, hpx, hx⟩
  · rintro ⟨⟨py, hpy, hy⟩, px, hpx, hx⟩
    exact ⟨py, hpy, px, hpx, _, hy, _, hx, ⟨rfl, rfl⟩, rfl, rfl⟩

theorem flatMap_swap_perm {α β γ} (l1 : List α) (l2 : List β) (f : α → β → List γ) :
    (l1.flatMap fun a => l2.flatMap fun b => f a b).Perm (l2.flatMap fun b => l1.flatMap fun a => f a b) := by
  induction l1 with
  | nil => simp
  | cons a l1 ih =>
    simp only [List.flatMap_cons]
    exact (List.Perm.append_left _ ih).trans (List.flatMap_append_perm l2 (fun b => f a b) _)

/-- The updates are, up to order, the product of the two axes. -/
theorem writesOf_perm (ys xs : List (List (Int × Int))) :
    (writesOf ys xs).Perm
      (ys.flatten.flatMap fun y => xs.flatten.map fun x => ((y.1, x.1), (y.2, x.2))) := by
  unfold writesOf
  have e : (ys.flatten.flatMap fun y => xs.flatten.map fun x => ((y.1, x.1), (y.2, x.2)))
      = ys.flatMap fun py => py.flatMap fun y => xs.flatMap fun px => px.map fun x => ((y.1, x.1), (y.2, x.2)) := by
    simp only [List.flatten_eq_flatMap, List.flatMap_assoc, id, List.map_flatMap]
  rw [e]
  apply List.Perm.flatMap_left
  intro py _
  exact flatMap_swap_perm xs py _

theorem nodup_prod {α β γ δ : Type} (ys : List α) (xs : List β) (f : α → γ) (g : β → δ)
    (hy : (ys.map f).Nodup) (hx : (xs.map g).Nodup) :
    (ys.flatMap fun y => xs.map fun x => (f y, g x)).Nodup := by
  have e : (ys.flatMap fun y => xs.map fun x => (f y, g x)) = (ys.map f) ×ˢ (xs.map g) := by
    simp only [List.product, SProd.sprod, List.flatMap_map, List.map_map]
    rfl
  rw [e]
  exact hy.product hx

theorem writesOf_targets_nodup (ys xs : List (List (Int × Int))) (hy : (ys.flatten.map Prod.snd).Nodup)
    (hx : (xs.flatten.map Prod.snd).Nodup) : ((writesOf ys xs).map Prod.snd).Nodup := by
  rw [((writesOf_perm ys xs).map Prod.snd).nodup_iff, List.map_flatMap]
  simp only [List.map_map]
  exact nodup_prod _ _ _ _ hy hx

theorem writesOf_sources_nodup (ys xs : List (List (Int × Int))) (hy : (ys.flatten.map Prod.fst).Nodup)
    (hx : (xs.flatten.map Prod.fst).Nodup) : ((writesOf ys xs).map Prod.fst).Nodup := by
  rw [((writesOf_perm ys xs).map Prod.fst).nodup_iff, List.map_flatMap]
  simp only [List.map_map]
  exact nodup_prod _ _ _ _ hy hx

theorem piecePairs_good {nIn nOut : Nat} {N : Int} (p : SBox × SBox) (h : GoodPiece nIn N p) (hn : 0 < nIn)
    (hN : N ≤ nOut) : piecePairs nIn nOut p = some (pairsOf p) := by
  obtain ⟨h1, h2, h3, h4, h5, h6⟩ := h
  have e1 := C12_slice p.1 nIn h1 h4 (fun x hx => ⟨(h5 x hx).1, (h5 x hx).2 (by omega)⟩)
  have h4' : p.2.idx ≠ [] := by
    intro he
    rw [he] at h3
    exact h4 (List.eq_nil_of_length_eq_zero (by simpa using h3))
  have e2 := C12_slice p.2 nOut h2 h4' (fun k hk => ⟨(h6 k hk).1, by have := (h6 k hk).2; omega⟩)
  unfold piecePairs
  rw [e1, e2]
  simp only [h3, if_true, pairsOf]

theorem mapM_total {α β} (l : List α) (f : α → Option β) (g : α → β) (h : ∀ x ∈ l, f x = some (g x)) :
    l.mapM f = some (l.map g) := by
  induction l with
  | nil => rfl
  | cons a l ih =>
    rw [List.mapM_cons, h a List.mem_cons_self, ih (fun x hx => h x (List.mem_cons_of_mem _ hx))]
    rfl

/-- One axis of the extraction: which input index goes to which output index. -/
theorem axisPairs_spec (nIn nOut : Nat) (b : SBox) (hs : b.step = 1 ∨ b.step = -1) (w : Nat)
    (hn : 0 < nIn) (hw : w ≠ 0 → nIn ≤ w) (hN : sboxSize b ≤ nOut) :
    ∃ ps, axisPairs nIn nOut b w = some ps ∧
      (∀ x k, (x, k) ∈ ps.flatten ↔ 0 ≤ k ∧ k < sboxSize b ∧ x = wrapPos w (b.start + k * b.step) ∧
        0 ≤ x ∧ x < nIn) ∧ (ps.flatten.map Prod.snd).Nodup := by
  obtain ⟨h1, h2, h3⟩ := wrapAxis_spec b hs w nIn (by omega) (by omega)
  refine ⟨(sboxWrapAxis b w nIn).map pairsOf, ?_, ?_, ?_⟩
  · unfold axisPairs
    apply mapM_total
    intro p hp
    exact piecePairs_good p (h3 (Or.inr (by omega)) p hp) hn hN
  · intro x k
    rw [← List.flatMap_def, h1]
    have : ¬ (nIn : Int) = 0 := by omega
    simp only [this, false_or]
  · rw [← List.flatMap_def]; exact h2

theorem fst_nodup_of {ps : List (Int × Int)} (h2 : (ps.map Prod.snd).Nodup)
    (hinj : ∀ x k k', (x, k) ∈ ps → (x, k') ∈ ps → k = k') : (ps.map Prod.fst).Nodup := by
  induction ps with
  | nil => simp
  | cons p ps ih =>
    rw [List.map_cons, List.nodup_cons] at h2 ⊢
    refine ⟨?_, ih h2.2 (fun x k k' h h' => hinj x k k' (List.mem_cons_of_mem _ h) (List.mem_cons_of_mem _ h'))⟩
    intro hm
    obtain ⟨q, hq, he⟩ := List.mem_map.1 hm
    have := hinj p.1 p.2 q.2 List.mem_cons_self (by rw [← he]; exact List.mem_cons_of_mem _ hq)
    exact h2.1 (List.mem_map.2 ⟨q, hq, this.symm⟩)

end Pixell
