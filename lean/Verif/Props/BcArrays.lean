import Verif.Model.BcArrays
import Verif.Props.Broadcast
import Verif.Props.Crop
import Verif.Lemmas.Blocks
import Mathlib.Tactic.Linarith
import Mathlib.Tactic.FieldSimp
import Mathlib.Tactic.NormNum
import Mathlib.Algebra.BigOperators.Group.List.Basic
import Mathlib.Algebra.Order.BigOperators.Group.List

/-!
C183: broadcast_arrays, bincount, medmean2 (pixell/utils.py).
-/
namespace Pixell

/-- The shape of an array cut into the axes before (P) and after (Q) those that are broadcast, and these at the place where new
axes go. -/
structure BcSplit (at_ : ℤ) (s : List ℕ) (npre npost : ℕ) (P W₁ W₂ Q : List ℕ) : Prop where
  shape : s = P ++ W₁ ++ W₂ ++ Q
  pre : P.length = npre
  post : Q.length = npost
  place : (0 ≤ at_ ∧ (W₁.length : ℤ) = at_) ∨ (at_ < 0 ∧ (W₂.length : ℤ) = -1 - at_)

/-- The index used for axes of lengths ns: zero along those of length one. -/
def bcSel (ns is : List ℕ) : List ℕ := List.zipWith (fun n i => if n = 1 then 0 else i) ns is

theorem bcSel_append {a b c d : List ℕ} (h : a.length = c.length) : bcSel (a ++ b) (c ++ d) = bcSel a c ++ bcSel b d :=
  List.zipWith_append h

theorem bcSel_length {a c : List ℕ} (h : a.length = c.length) : (bcSel a c).length = c.length := by
  simp [bcSel, h]

theorem bcSel_range {ns is : List ℕ} (h : List.Forall₂ (· < ·) is ns) : bcSel ns is = is := by
  induction h with
  | nil => rfl
  | @cons i n is ns h1 h2 ih =>
    show (if n = 1 then 0 else i) :: bcSel ns is = _
    rw [ih]
    split
    · have : i = 0 := by omega
      rw [this]
    · rfl

/-- Lengths that can be broadcast to those of o. -/
def BcCompat (p o : List ℕ) : Prop := List.Forall₂ (fun n c => n = 1 ∨ n = c) p o

theorem bcCompat_all {p o : List ℕ} (h : BcCompat p o) :
    p.length = o.length ∧ (List.zipWith (fun n c => n == c || n == 1) p o).all id = true := by
  induction h with
  | nil => simp
  | @cons a b l l' h1 h2 ih =>
    refine ⟨by simp [ih.1], ?_⟩
    simp only [List.zipWith_cons_cons, List.all_cons, ih.2, Bool.and_true, id]
    rcases h1 with rfl | rfl <;> simp

theorem bcCompat_refl (p : List ℕ) : BcCompat p p := by
  induction p with
  | nil => exact .nil
  | cons a l ih => exact .cons (Or.inr rfl) ih

theorem bcOne_spec {α : Type} {at_ : ℤ} {a : Nd α} {npre npost : ℕ} {P W₁ W₂ Q o : List ℕ} (h : BcSplit at_ a.shape npre npost P W₁ W₂ Q)
    (hl : W₁.length + W₂.length ≤ o.length)
    (hc : BcCompat (W₁ ++ List.replicate (o.length - (W₁.length + W₂.length)) 1 ++ W₂) o) :
    ∃ b, bcOne o at_ npre npost a = some b ∧ b.shape = P ++ o ++ Q ∧
      ∀ pre w₁ w w₂ post : List ℕ, List.Forall₂ (· < ·) pre P → List.Forall₂ (· < ·) post Q → w₁.length = W₁.length → w₂.length = W₂.length →
        (w₁ ++ w ++ w₂).length = o.length →
        b.get (pre ++ (w₁ ++ w ++ w₂) ++ post) = a.get (pre ++ (bcSel W₁ w₁ ++ bcSel W₂ w₂) ++ post) := by
  obtain ⟨hs, h1, h2, h3⟩ := h
  have hlen : a.shape.length = P.length + W₁.length + W₂.length + Q.length := by rw [hs]; simp; omega
  have hk : o.length - (a.shape.length - npre - npost) = o.length - (W₁.length + W₂.length) := by omega
  have hat : (if at_ ≥ 0 then (npre : ℤ) + at_ else (a.shape.length : ℤ) + 1 + at_ - npost).toNat = (P ++ W₁).length := by
    rw [List.length_append]
    split <;> omega
  set k := o.length - (W₁.length + W₂.length) with hkd
  have ht : a.shape.take (P ++ W₁).length = P ++ W₁ := by
    rw [hs, List.append_assoc (P ++ W₁)]
    exact List.take_left
  have hd : a.shape.drop (P ++ W₁).length = W₂ ++ Q := by
    rw [hs, List.append_assoc (P ++ W₁)]
    exact List.drop_left
  have htp : a.shape.take npre = P := by
    rw [hs, ← h1, List.append_assoc, List.append_assoc]
    exact List.take_left
  have hdq : a.shape.drop (a.shape.length - npost) = Q := by
    have : a.shape.length - npost = (P ++ W₁ ++ W₂).length := by simp; omega
    rw [this, hs]
    exact List.drop_left
  have hb : a.newAxes (if at_ ≥ 0 then (npre : ℤ) + at_ else (a.shape.length : ℤ) + 1 + at_ - npost) k =
      some ⟨P ++ W₁ ++ List.replicate k 1 ++ (W₂ ++ Q), fun idx => a.get (idx.take (P ++ W₁).length ++ idx.drop ((P ++ W₁).length + k))⟩ := by
    unfold Nd.newAxes
    simp only [hat, ht, hd]
    rw [if_neg (by simp; omega)]
  have hcc : BcCompat (P ++ W₁ ++ List.replicate k 1 ++ (W₂ ++ Q)) (P ++ o ++ Q) := by
    have : P ++ W₁ ++ List.replicate k 1 ++ (W₂ ++ Q) = P ++ (W₁ ++ List.replicate k 1 ++ W₂) ++ Q := by simp
    rw [this]
    exact List.rel_append (List.rel_append (bcCompat_refl P) hc) (bcCompat_refl Q)
  obtain ⟨g1, g2⟩ := bcCompat_all hcc
  refine ⟨⟨P ++ o ++ Q, fun idx => (fun idx => a.get (idx.take (P ++ W₁).length ++ idx.drop ((P ++ W₁).length + k)))
    (List.zipWith (fun n i => if n = 1 then 0 else i) (P ++ W₁ ++ List.replicate k 1 ++ (W₂ ++ Q)) idx)⟩, ?_, rfl, ?_⟩
  · unfold bcOne
    simp only [hk, htp, hdq, hb, Option.bind_eq_bind, Option.bind_some]
    unfold Nd.broadcastTo
    rw [if_pos ⟨g1, g2⟩]
  · intro pre w₁ w w₂ post r1 r2 l1 l2 l3
    have lw : w.length = k := by
      rw [List.length_append, List.length_append] at l3
      omega
    have lp := r1.length_eq
    have lq := r2.length_eq
    show a.get _ = _
    have e : List.zipWith (fun n i => if n = 1 then 0 else i) (P ++ W₁ ++ List.replicate k 1 ++ (W₂ ++ Q)) (pre ++ (w₁ ++ w ++ w₂) ++ post) =
        (pre ++ bcSel W₁ w₁) ++ (bcSel (List.replicate k 1) w ++ (bcSel W₂ w₂ ++ post)) := by
      have : pre ++ (w₁ ++ w ++ w₂) ++ post = pre ++ w₁ ++ w ++ (w₂ ++ post) := by simp
      rw [this]
      change bcSel _ _ = _
      rw [bcSel_append (by simp; omega), bcSel_append (by simp; omega), bcSel_append (by omega), bcSel_append (by omega), bcSel_range r1,
        bcSel_range r2, List.append_assoc]
    have lpw : (P ++ W₁).length = (pre ++ bcSel W₁ w₁).length := by
      rw [List.length_append, List.length_append, bcSel_length l1.symm]; omega
    have lk : k = (bcSel (List.replicate k 1) w).length := by
      rw [bcSel_length (by simpa using lw.symm), lw]
    simp only [e]
    congr 1
    rw [lpw, List.take_left, ← List.drop_drop, List.drop_left]
    have : ∀ A B : List ℕ, k = A.length → (A ++ B).drop k = B := by
      intro A B h
      rw [h, List.drop_left]
    rw [this _ _ lk]
    simp only [List.append_assoc]

/-- What broadcast_arrays returns for one of its arguments. -/
def BcResult {α : Type} (at_ : ℤ) (o : List ℕ) (x : Option (Nd α) × ℕ × ℕ) (r : Option (Nd α)) : Prop :=
  (x.1 = none → r = none) ∧
  ∀ a, x.1 = some a → ∃ b, r = some b ∧ ∀ P W₁ W₂ Q, BcSplit at_ a.shape x.2.1 x.2.2 P W₁ W₂ Q → b.shape = P ++ o ++ Q ∧
    ∀ pre w₁ w w₂ post : List ℕ, List.Forall₂ (· < ·) pre P → List.Forall₂ (· < ·) post Q → w₁.length = W₁.length → w₂.length = W₂.length →
      (w₁ ++ w ++ w₂).length = o.length →
      b.get (pre ++ (w₁ ++ w ++ w₂) ++ post) = a.get (pre ++ (bcSel W₁ w₁ ++ bcSel W₂ w₂) ++ post)

theorem BcSplit.work {at_ : ℤ} {s P W₁ W₂ Q : List ℕ} {n m : ℕ} (h : BcSplit at_ s n m P W₁ W₂ Q) : bcWork s n m = W₁ ++ W₂ := by
  obtain ⟨hs, h1, h2, -⟩ := h
  unfold bcWork
  have : s.length - m = (P ++ W₁ ++ W₂).length := by rw [hs]; simp; omega
  rw [this, hs, List.take_left, ← h1, List.append_assoc, List.drop_left]

theorem BcSplit.pad {at_ : ℤ} {s P W₁ W₂ Q : List ℕ} {n m ndim : ℕ} (h : BcSplit at_ s n m P W₁ W₂ Q) :
    padShape ndim at_ (W₁ ++ W₂) = W₁ ++ List.replicate (ndim - (W₁.length + W₂.length)) 1 ++ W₂ := by
  have e : (if at_ ≥ 0 then at_ else (((W₁ ++ W₂).length : ℕ) : ℤ) + 1 + at_) = W₁.length := by
    rw [List.length_append]
    rcases h.place with ⟨h1, h2⟩ | ⟨h1, h2⟩
    · rw [if_pos h1, h2]
    · rw [if_neg (by omega)]; push_cast; omega
  unfold padShape
  simp only [e]
  rw [if_pos (by omega)]
  simp only [Int.toNat_natCast, List.take_left, List.drop_left, List.length_append]

/-- **C183_broadcast.** If every array has the place for new axes among those that are broadcast, broadcast_arrays passes None
through, and returns each array with its first npre and last npost axes as they are and the common shape between them: its
elements are those of the array, whatever the index along the new axes and along those of length one. -/
theorem C183_broadcast {α : Type} (arrays : List (Option (Nd α) × ℕ × ℕ)) (at_ : ℤ) (o : List ℕ)
    (ho : broadcastShape (arrays.filterMap fun x => x.1.map fun a => bcWork a.shape x.2.1 x.2.2) at_ = some o)
    (hs : ∀ x ∈ arrays, ∀ a, x.1 = some a → ∃ P W₁ W₂ Q, BcSplit at_ a.shape x.2.1 x.2.2 P W₁ W₂ Q) :
    ∃ res, bcArrays arrays at_ = some res ∧ List.Forall₂ (BcResult at_ o) arrays res := by
  unfold bcArrays
  rw [ho]
  simp only [Option.bind_eq_bind, Option.bind_some]
  set shapes := arrays.filterMap fun x => x.1.map fun a => bcWork a.shape x.2.1 x.2.2 with hsh
  have hne : shapes ≠ [] := by
    intro e
    rw [e] at ho
    simp [broadcastShape] at ho
  obtain ⟨ndim, hle, -, hb, -⟩ := C115_broadcast shapes hne at_
  obtain ⟨hol, hbc⟩ := (hb o).1 ho
  have hmem : ∀ x ∈ arrays, ∀ a, x.1 = some a → bcWork a.shape x.2.1 x.2.2 ∈ shapes := by
    intro x hx a ha
    rw [hsh, List.mem_filterMap]
    exact ⟨x, hx, by rw [ha]; rfl⟩
  clear_value shapes
  clear hsh ho hb
  have hone : ∀ x ∈ arrays, ∀ a, x.1 = some a → ∃ b, bcOne o at_ x.2.1 x.2.2 a = some b ∧
      ∀ P W₁ W₂ Q, BcSplit at_ a.shape x.2.1 x.2.2 P W₁ W₂ Q → b.shape = P ++ o ++ Q ∧
    ∀ pre w₁ w w₂ post : List ℕ, List.Forall₂ (· < ·) pre P → List.Forall₂ (· < ·) post Q → w₁.length = W₁.length → w₂.length = W₂.length →
      (w₁ ++ w ++ w₂).length = o.length →
      b.get (pre ++ (w₁ ++ w ++ w₂) ++ post) = a.get (pre ++ (bcSel W₁ w₁ ++ bcSel W₂ w₂) ++ post) := by
    intro x hx a ha
    have key : ∀ P W₁ W₂ Q, BcSplit at_ a.shape x.2.1 x.2.2 P W₁ W₂ Q → W₁.length + W₂.length ≤ o.length ∧
        BcCompat (W₁ ++ List.replicate (o.length - (W₁.length + W₂.length)) 1 ++ W₂) o := by
      intro P W₁ W₂ Q h
      have hm := hmem x hx a ha
      rw [h.work] at hm
      have hl := hle _ hm
      rw [List.length_append] at hl
      refine ⟨by omega, ?_⟩
      have hp : padShape ndim at_ (W₁ ++ W₂) ∈ shapes.map (padShape ndim at_) := List.mem_map_of_mem hm
      rw [h.pad] at hp
      rw [hol]
      unfold BcCompat
      rw [List.forall₂_iff_get]
      refine ⟨by simp only [List.length_append, List.length_replicate]; omega, ?_⟩
      intro i h1 h2
      have := (hbc i h2).1 _ hp
      rw [List.getElem?_eq_getElem h1] at this
      simpa only [Option.some.injEq, List.get_eq_getElem] using this
    obtain ⟨P, W₁, W₂, Q, h⟩ := hs x hx a ha
    obtain ⟨b, hb, -⟩ := bcOne_spec h (key _ _ _ _ h).1 (key _ _ _ _ h).2
    refine ⟨b, hb, ?_⟩
    intro P W₁ W₂ Q h
    obtain ⟨b', hb', r⟩ := bcOne_spec h (key _ _ _ _ h).1 (key _ _ _ _ h).2
    obtain rfl : b = b' := by rw [hb] at hb'; exact Option.some.inj hb'
    exact r
  clear hmem hs
  induction arrays with
  | nil => exact ⟨[], rfl, .nil⟩
  | cons x l ih =>
    obtain ⟨rs, h1, h2⟩ := ih (fun y hy => hone y (List.mem_cons_of_mem _ hy))
    rw [List.mapM_cons]
    rcases hx : x.1 with _ | a
    · refine ⟨none :: rs, ?_, .cons ?_ h2⟩
      · simp only [h1]; rfl
      · refine ⟨fun _ => rfl, ?_⟩
        intro a ha
        rw [hx] at ha; cases ha
    · obtain ⟨b, hb, r⟩ := hone x List.mem_cons_self a hx
      refine ⟨some b :: rs, ?_, .cons ?_ h2⟩
      · simp only [hb, h1]; rfl
      · refine ⟨fun h => absurd h (by rw [hx]; simp), ?_⟩
        intro a' ha'
        obtain rfl : a = a' := by rw [hx] at ha'; exact Option.some.inj ha'
        exact ⟨b, rfl, r⟩

/-- An array of components and positions (3,2), one axis of components kept, and one of positions only. -/
example : ∃ res, bcArrays [(some ⟨[3, 2], fun i => i⟩, 1, 0), (none, 0, 0), (some ⟨[4, 1], fun i => i⟩, 0, 0)] 0 = some res ∧
    res.map (fun r => r.map Nd.shape) = [some [3, 4, 2], none, some [4, 2]] ∧
    (res.map fun r => r.map fun b => b.get [2, 1, 1]) = [some [2, 1], none, some [2, 0]] := by
  refine ⟨_, rfl, ?_, ?_⟩ <;> decide

/-- **C183_place_refuted.** For a place past the broadcast axes of an array the new axes go among its last npost ones: element
(i,j,k) of the result is then a[i,j], not a[i,k], without an error; and shapes that can be broadcast so raise if the lengths differ. -/
theorem C183_place_refuted :
    (∃ res : List (Option (Nd (List ℕ))), bcArrays [(some ⟨[2, 3], fun i => i⟩, 0, 1), (some ⟨[2, 3, 5], fun i => i⟩, 0, 1)] 2 = some res ∧
      res.map (fun r => r.map Nd.shape) = [some [2, 3, 3], some [2, 3, 5]] ∧
      ∀ i j k, i < 2 → j < 3 → k < 3 → (res.map fun r => r.map fun b => b.get [i, j, k])[0]? = some (some [i, j])) ∧
    bcArrays (α := List ℕ) [(some ⟨[2, 4], fun i => i⟩, 0, 1), (some ⟨[2, 3, 5], fun i => i⟩, 0, 1)] 2 = none ∧
    broadcastShape [[2], [2, 3]] 2 = some [2, 3] := by
  refine ⟨⟨_, rfl, by decide, ?_⟩, by rfl, by decide⟩
  intro i j k _ _ _
  rfl

/-! ### bincount -/

theorem npBincount_length (n : ℕ) (p : List ℕ) (w : List ℚ) : (npBincount n p w).length = n := by simp [npBincount]

theorem npBincount_sum (n : ℕ) (p : List ℕ) (w : List ℚ) (hl : p.length = w.length) (h : ∀ x ∈ p, x < n) : (npBincount n p w).sum = w.sum := by
  induction p generalizing w with
  | nil =>
    obtain rfl : w = [] := List.length_eq_zero_iff.1 hl.symm
    simp [npBincount]
  | cons a p ih =>
    obtain _ | ⟨b, w⟩ := w
    · simp at hl
    · have e : npBincount n (a :: p) (b :: w) = (List.range n).map fun v => (if a = v then b else 0) + ((p.zip w).map fun x => if x.1 = v then x.2 else 0).sum := by
        simp [npBincount]
      rw [e, List.sum_map_add]
      have : ((List.range n).map fun v => ((p.zip w).map fun x => if x.1 = v then x.2 else 0).sum).sum = w.sum :=
        ih w (by simpa using hl) (fun x hx => h x (List.mem_cons_of_mem _ hx))
      rw [this, List.sum_cons]
      congr 1
      have ha := h a List.mem_cons_self
      clear * - ha
      induction n with
      | zero => omega
      | succ n ih =>
        rw [List.range_succ, List.map_append, List.sum_append]
        by_cases h : a = n
        · subst h
          have : ((List.range a).map fun v => if a = v then b else 0).sum = 0 := by
            apply List.sum_eq_zero
            intro x hx
            obtain ⟨v, hv, rfl⟩ := List.mem_map.1 hx
            rw [if_neg]
            have := List.mem_range.1 hv
            omega
          rw [this]; simp
        · rw [ih (by omega)]
          simp [h]

/-- Weights that an array of the type holds exactly, together with all their sums. -/
def WType.exact (t : WType) (w : List ℚ) : Prop :=
  match t with
  | .float => True
  | .int => ∀ x ∈ w, ∃ k : ℤ, x = k
  | .bool => False

/-- **C183_bincount.** With weights that are numbers (not booleans) bincount returns rows of one length, at least minlength and
more than all pixel numbers, with in each place the sum of the weights of the samples of that row there, so that no weight is lost. -/
theorem C183_bincount (pix : List (List ℕ)) (t : WType) (w : List (List ℚ)) (minlength : ℕ) (hne : pix.flatten ≠ [])
    (hl : List.Forall₂ (fun p v : List _ => p.length = v.length) pix w) (hw : ∀ v ∈ w, t.exact v) :
    ∃ res n, binCount pix (some (t, w)) minlength = some res ∧ minlength ≤ n ∧ (∀ x ∈ pix.flatten, x < n) ∧ res.length = pix.length ∧
      ∀ r (hr : r < pix.length) (hr' : r < w.length), ∃ row, res[r]? = some row ∧ row.length = n ∧ row.sum = w[r].sum ∧
        ∀ v < n, row[v]? = some (((pix[r].zip w[r]).filter fun x => x.1 = v).map Prod.snd).sum := by
  have hn : ∀ x ∈ pix.flatten, x < max (pix.flatten.foldl max 0 + 1) minlength := by
    intro x hx
    have := (le_foldl_max pix.flatten 0).2 x hx
    omega
  refine ⟨_, max (pix.flatten.foldl max 0 + 1) minlength, by unfold binCount; rw [if_neg hne], le_max_right _ _, hn, by simp, ?_⟩
  intro r hr hr'
  have hl1 : pix[r].length = w[r].length := (List.forall₂_iff_get.1 hl).2 r hr hr'
  set n := max (pix.flatten.foldl max 0 + 1) minlength
  have hsub : ∀ x ∈ pix[r], x < n := fun x hx => hn x (List.mem_flatten.2 ⟨_, List.getElem_mem hr, hx⟩)
  have hcast : (npBincount n pix[r] w[r]).map t.cast = npBincount n pix[r] w[r] := by
    have hex := hw w[r] (List.getElem_mem hr')
    conv_rhs => rw [← List.map_id (npBincount n pix[r] w[r])]
    apply List.map_congr_left
    intro x hx
    cases t with
    | float => rfl
    | bool => exact absurd hex id
    | int =>
      have : ∃ k : ℤ, x = k := by
        obtain ⟨v, -, rfl⟩ := List.mem_map.1 hx
        have : ∀ l : List ℚ, (∀ x ∈ l, ∃ k : ℤ, x = k) → ∃ k : ℤ, l.sum = k := by
          intro l h
          induction l with
          | nil => exact ⟨0, by simp⟩
          | cons a l ih =>
            obtain ⟨k, hk⟩ := ih fun x hx => h x (List.mem_cons_of_mem _ hx)
            obtain ⟨j, hj⟩ := h a List.mem_cons_self
            exact ⟨j + k, by rw [List.sum_cons, hk, hj]; push_cast; rfl⟩
        apply this
        intro x hx
        obtain ⟨y, hy, rfl⟩ := List.mem_map.1 hx
        split
        · exact hex _ (List.of_mem_zip hy).2
        · exact ⟨0, by simp⟩
      obtain ⟨k, rfl⟩ := this
      simp [WType.cast]
  refine ⟨npBincount n pix[r] w[r], ?_, npBincount_length _ _ _, npBincount_sum _ _ _ hl1 hsub, ?_⟩
  · rw [List.getElem?_map, List.getElem?_range hr]
    simp only [Option.map_some, List.getD_eq_getElem?_getD, List.getElem?_eq_getElem hr, List.getElem?_eq_getElem hr', Option.getD_some]
    rw [hcast]
  · intro v hv
    unfold npBincount
    rw [List.getElem?_map, List.getElem?_range hv, Option.map_some]
    congr 1
    induction pix[r].zip w[r] with
    | nil => rfl
    | cons a l ih =>
      rw [List.map_cons, List.sum_cons, ih, List.filter_cons]
      by_cases h : a.1 = v <;> simp [h]

example : binCount [[0, 2, 0], [1, 1, 1]] (some (.int, [[1, 2, 3], [-4, 5, 6]])) 4 = some [[4, 0, 2, 0], [0, 7, 0, 0]] := by decide +kernel

/-- **C183_count.** Without weights bincount returns how often each number is in each row. -/
theorem C183_count (pix : List (List ℕ)) (minlength : ℕ) (hne : pix.flatten ≠ []) :
    ∃ res n, binCount pix none minlength = some res ∧ minlength ≤ n ∧ (∀ x ∈ pix.flatten, x < n) ∧ res.length = pix.length ∧
      ∀ r (hr : r < pix.length), ∃ row, res[r]? = some row ∧ row.length = n ∧ ∀ v < n, row[v]? = some (pix[r].count v : ℚ) := by
  have hn : ∀ x ∈ pix.flatten, x < max (pix.flatten.foldl max 0 + 1) minlength := by
    intro x hx
    have := (le_foldl_max pix.flatten 0).2 x hx
    omega
  refine ⟨_, max (pix.flatten.foldl max 0 + 1) minlength, by unfold binCount; rw [if_neg hne], le_max_right _ _, hn, by simp, ?_⟩
  intro r hr
  refine ⟨_, ?_, npBincount_length _ pix[r] (pix[r].map fun _ : ℕ => 1), ?_⟩
  · rw [List.getElem?_map, List.getElem?_range hr]
    simp only [Option.map_some, List.getD_eq_getElem?_getD, List.getElem?_eq_getElem hr, Option.getD_some]
  · intro v hv
    unfold npBincount
    rw [List.getElem?_map, List.getElem?_range hv, Option.map_some]
    congr 1
    induction pix[r] with
    | nil => rfl
    | cons a l ih =>
      rw [List.map_cons, List.zip_cons_cons, List.map_cons, List.sum_cons, ih, List.count_cons]
      by_cases h : a = v <;> simp [h, add_comm]

/-- **C183_bool_refuted.** For boolean weights the result is boolean too: any number of hits counts once, although np.bincount counts
them; and no samples at all raise, although minlength asks for zeros. -/
theorem C183_bool_refuted (k minlength : ℕ) :
    binCount [List.replicate (k + 1) 0] (some (.bool, [List.replicate (k + 1) 1])) 1 = some [[1]] ∧
    binCount [[]] none minlength = none := by
  constructor
  · unfold binCount
    rw [if_neg (by simp [List.replicate_succ])]
    have : (List.flatten [List.replicate (k + 1) 0]).foldl max 0 = 0 := by
      simp only [List.flatten_cons, List.flatten_nil, List.append_nil]
      generalize k + 1 = m
      induction m with
      | zero => rfl
      | succ m ih => rw [List.replicate_succ]; exact ih
    rw [this]
    have hs : (npBincount 1 (List.replicate (k + 1) 0) (List.replicate (k + 1) 1)) = [(k : ℚ) + 1] := by
      simp [npBincount]
    simp only [List.length_cons, List.length_nil, zero_add, max_self, List.range_one, List.map_cons, List.map_nil, List.getD_cons_zero, hs, WType.cast]
    rw [if_neg (by positivity)]
  · simp [binCount]

/-! ### medmean2 -/

theorem meanQ_mem {l : List ℚ} (hne : l ≠ []) {lo hi : ℚ} (h : ∀ x ∈ l, lo ≤ x ∧ x ≤ hi) : lo ≤ meanQ l ∧ meanQ l ≤ hi := by
  have hp : (0 : ℚ) < l.length := by exact_mod_cast List.length_pos_iff.2 hne
  unfold meanQ
  rw [le_div_iff₀ hp, div_le_iff₀ hp]
  have h1 := List.card_nsmul_le_sum l lo fun x hx => (h x hx).1
  have h2 := List.sum_le_card_nsmul l hi fun x hx => (h x hx).2
  simp only [nsmul_eq_mul] at h1 h2
  constructor <;> linarith

/-- **C183_medmean.** For a block size b of at least one the array is cut into blocks of b samples, the last of which may be
shorter, and medmean2 is not moved by outliers as long as they are in less than half of the blocks: if the samples of more than
half of the blocks are between lo and hi, so is the result. -/
theorem C183_medmean (x : List ℚ) (hx : x ≠ []) (frac : ℚ) (bsize : Option ℕ) (b : ℕ) (hb : 0 < b)
    (hbs : bsize = some b ∨ (bsize = none ∧ bsizeOf x.length frac = b)) :
    ∃ (blocks : List (List ℚ)) (m : ℚ), blocks.flatten = x ∧ (∀ k ∈ blocks, k ≠ [] ∧ k.length ≤ b) ∧ (∀ k ∈ blocks.dropLast, k.length = b) ∧
      medmean2 x frac bsize = some m ∧
      ∀ lo hi : ℚ, blocks.length < 2 * blocks.countP (fun k => k.all fun v => decide (lo ≤ v ∧ v ≤ hi)) → lo ≤ m ∧ m ≤ hi := by
  have hB : bsize.getD (bsizeOf x.length frac).toNat = b := by
    rcases hbs with rfl | ⟨rfl, h⟩
    · rfl
    · simp [h]
  obtain ⟨blocks, hflat, hlen, hdl, hred⟩ : ∃ blocks : List (List ℚ), blocks.flatten = x ∧ (∀ k ∈ blocks, k ≠ [] ∧ k.length ≤ b) ∧
      (∀ k ∈ blocks.dropLast, k.length = b) ∧ blockReduce meanQ x b 0 true = some (blocks.map meanQ) := by
    by_cases h1 : b = 1
    · subst h1
      refine ⟨x.map fun v => [v], ?_, ?_, ?_, ?_⟩
      · clear hx hbs hB
        induction x with
        | nil => rfl
        | cons a l ih => simpa using ih
      · intro k hk
        obtain ⟨v, -, rfl⟩ := List.mem_map.1 hk
        simp
      · intro k hk
        obtain ⟨v, -, rfl⟩ := List.mem_map.1 (List.mem_of_mem_dropLast hk)
        rfl
      · simp [blockReduce, meanQ, Function.comp_def]
    · obtain ⟨P, M, T, hsh, hf, -⟩ := exists_shape x 0 b hb (Nat.zero_le _)
      have hP := hsh.pre0 rfl
      subst hP
      have hne := hsh.nonempty hb
      rw [List.nil_append] at hf hne
      have hMT : M ++ T ≠ [] := by
        intro e
        rw [e] at hf
        exact hx hf.symm
      have hall : ∀ k ∈ M ++ T, k.length ≤ b := by
        intro k hk
        rcases List.mem_append.1 hk with hk | hk
        · exact (hsh.mid k hk).le
        · rcases hsh.tail with rfl | ⟨t, rfl, -, h2⟩
          · simp at hk
          · obtain rfl := List.mem_singleton.1 hk
            omega
      refine ⟨M ++ T, hf, fun k hk => ⟨hne k hk, hall k hk⟩, ?_, ?_⟩
      · intro k hk
        rcases hsh.tail with rfl | ⟨t, rfl, -, h2⟩
        · rw [List.append_nil] at hk
          exact hsh.mid k (List.mem_of_mem_dropLast hk)
        · rw [List.dropLast_concat] at hk
          exact hsh.mid k hk
      · have := blockReduce_shape meanQ 0 b [] M T hsh (by omega) true
        rw [List.nil_append] at this
        rw [← hf, this, if_pos rfl, if_neg hMT]
  have hbne : blocks ≠ [] := by
    rintro rfl
    exact hx hflat.symm
  obtain ⟨m, hm, h1, h2, -⟩ := (C69_median ((blocks.map meanQ).map some)).2 (blocks.map meanQ) rfl (by simpa using hbne)
  refine ⟨blocks, m, hflat, hlen, hdl, ?_, ?_⟩
  · unfold medmean2
    rw [hB, if_neg (by omega), hred]
    exact hm
  · intro lo hi hc
    rw [List.length_map, List.countP_map] at h1 h2
    constructor
    · by_contra hlt
      have : blocks.countP (fun k => k.all fun v => decide (lo ≤ v ∧ v ≤ hi)) ≤ blocks.countP ((fun x => decide (m < x)) ∘ meanQ) := by
        apply List.countP_mono_left
        intro k hk hall
        have := (meanQ_mem (hlen k hk).1 (lo := lo) (hi := hi) fun v hv => by simpa using List.all_eq_true.1 hall v hv).1
        simp only [Function.comp_apply, decide_eq_true_eq]
        linarith
      omega
    · by_contra hlt
      have : blocks.countP (fun k => k.all fun v => decide (lo ≤ v ∧ v ≤ hi)) ≤ blocks.countP ((fun x => decide (x < m)) ∘ meanQ) := by
        apply List.countP_mono_left
        intro k hk hall
        have := (meanQ_mem (hlen k hk).1 (lo := lo) (hi := hi) fun v hv => by simpa using List.all_eq_true.1 hall v hv).2
        simp only [Function.comp_apply, decide_eq_true_eq]
        linarith
      omega

example : medmean2 [1, 3, 1000, -900, 2, 4, 7] 0 (some 2) = some 5 := by decide +kernel

/-- **C183_short_refuted.** With the default fraction medmean2 raises for every array of at most five samples, and for six to
fourteen it takes no means at all: it is the median of the samples. -/
theorem C183_short_refuted (x : List ℚ) : (x.length ≤ 5 → medmean2 x (1 / 10) none = none) ∧
    (6 ≤ x.length → x.length ≤ 14 → medmean2 x (1 / 10) none = npMedian (x.map some)) := by
  have e : ∀ n ≤ 14, bsizeOf n (1 / 10) = if n ≤ 5 then 0 else 1 := by decide +kernel
  constructor
  · intro h
    unfold medmean2
    rw [Option.getD_none, e _ (by omega), if_pos h]
    rfl
  · intro h1 h2
    unfold medmean2
    have e1 : bsizeOf x.length (1 / 10) = 1 := by rw [e _ h2, if_neg (by omega)]
    rw [Option.getD_none, e1]
    simp [blockReduce]

end Pixell
