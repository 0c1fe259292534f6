import Verif.Model.Iter
import Verif.Lemmas.Sort
import Mathlib.Data.List.Basic

namespace Pixell

/-! ### odometers -/

/-- `L` is the list of states visited from `a` by `step` until it overflows, leaving the state `z`. -/
inductive Visits {σ : Type} (step : σ → σ × Bool) : σ → List σ → σ → Prop where
  | last {a z} : step a = (z, false) → Visits step a [a] z
  | more {a b z L} : step a = (b, true) → Visits step b L z → Visits step a (a :: L) z

theorem Visits.append {σ τ : Type} {step : σ → σ × Bool} {step' : τ → τ × Bool} (f : σ → τ) {a z : σ} {L : List σ}
    (h : Visits step a L z) (h1 : ∀ s s', step s = (s', true) → step' (f s) = (f s', true))
    {c : τ} {M : List τ} {w : τ} (h2 : ∀ s, step s = (z, false) → step' (f s) = (c, true)) (hM : Visits step' c M w) :
    Visits step' (f a) (L.map f ++ M) w := by
  induction h with
  | last e => exact Visits.more (h2 _ e) hM
  | more e _ ih => exact Visits.more (h1 _ _ e) (ih h2)

theorem Visits.map_last {σ τ : Type} {step : σ → σ × Bool} {step' : τ → τ × Bool} (f : σ → τ) {a z : σ} {L : List σ}
    (h : Visits step a L z) (h1 : ∀ s s', step s = (s', true) → step' (f s) = (f s', true))
    {w : τ} (h2 : ∀ s, step s = (z, false) → step' (f s) = (w, false)) :
    Visits step' (f a) (L.map f) w := by
  induction h with
  | last e => exact Visits.last (h2 _ e)
  | more e _ ih => exact Visits.more (h1 _ _ e) (ih h2)

/-- Putting a digit of base `b` in front of an odometer. -/
theorem Visits.lift {σ τ : Type} {step : σ → σ × Bool} {step' : τ → τ × Bool} (f : Nat → σ → τ) {z : σ} {L : List σ}
    (h : Visits step z L z) (b : Nat)
    (h1 : ∀ i s s', step s = (s', true) → step' (f i s) = (f i s', true))
    (h2 : ∀ i s, i + 1 < b → step s = (z, false) → step' (f i s) = (f (i + 1) z, true))
    (h3 : ∀ i s, i + 1 = b → step s = (z, false) → step' (f i s) = (f 0 z, false)) (hb : 0 < b) :
    Visits step' (f 0 z) ((List.range b).flatMap fun i => L.map (f i)) (f 0 z) := by
  have key : ∀ k i, i + k + 1 = b →
      Visits step' (f i z) ((List.range' i (k + 1)).flatMap fun i => L.map (f i)) (f 0 z) := by
    intro k
    induction k with
    | zero =>
      intro i hi
      have : (List.range' i (0 + 1)).flatMap (fun i => L.map (f i)) = L.map (f i) := by simp [List.range'_succ]
      rw [this]
      exact h.map_last (f i) (h1 i) (fun s hs => h3 i s (by omega) hs)
    | succ k ih =>
      intro i hi
      rw [List.range'_succ, List.flatMap_cons]
      exact h.append (f i) (h1 i) (fun s hs => h2 i s (by omega) hs) (ih (i + 1) (by omega))
  have := key (b - 1) 0 (by omega)
  rw [show b - 1 + 1 = b by omega, ← List.range_eq_range'] at this
  exact this

/-! ### nditer -/

/-- Positions of the iterated axes, in descending order. -/
def descAxes : List Bool → List Nat
  | [] => []
  | m :: ms => (descAxes ms).map (· + 1) ++ (if m then [0] else [])

theorem descAxes_mem (ms : List Bool) (a : Nat) : a ∈ descAxes ms ↔ ms[a]? = some true := by
  induction ms generalizing a with
  | nil => simp [descAxes]
  | cons m ms ih =>
    rw [descAxes, List.mem_append, List.mem_map]
    cases a with
    | zero => cases m <;> simp
    | succ a =>
      constructor
      · rintro (⟨b, hb, e⟩ | h)
        · have : b = a := by omega
          subst this
          simpa using (ih b).1 hb
        · cases m <;> simp at h
      · intro h
        left
        exact ⟨a, (ih a).2 (by simpa using h), rfl⟩

theorem descAxes_desc (ms : List Bool) : (descAxes ms).Pairwise (· > ·) := by
  induction ms with
  | nil => simp [descAxes]
  | cons m ms ih =>
    rw [descAxes, List.pairwise_append]
    refine ⟨?_, by cases m <;> simp, ?_⟩
    · rw [List.pairwise_map]; exact ih.imp (by intro a b h; omega)
    · intro a ha b hb
      obtain ⟨c, _, rfl⟩ := List.mem_map.1 ha
      cases m <;> simp at hb
      omega

/-- All indices: iterated axes run over their range, the others stay `slice(None)`. -/
def allSel : List (Nat × Bool) → List (List (Option Nat))
  | [] => [[]]
  | (b, true) :: rest => (List.range b).flatMap fun i => (allSel rest).map (some i :: ·)
  | (_, false) :: rest => (allSel rest).map (none :: ·)

def zeroSel (ms : List Bool) : List (Option Nat) := ms.map fun m => if m then some 0 else none

theorem ndCarry_map_succ (b : Nat) (bs : List Nat) (x : Option Nat) (A : List Nat) (I : List (Option Nat)) (B : List Nat) :
    ndCarry (b :: bs) (A.map (· + 1) ++ B) (x :: I) =
      if (ndCarry bs A I).2 then (x :: (ndCarry bs A I).1, true) else ndCarry (b :: bs) B (x :: (ndCarry bs A I).1) := by
  induction A generalizing I with
  | nil => simp [ndCarry]
  | cons a A ih =>
    rw [List.map_cons, List.cons_append, ndCarry, ndCarry]
    simp only [List.getD_cons_succ, List.set_cons_succ]
    by_cases h : (I.getD a none).getD 0 + 1 < bs.getD a 0
    · simp only [if_pos h, if_true]
    · simp only [if_neg h]
      exact ih _

theorem nd_visits (sm : List (Nat × Bool)) (hpos : ∀ p ∈ sm, p.2 = true → 0 < p.1) :
    Visits (ndCarry (sm.map Prod.fst) (descAxes (sm.map Prod.snd))) (zeroSel (sm.map Prod.snd)) (allSel sm)
      (zeroSel (sm.map Prod.snd)) := by
  induction sm with
  | nil => exact Visits.last rfl
  | cons p sm ih =>
    obtain ⟨b, m⟩ := p
    have ih := ih fun q hq => hpos q (List.mem_cons_of_mem _ hq)
    simp only [List.map_cons]
    set bs := sm.map Prod.fst
    set ms := sm.map Prod.snd
    cases m with
    | true =>
      have hb : 0 < b := hpos (b, true) (by simp) rfl
      refine Visits.lift (step' := ndCarry (b :: bs) (descAxes (true :: ms))) (fun i s => some i :: s) ih b ?_ ?_ ?_ hb
      · intro i s s' h
        simp only [descAxes, if_true]
        rw [ndCarry_map_succ, h]
        rfl
      · intro i s hi h
        simp only [descAxes, if_true]
        rw [ndCarry_map_succ, h]
        simp [ndCarry, hi]
      · intro i s hi h
        simp only [descAxes, if_true]
        rw [ndCarry_map_succ, h]
        have : ¬ i + 1 < b := by omega
        simp [ndCarry, this]
    | false =>
      simp only [descAxes, Bool.false_eq_true, if_false]
      refine ih.map_last (none :: ·) ?_ ?_
      · intro s s' h
        rw [ndCarry_map_succ, h]; rfl
      · intro s h
        rw [ndCarry_map_succ, h]; rfl

theorem ndRun_of_visits {shape axes : List Nat} {I z : List (Option Nat)} {L : List (List (Option Nat))}
    (h : Visits (ndCarry shape axes) I L z) (fuel : Nat) (hf : L.length ≤ fuel) : ndRun fuel shape axes I = some L := by
  induction h generalizing fuel with
  | last e =>
    obtain ⟨f, rfl⟩ : ∃ f, fuel = f + 1 := ⟨fuel - 1, by simp at hf; omega⟩
    rw [ndRun, e]; rfl
  | more e _ ih =>
    simp at hf
    obtain ⟨f, rfl⟩ : ∃ f, fuel = f + 1 := ⟨fuel - 1, by omega⟩
    rw [ndRun, e]
    simp only [if_true]
    rw [ih f (by omega)]; rfl

theorem foldl_set_zero (l : List Nat) (I : List (Option Nat)) (j : Nat) :
    (l.foldl (fun I a => I.set a (some 0)) I)[j]? = if j ∈ l ∧ j < I.length then some (some 0) else I[j]? := by
  induction l generalizing I with
  | nil => simp
  | cons a l ih =>
    rw [List.foldl_cons, ih, List.length_set, List.getElem?_set]
    by_cases hj : j ∈ l
    · by_cases hl : j < I.length
      · simp [hj, hl]
      · have : ¬ (a = j ∧ a < I.length) := by rintro ⟨rfl, h⟩; exact hl h
        simp only [hj, hl, and_false, if_false, List.mem_cons, or_true]
        by_cases e : a = j
        · subst e; simp [hl]
        · simp [e]
    · by_cases e : a = j
      · subst e; by_cases hl : a < I.length <;> simp [hj, hl]
      · simp [hj, e, Ne.symm e]

theorem foldl_setZero_length (l : List Nat) (I : List (Option Nat)) : (l.foldl (fun I a => I.set a (some 0)) I).length = I.length := by
  induction l generalizing I with
  | nil => rfl
  | cons a l ih => rw [List.foldl_cons, ih, List.length_set]

/-! ### count_variable_basis -/

/-- All digit vectors below the bases in lexicographic order: nested loops, the first digit outermost. -/
def allIdx : List Nat → List (List Nat)
  | [] => [[]]
  | b :: bs => (List.range b).flatMap fun i => (allIdx bs).map (i :: ·)

theorem cvbCarry_map_succ (b : Nat) (bs : List Nat) (x : Nat) (A : List Nat) (I : List Nat) (B : List Nat) :
    cvbCarry (b :: bs) (A.map (· + 1) ++ B) (x :: I) =
      if (cvbCarry bs A I).2 then (x :: (cvbCarry bs A I).1, true) else cvbCarry (b :: bs) B (x :: (cvbCarry bs A I).1) := by
  induction A generalizing I with
  | nil => simp [cvbCarry]
  | cons a A ih =>
    rw [List.map_cons, List.cons_append, cvbCarry, cvbCarry]
    simp only [List.modify_succ_cons, List.getD_cons_succ, List.take_succ_cons, List.length_cons, List.cons_append]
    by_cases h : (I.modify a (· + 1)).getD a 0 < bs.getD a 0
    · simp only [if_pos h, if_true]
    · simp only [if_neg h]
      rw [show (I.modify a (· + 1)).length + 1 - (a + 1) = (I.modify a (· + 1)).length - a by omega]
      exact ih _

theorem reverse_range_succ (n : Nat) : (List.range (n + 1)).reverse = (List.range n).reverse.map (· + 1) ++ [0] := by
  rw [List.range_succ_eq_map, List.reverse_cons, List.map_reverse]

theorem cvb_visits (bases : List Nat) (hpos : ∀ b ∈ bases, 0 < b) :
    Visits (cvbCarry bases (List.range bases.length).reverse) (List.replicate bases.length 0) (allIdx bases)
      (List.replicate bases.length 0) := by
  induction bases with
  | nil => exact Visits.last rfl
  | cons b bs ih =>
    have ih := ih fun q hq => hpos q (List.mem_cons_of_mem _ hq)
    have hb : 0 < b := hpos b (by simp)
    simp only [List.length_cons, reverse_range_succ, List.replicate_succ]
    refine Visits.lift (step' := cvbCarry (b :: bs) ((List.range bs.length).reverse.map (· + 1) ++ [0]))
      (fun i s => i :: s) ih b ?_ ?_ ?_ hb
    · intro i s s' h
      rw [cvbCarry_map_succ, h]; rfl
    · intro i s hi h
      rw [cvbCarry_map_succ, h]
      simp [cvbCarry, hi]
    · intro i s hi h
      rw [cvbCarry_map_succ, h]
      have : ¬ i + 1 < b := by omega
      simp [cvbCarry, this, List.replicate_succ]

theorem cvbRun_of_visits {bases I z : List Nat} {L : List (List Nat)}
    (h : Visits (cvbCarry bases (List.range bases.length).reverse) I L z) (fuel : Nat) (hf : L.length ≤ fuel) :
    cvbRun fuel bases I = some (L, z) := by
  induction h generalizing fuel with
  | last e =>
    obtain ⟨f, rfl⟩ : ∃ f, fuel = f + 1 := ⟨fuel - 1, by simp at hf; omega⟩
    rw [cvbRun, e]; rfl
  | more e _ ih =>
    simp at hf
    obtain ⟨f, rfl⟩ : ∃ f, fuel = f + 1 := ⟨fuel - 1, by omega⟩
    rw [cvbRun, e]
    simp only [if_true]
    rw [ih f (by omega)]; rfl

theorem length_flatMap_const {β γ : Type} (l : List β) (f : β → List γ) (n : Nat) (h : ∀ x ∈ l, (f x).length = n) :
    (l.flatMap f).length = l.length * n := by
  induction l with
  | nil => simp
  | cons x l ih =>
    rw [List.flatMap_cons, List.length_append, h x (by simp), ih fun y hy => h y (List.mem_cons_of_mem _ hy), List.length_cons,
      Nat.add_mul, Nat.one_mul, Nat.add_comm]

theorem allIdx_length (bases : List Nat) : (allIdx bases).length = bases.prod := by
  induction bases with
  | nil => rfl
  | cons b bs ih =>
    rw [allIdx, length_flatMap_const _ _ bs.prod (by intro i _; rw [List.length_map, ih]), List.length_range, List.prod_cons]

theorem mem_allIdx (bases d : List Nat) :
    d ∈ allIdx bases ↔ d.length = bases.length ∧ ∀ i : Nat, i < bases.length → d.getD i 0 < bases.getD i 0 := by
  induction bases generalizing d with
  | nil => simp [allIdx]
  | cons b bs ih =>
    rw [allIdx, List.mem_flatMap]
    constructor
    · rintro ⟨i, hi, h⟩
      obtain ⟨e, he, rfl⟩ := List.mem_map.1 h
      obtain ⟨h1, h2⟩ := (ih e).1 he
      refine ⟨by simp [h1], ?_⟩
      intro k hk
      cases k with
      | zero => simpa using hi
      | succ k => simpa using h2 k (by simpa using hk)
    · rintro ⟨h1, h2⟩
      cases d with
      | nil => simp at h1
      | cons i e =>
        refine ⟨i, by simpa using h2 0 (by simp), List.mem_map.2 ⟨e, (ih e).2 ⟨by simpa using h1, ?_⟩, rfl⟩⟩
        intro k hk
        simpa using h2 (k + 1) (by simpa using hk)

theorem allIdx_sorted (bases : List Nat) : (allIdx bases).Pairwise (List.Lex (· < ·)) := by
  induction bases with
  | nil => simp [allIdx]
  | cons b bs ih =>
    rw [allIdx, List.pairwise_flatMap]
    refine ⟨?_, ?_⟩
    · intro i _
      rw [List.pairwise_map]
      exact ih.imp fun h => List.Lex.cons h
    · refine List.Pairwise.imp ?_ (List.pairwise_lt_range)
      intro i j hij x hx y hy
      obtain ⟨x', _, rfl⟩ := List.mem_map.1 hx
      obtain ⟨y', _, rfl⟩ := List.mem_map.1 hy
      exact List.Lex.rel hij

/-! ### split_esc -/

theorem escStep_fold_plain (delim esc : Char) (hde : delim ≠ esc) (tok : List Char) (hesc : esc ∉ tok) (ostr : List Char)
    (out : List (List Char)) :
    (tok.flatMap fun c => if c = delim then [esc, c] else [c]).foldl (escStep delim esc) ((false, ostr), out) =
      ((false, ostr ++ tok), out) := by
  induction tok generalizing ostr with
  | nil => simp
  | cons c tok ih =>
    have hc : c ≠ esc := fun h => hesc (by simp [h])
    have ht : esc ∉ tok := fun h => hesc (List.mem_cons_of_mem _ h)
    rw [List.flatMap_cons, List.foldl_append]
    by_cases h : c = delim
    · subst h
      have : ([esc, c].foldl (escStep c esc) ((false, ostr), out)) = ((false, ostr ++ [c]), out) := by
        simp [escStep, hc]
      rw [if_pos rfl, this, ih ht]
      simp
    · have : ([c].foldl (escStep delim esc) ((false, ostr), out)) = ((false, ostr ++ [c]), out) := by
        simp [escStep, hc, h]
      rw [if_neg h, this, ih ht]
      simp

/-! ### split_slice -/

theorem sliceGroups_spec (sel : List SelItem) (cuts : List Nat) (a : Nat) (h : (a :: cuts).Pairwise (· ≤ ·)) (hne : cuts ≠ [])
    (hlast : cuts.getLast? = some sel.length) :
    (sliceGroups sel a cuts).flatten = sel.drop a ∧ (sliceGroups sel a cuts).length = cuts.length := by
  induction cuts generalizing a with
  | nil => exact absurd rfl hne
  | cons c r ih =>
    rw [List.pairwise_cons] at h
    have hac := h.1 c (by simp)
    rw [sliceGroups, List.flatten_cons, List.length_cons, List.length_cons]
    cases r with
    | nil =>
      simp at hlast
      subst hlast
      simp [sliceGroups, List.take_of_length_le]
    | cons d r =>
      obtain ⟨h1, h2⟩ := ih c h.2 (by simp) (by simpa using hlast)
      rw [h1, h2]
      refine ⟨?_, rfl⟩
      conv_rhs => rw [← List.take_append_drop (c - a) (sel.drop a)]
      rw [List.drop_drop, show a + (c - a) = c by omega]

theorem sliceGroups_get (sel : List SelItem) (cuts : List Nat) (a i : Nat) (hi : i < cuts.length) :
    (sliceGroups sel a cuts)[i]? =
      some ((sel.drop ((a :: cuts).getD i 0)).take (cuts.getD i 0 - (a :: cuts).getD i 0)) := by
  induction cuts generalizing a i with
  | nil => simp at hi
  | cons c r ih =>
    rw [sliceGroups]
    cases i with
    | zero => simp
    | succ i => simpa using ih c i (by simpa using hi)

end Pixell
