import Verif.Model.Alm
import Verif.Lemmas.Powspec
import Mathlib.Algebra.BigOperators.Group.List.Basic
import Mathlib.Data.List.Induction
import Mathlib.Logic.Function.Iterate

namespace Pixell

/-! ### layout arithmetic -/

theorem range_add' (a b : Nat) : List.range (a + b) = List.range a ++ (List.range b).map fun x => a + x := List.range_add

theorem triStart_two (L m : Nat) : 2 * (m * (2 * L + 1 - m) / 2) = m * (2 * L + 1 - m) := by
  apply Nat.mul_div_cancel'
  rcases Nat.even_or_odd m with h | h
  · exact (h.mul_right _).two_dvd
  · rcases Nat.le_total m (2 * L + 1) with h2 | h2
    · have : Even (2 * L + 1 - m) := by
        obtain ⟨k, rfl⟩ := h
        exact ⟨L - k, by omega⟩
      exact (this.mul_left _).two_dvd
    · rw [Nat.sub_eq_zero_of_le h2]; simp

theorem triStart_succ {L m : Nat} (h : m ≤ L) : (m + 1) * (2 * L + 1 - (m + 1)) / 2 = m * (2 * L + 1 - m) / 2 + (L - m) := by
  have h1 := triStart_two L m
  have h2 := triStart_two L (m + 1)
  have : (m + 1) * (2 * L + 1 - (m + 1)) = m * (2 * L + 1 - m) + 2 * (L - m) := by
    obtain ⟨d, rfl⟩ := Nat.exists_eq_add_of_le h
    have e1 : 2 * (m + d) + 1 - (m + 1) = m + 2 * d := by omega
    have e2 : 2 * (m + d) + 1 - m = m + 2 * d + 1 := by omega
    have e3 : m + d - m = d := by omega
    rw [e1, e2, e3]; ring
  omega

theorem lmPairs_succ (L M : Nat) :
    lmPairs L (M + 1) = lmPairs L M ++ (List.range (L + 1 - (M + 1))).map fun k => (M + 1, M + 1 + k) := by
  unfold lmPairs
  rw [List.range_succ, List.flatMap_append]
  simp

theorem mem_lmPairs {L M : Nat} {p : Nat × Nat} : p ∈ lmPairs L M ↔ p.1 ≤ M ∧ p.1 ≤ p.2 ∧ p.2 ≤ L := by
  obtain ⟨m, l⟩ := p
  simp only [lmPairs, List.mem_flatMap, List.mem_range, List.mem_map, Prod.mk.injEq]
  constructor
  · rintro ⟨a, ha, k, hk, h1, h2⟩; omega
  · rintro ⟨h1, h2, h3⟩; exact ⟨m, by omega, l - m, by omega, rfl, by omega⟩

theorem lmPairs_nodup (L M : Nat) : (lmPairs L M).Nodup := by
  rw [lmPairs, List.nodup_flatMap]
  constructor
  · intro i _
    exact List.nodup_range.map fun a b h => by have := (Prod.mk.inj h).2; omega
  · refine List.nodup_range.imp ?_
    intro a b hab p hp hq
    simp only [List.mem_map] at hp hq
    obtain ⟨k, _, rfl⟩ := hp
    obtain ⟨l, _, h⟩ := hq
    exact hab (Prod.mk.inj h).1.symm

/-- In the triangular layout the m-major sequence of coefficients fills the positions 0, 1, 2, ... in order. -/
theorem triangular_seq (L M : Nat) (h : M ≤ L) :
    (lmPairs L M).map (fun p => p.1 * (2 * L + 1 - p.1) / 2 + p.2) = List.range (M * (2 * L + 1 - M) / 2 + L + 1) := by
  induction M with
  | zero => 
    have : lmPairs L 0 = (List.range (L + 1)).map fun k => (0, k) := by simp [lmPairs]
    rw [this, List.map_map]
    simp [Function.comp_def]
  | succ M ih =>
    rw [lmPairs_succ, List.map_append, ih (by omega), triStart_succ (by omega), List.map_map]
    rw [show M * (2 * L + 1 - M) / 2 + (L - M) + L + 1 = (M * (2 * L + 1 - M) / 2 + L + 1) + (L + 1 - (M + 1)) by omega,
      range_add' (M * (2 * L + 1 - M) / 2 + L + 1)]
    congr 1
    apply List.map_congr_left
    intro k _
    simp only [Function.comp]
    rw [triStart_succ (by omega)]
    omega

theorem maxStart_eq (f : Nat → Nat) (M : Nat) (h : ∀ m ≤ M, f m ≤ f M) : maxStart f M = f M := by
  unfold maxStart
  have key : ∀ (l : List Nat) (a : Nat), (∀ x ∈ l, x ≤ l.foldl max a) ∧ a ≤ l.foldl max a ∧
      ∀ b, a ≤ b → (∀ x ∈ l, x ≤ b) → l.foldl max a ≤ b := by
    intro l
    induction l with
    | nil => intro a; simp
    | cons x l ih =>
      intro a
      obtain ⟨h1, h2, h3⟩ := ih (max a x)
      refine ⟨?_, ?_, ?_⟩
      · intro y hy
        rcases List.mem_cons.1 hy with rfl | hy
        · exact (le_max_right _ _).trans h2
        · exact h1 y hy
      · exact (le_max_left _ _).trans h2
      · intro b hab hb
        exact h3 b (max_le hab (hb x (by simp))) fun y hy => hb y (List.mem_cons_of_mem _ hy)
  obtain ⟨h1, h2, h3⟩ := key ((List.range (M + 1)).map f) 0
  apply Nat.le_antisymm
  · apply h3 _ (by omega)
    intro x hx
    obtain ⟨m, hm, rfl⟩ := List.mem_map.1 hx
    exact h m (by have := List.mem_range.1 hm; omega)
  · exact h1 _ (List.mem_map.2 ⟨M, by simp, rfl⟩)

theorem triStart_mono (L M : Nat) (h : M ≤ L) : ∀ m ≤ M, m * (2 * L + 1 - m) / 2 ≤ M * (2 * L + 1 - M) / 2 := by
  induction M with
  | zero => intro m hm; rw [Nat.le_zero.1 hm]
  | succ M ih =>
    intro m hm
    rcases Nat.lt_or_ge m (M + 1) with h1 | h1
    · rw [triStart_succ (by omega)]
      have := ih (by omega) m (by omega)
      omega
    · rw [Nat.le_antisymm hm h1]

/-! ### a loop of assignments to distinct positions -/

theorem foldl_setPos {V X : Type} (l : List X) (idx : X → Nat) (g : X → V → V) (o : Nat → V) (hnd : (l.map idx).Nodup) :
    (∀ x ∈ l, l.foldl (fun o x => setPos o (idx x) (g x (o (idx x)))) o (idx x) = g x (o (idx x))) ∧
    (∀ j, (∀ x ∈ l, idx x ≠ j) → l.foldl (fun o x => setPos o (idx x) (g x (o (idx x)))) o j = o j) := by
  induction l generalizing o with
  | nil => simp
  | cons y l ih =>
    obtain ⟨hy, hnd'⟩ := List.nodup_cons.1 hnd
    obtain ⟨i1, i2⟩ := ih (setPos o (idx y) (g y (o (idx y)))) hnd'
    rw [List.foldl_cons]
    constructor
    · intro x hx
      rcases List.mem_cons.1 hx with rfl | hx
      · rw [i2 _ fun z hz e => hy (List.mem_map.2 ⟨z, hz, e⟩)]
        simp [setPos]
      · rw [i1 x hx]
        have : idx x ≠ idx y := fun e => hy (List.mem_map.2 ⟨x, hx, e⟩)
        simp [setPos, this]
    · intro j hj
      rw [i2 j fun x hx => hj x (List.mem_cons_of_mem _ hx)]
      have : j ≠ idx y := fun e => hj y (by simp) e.symm
      simp [setPos, this]

/-- A layout that keeps its coefficients apart and inside the array. -/
def GoodLayout (a : AlmInfo) : Prop :=
  (∀ l m, m ≤ a.mmax → m ≤ l → l ≤ a.lmax → a.lm2ind l m < a.nelem) ∧
  ∀ l m l' m', m ≤ a.mmax → m ≤ l → l ≤ a.lmax → m' ≤ a.mmax → m' ≤ l' → l' ≤ a.lmax → a.lm2ind l m = a.lm2ind l' m' →
    l = l' ∧ m = m'

theorem GoodLayout.nodup {a : AlmInfo} (h : GoodLayout a) (L M : Nat) (hL : L ≤ a.lmax) (hM : M ≤ a.mmax)
    (vs : List (Nat × Nat)) (hvs : vs.Perm (lmPairs L M)) : (vs.map fun p => a.lm2ind p.2 p.1).Nodup := by
  apply List.Nodup.map_on _ (hvs.nodup_iff.2 (lmPairs_nodup L M))
  intro p hp q hq e
  have h1 := mem_lmPairs.1 (hvs.mem_iff.1 hp)
  have h2 := mem_lmPairs.1 (hvs.mem_iff.1 hq)
  obtain ⟨e1, e2⟩ := h.2 p.2 p.1 q.2 q.1 (by omega) (by omega) (by omega) (by omega) (by omega) (by omega) e
  exact Prod.ext e2 e1

/-! ### l-major order -/

/-- The coefficients in l-major order. -/
def lMajor (lmax mmax : Nat) : List (Nat × Nat) :=
  (List.range (lmax + 1)).flatMap fun l => (List.range (min l mmax + 1)).map fun m => (m, l)

/-- The successor computed by transpose_alm. -/
def nextLM (mmax : Nat) (s : Nat × Nat) : Nat × Nat := if s.1 + 1 > mmax ∨ s.1 + 1 > s.2 then (0, s.2 + 1) else (s.1 + 1, s.2)

theorem lMajor_iterate (M N : Nat) :
    ((List.range N).flatMap fun l => (List.range (min l M + 1)).map fun m => (m, l)) =
      (List.range ((List.range N).flatMap fun l => (List.range (min l M + 1)).map fun m => (m, l)).length).map
        (fun k => (nextLM M)^[k] (0, 0)) ∧
    (nextLM M)^[((List.range N).flatMap fun l => (List.range (min l M + 1)).map fun m => (m, l)).length] (0, 0) = (0, N) := by
  induction N with
  | zero => simp
  | succ N ih =>
    obtain ⟨h1, h2⟩ := ih
    set L := (List.range N).flatMap fun l => (List.range (min l M + 1)).map fun m => (m, l) with hL
    have hsucc : ((List.range (N + 1)).flatMap fun l => (List.range (min l M + 1)).map fun m => (m, l)) =
        L ++ (List.range (min N M + 1)).map fun m => (m, N) := by
      rw [List.range_succ, List.flatMap_append]; simp [hL]
    have hrow : ∀ m, m ≤ min N M → (nextLM M)^[m] (0, N) = (m, N) := by
      intro m
      induction m with
      | zero => intro _; rfl
      | succ m ihm =>
        intro hm
        rw [Function.iterate_succ_apply', ihm (by omega)]
        simp only [nextLM]
        rw [if_neg (by omega)]
    rw [hsucc, List.length_append, List.length_map, List.length_range]
    constructor
    · rw [range_add' L.length, List.map_append, ← h1, List.map_map]
      congr 1
      apply List.map_congr_left
      intro m hm
      simp only [Function.comp]
      rw [Nat.add_comm, Function.iterate_add_apply, h2, hrow m (by have := List.mem_range.1 hm; omega)]
    · rw [Nat.add_comm L.length, Function.iterate_add_apply, h2, Function.iterate_succ_apply', hrow _ (le_refl _)]
      simp only [nextLM]
      rw [if_pos (by omega)]

theorem mem_lMajor {L M : Nat} {p : Nat × Nat} : p ∈ lMajor L M ↔ p.1 ≤ M ∧ p.1 ≤ p.2 ∧ p.2 ≤ L := by
  obtain ⟨m, l⟩ := p
  simp only [lMajor, List.mem_flatMap, List.mem_range, List.mem_map, Prod.mk.injEq]
  constructor
  · rintro ⟨a, ha, k, hk, h1, h2⟩; omega
  · rintro ⟨h1, h2, h3⟩; exact ⟨l, by omega, m, by omega, rfl, rfl⟩

theorem lMajor_nodup (L M : Nat) : (lMajor L M).Nodup := by
  rw [lMajor, List.nodup_flatMap]
  constructor
  · intro i _
    exact List.nodup_range.map fun a b h => (Prod.mk.inj h).1
  · refine List.nodup_range.imp ?_
    intro a b hab p hp hq
    simp only [List.mem_map] at hp hq
    obtain ⟨k, _, rfl⟩ := hp
    obtain ⟨l, _, h⟩ := hq
    exact hab (Prod.mk.inj h).2.symm

theorem lMajor_perm (L M : Nat) : (lMajor L M).Perm (lmPairs L M) :=
  (List.perm_ext_iff_of_nodup (lMajor_nodup L M) (lmPairs_nodup L M)).2 fun _ => by rw [mem_lMajor, mem_lmPairs]

theorem transpose_foldl {V : Type} (a : AlmInfo) (ialm : Nat → V) (ps : List (Nat × Nat)) (s : Nat × Nat) (out : Nat → V) :
    (ps.foldl (transposeStep a ialm) (s, out)).2 =
      (ps.zip ((List.range ps.length).map fun k => (nextLM a.mmax)^[k] s)).foldl
        (fun o x => setPos o (a.cind x.2.2 x.2.1) (ialm (a.cind x.1.2 x.1.1))) out := by
  induction ps generalizing s out with
  | nil => rfl
  | cons p ps ih =>
    rw [List.foldl_cons, List.length_cons, List.range_succ_eq_map, List.map_cons, List.zip_cons_cons, List.foldl_cons]
    have : transposeStep a ialm (s, out) p = (nextLM a.mmax s, setPos out (a.cind s.2 s.1) (ialm (a.cind p.2 p.1))) := by
      unfold transposeStep nextLM
      simp only
      split <;> rfl
    rw [this, ih, List.map_map]
    rfl

end Pixell
