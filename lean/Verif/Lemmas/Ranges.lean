import Verif.Model.Ranges
import Verif.Lemmas.Sort
import Mathlib.Data.List.Basic
import Mathlib.Order.Lattice
import Mathlib.Data.List.TakeWhile
import Mathlib.Tactic.Linarith

namespace Pixell

/-- Sorted, non-overlapping ranges (possibly empty, possibly touching). -/
def Chain (l : List Range) : Prop := (∀ x ∈ l, x.1 ≤ x.2) ∧ l.Pairwise fun x y => x.2 ≤ y.1

theorem Chain.tail {x : Range} {l : List Range} (h : Chain (x :: l)) : Chain l :=
  ⟨fun y hy => h.1 y (by simp [hy]), (List.pairwise_cons.1 h.2).2⟩

theorem Chain.drop {l : List Range} (h : Chain l) (n : Nat) : Chain (l.drop n) :=
  ⟨fun y hy => h.1 y (List.mem_of_mem_drop hy), h.2.sublist (List.drop_sublist _ _)⟩

theorem pyGet_nat {β : Type} (b : List β) (n : Nat) : pyGet b n = b[n]? := by simp [pyGet]

theorem skipB_eq (b : List Range) (s : Int) (l : List Range) (n : Nat) (h : b.drop n = l) :
    skipB b s l.length n = some ((n + (l.takeWhile fun x => decide (x.2 ≤ s)).length : Nat) : Int) := by
  induction l generalizing n with
  | nil => simp [skipB]
  | cons x l ih =>
    have hx : b[n]? = some x := by
      have := congrArg (fun l => l[0]?) h
      simpa using this
    have hl : b.drop (n + 1) = l := by
      have := congrArg List.tail h
      simpa using this
    simp only [List.length_cons, skipB, pyGet_nat, hx, Option.bind_eq_bind, Option.bind_some]
    by_cases hc : x.2 ≤ s
    · rw [if_pos hc]
      have := ih (n + 1) hl
      rw [Nat.cast_add, Nat.cast_one] at this
      rw [this, List.takeWhile_cons_of_pos (by simpa using hc)]
      congr 1
      simp only [List.length_cons]
      omega
    · rw [if_neg hc, List.takeWhile_cons_of_neg (by simpa using hc)]
      rfl

/-- List version of the second inner loop. -/
def cutL (e : Int) : List Range → Int → Nat × Int × List Range
  | [], p => (0, p, [])
  | x :: l, p =>
    if x.1 ≤ e then
      ((cutL e l x.2).1 + 1, (cutL e l x.2).2.1,
        if min e x.1 - p > 0 then (p, min e x.1) :: (cutL e l x.2).2.2 else (cutL e l x.2).2.2)
    else (0, p, [])

theorem cutB_eq (b : List Range) (e : Int) (l : List Range) (n : Nat) (p : Int) (h : b.drop n = l) :
    cutB b e l.length n p = some (((n + (cutL e l p).1 : Nat) : Int), (cutL e l p).2.1, (cutL e l p).2.2) := by
  induction l generalizing n p with
  | nil => simp [cutB, cutL]
  | cons x l ih =>
    have hx : b[n]? = some x := by
      have := congrArg (fun l => l[0]?) h
      simpa using this
    have hl : b.drop (n + 1) = l := by
      have := congrArg List.tail h
      simpa using this
    simp only [List.length_cons, cutB, pyGet_nat, hx, Option.bind_eq_bind, Option.bind_some]
    by_cases hc : x.1 ≤ e
    · have := ih (n + 1) x.2 hl
      rw [Nat.cast_add, Nat.cast_one] at this
      rw [if_pos hc, this]
      simp only [Option.bind_some, cutL, if_pos hc]
      rw [show n + 1 + (cutL e l x.2).1 = n + ((cutL e l x.2).1 + 1) by omega]
      rfl
    · simp only [cutL, if_neg hc]
      rfl

structure CutSpec (e : Int) (l : List Range) (p : Int) (k : Nat) (p' : Int) (c : List Range) : Prop where
  k_le : k ≤ l.length
  taken : ∀ x ∈ l.take k, x.1 ≤ e ∧ x.2 ≤ p'
  left : ∀ x ∈ l.drop k, e < x.1
  mono : p ≤ p'
  zero : k = 0 → p' = p
  inside : ∀ q ∈ c, p ≤ q.1 ∧ q.1 < q.2 ∧ q.2 ≤ e ∧ q.2 ≤ p'
  apart : ∀ q ∈ c, ∀ x ∈ l, q.2 ≤ x.1 ∨ x.2 ≤ q.1
  chain : c.Pairwise fun q r => q.2 ≤ r.1
  cover : ∀ z, p ≤ z → z < e → (∀ x ∈ l, ¬ (x.1 ≤ z ∧ z < x.2)) → (∃ q ∈ c, q.1 ≤ z ∧ z < q.2) ∨ p' ≤ z

theorem cutL_spec (e : Int) (l : List Range) (p : Int) (hl : Chain l) (hp : ∀ x ∈ l, p ≤ x.2) :
    CutSpec e l p (cutL e l p).1 (cutL e l p).2.1 (cutL e l p).2.2 := by
  induction l generalizing p with
  | nil =>
    exact ⟨by simp [cutL], by simp, by simp, by simp [cutL], by simp [cutL], by simp [cutL], by simp [cutL], by simp [cutL],
      fun z hz _ _ => Or.inr (by simpa [cutL] using hz)⟩
  | cons x l ih =>
    obtain ⟨hx1, hx2⟩ := List.pairwise_cons.1 hl.2
    have hle : ∀ y ∈ l, x.2 ≤ y.2 := fun y hy => le_trans (hx1 y hy) (hl.1 y (by simp [hy]))
    have hxx := hl.1 x (by simp)
    have hpx := hp x (by simp)
    by_cases hc : x.1 ≤ e
    · have S := ih x.2 hl.tail hle
      simp only [cutL, if_pos hc]
      generalize (cutL e l x.2).1 = k at *
      generalize (cutL e l x.2).2.1 = p' at *
      generalize (cutL e l x.2).2.2 = c at *
      have hmem : ∀ q, q ∈ (if min e x.1 - p > 0 then (p, min e x.1) :: c else c) →
          (q = (p, min e x.1) ∧ p < min e x.1) ∨ q ∈ c := by
        intro q hq
        split at hq
        · rcases List.mem_cons.1 hq with h | h
          · exact Or.inl ⟨h, by omega⟩
          · exact Or.inr h
        · exact Or.inr hq
      have hpp := S.mono
      refine ⟨?_, ?_, ?_, ?_, ?_, ?_, ?_, ?_, ?_⟩
      · simpa using S.k_le
      · intro y hy
        rw [List.take_succ_cons] at hy
        rcases List.mem_cons.1 hy with rfl | hy
        · exact ⟨hc, hpp⟩
        · exact S.taken y hy
      · intro y hy
        rw [List.drop_succ_cons] at hy
        exact S.left y hy
      · omega
      · intro h; omega
      · intro q hq
        rcases hmem q hq with ⟨rfl, h⟩ | h
        · dsimp only; omega
        · have := S.inside q h; omega
      · intro q hq y hy
        rcases hmem q hq with ⟨rfl, h⟩ | h
        · left
          dsimp only
          rcases List.mem_cons.1 hy with rfl | hy
          · omega
          · have := hx1 y hy; omega
        · rcases List.mem_cons.1 hy with rfl | hy
          · right; exact (S.inside q h).1
          · exact S.apart q h y hy
      · split
        · rw [List.pairwise_cons]
          refine ⟨fun q hq => ?_, S.chain⟩
          have := (S.inside q hq).1
          dsimp only
          omega
        · exact S.chain
      · intro z hz1 hz2 hz3
        by_cases hzx : z < x.1
        · left
          refine ⟨(p, min e x.1), ?_, ?_⟩
          · rw [if_pos (by omega)]; simp
          · dsimp only; omega
        · have h2 : x.2 ≤ z := by
            by_contra hh
            exact hz3 x (by simp) ⟨by omega, by omega⟩
          rcases S.cover z h2 hz2 (fun y hy => hz3 y (by simp [hy])) with ⟨q, hq, h⟩ | h
          · left
            refine ⟨q, ?_, h⟩
            split
            · simp [hq]
            · exact hq
          · exact Or.inr h
    · simp only [cutL, if_neg hc]
      refine ⟨by simp, by simp, ?_, le_refl _, fun _ => rfl, by simp, by simp, by simp, fun z hz _ _ => Or.inr hz⟩
      intro y hy
      rw [List.drop_zero] at hy
      rcases List.mem_cons.1 hy with rfl | hy
      · omega
      · have := hx1 y hy; omega

structure SubSpec (as b c : List Range) : Prop where
  inside : ∀ q ∈ c, ∃ a ∈ as, a.1 ≤ q.1 ∧ q.1 < q.2 ∧ q.2 ≤ a.2
  apart : ∀ q ∈ c, ∀ x ∈ b, q.2 ≤ x.1 ∨ x.2 ≤ q.1
  chain : c.Pairwise fun q r => q.2 ≤ r.1
  cover : ∀ a ∈ as, ∀ z, a.1 ≤ z → z < a.2 → (∀ x ∈ b, ¬ (x.1 ≤ z ∧ z < x.2)) → ∃ q ∈ c, q.1 ≤ z ∧ z < q.2

theorem subLoop_spec (b : List Range) (hb : Chain b) (as : List Range) (has : as.Pairwise fun x y => x.2 ≤ y.1)
    (hne : ∀ a ∈ as, a.1 < a.2) (n : Nat) (hn : n ≤ b.length) (hdone : ∀ x ∈ b.take n, ∀ a ∈ as, x.2 ≤ a.1) :
    ∃ c, subLoop b as n = some c ∧ SubSpec as b c := by
  induction as generalizing n with
  | nil => exact ⟨[], rfl, by simp, by simp, by simp, by simp⟩
  | cons a rest ih =>
    obtain ⟨ha1, ha2⟩ := List.pairwise_cons.1 has
    have hae := hne a (by simp)
    have harest : ∀ a' ∈ rest, a.2 ≤ a'.1 := ha1
    -- skip
    have hskip := skipB_eq b a.1 (b.drop n) n rfl
    generalize ht : ((b.drop n).takeWhile fun x => decide (x.2 ≤ a.1)) = tw at hskip
    generalize hn1 : n + tw.length = n1 at hskip
    have hsplit := List.takeWhile_append_dropWhile (p := fun x : Range => decide (x.2 ≤ a.1)) (l := b.drop n)
    rw [ht] at hsplit
    have hdw : b.drop n1 = (b.drop n).dropWhile fun x => decide (x.2 ≤ a.1) := by
      rw [← hn1, ← List.drop_drop, ← hsplit, List.drop_left]
      rw [hsplit]
    have hn1le : n1 ≤ b.length := by
      have h1 := congrArg List.length hsplit
      rw [List.length_append, List.length_drop] at h1
      omega
    have hdone1 : ∀ x ∈ b.take n1, x.2 ≤ a.1 := by
      intro x hx
      rw [← hn1, List.take_add] at hx
      rcases List.mem_append.1 hx with hx | hx
      · exact hdone x hx a (by simp)
      · have : x ∈ tw := by
          rw [← hsplit, List.take_left] at hx; exact hx
        rw [← ht] at this
        simpa using List.mem_takeWhile_imp this
    have hch1 := hb.drop n1
    have hp : ∀ x ∈ b.drop n1, a.1 ≤ x.2 := by
      intro x hx
      cases hd : b.drop n1 with
      | nil => rw [hd] at hx; simp at hx
      | cons y l =>
        have hy : a.1 < y.2 := by
          rw [hdw] at hd
          have := List.head_dropWhile_not (p := fun x : Range => decide (x.2 ≤ a.1)) (l := b.drop n) (by simp [hd])
          simp only [hd, List.head_cons, decide_eq_false_iff_not, not_le] at this
          exact this
        rw [hd] at hx hch1
        rcases List.mem_cons.1 hx with rfl | hx
        · omega
        · have h1 := (List.pairwise_cons.1 hch1.2).1 x hx
          have h2 := hch1.1 x (by simp [hx])
          omega
    have hcut := cutB_eq b a.2 (b.drop n1) n1 a.1 rfl
    have S := cutL_spec a.2 (b.drop n1) a.1 hch1 hp
    generalize (cutL a.2 (b.drop n1) a.1).1 = k at *
    generalize (cutL a.2 (b.drop n1) a.1).2.1 = p' at *
    generalize (cutL a.2 (b.drop n1) a.1).2.2 = c at *
    have hlen1 : (b.drop n).length = ((b.length : Int) - n).toNat := by rw [List.length_drop]; omega
    have hlen2 : (b.drop n1).length = ((b.length : Int) - n1).toNat := by rw [List.length_drop]; omega
    have hkle := S.k_le
    rw [List.length_drop] at hkle
    have hbmem : ∀ x ∈ b, x ∈ b.take n1 ∨ x ∈ b.drop n1 := by
      intro x hx
      rw [← List.take_append_drop n1 b] at hx
      exact List.mem_append.1 hx
    have capart : ∀ q ∈ c, ∀ x ∈ b, q.2 ≤ x.1 ∨ x.2 ≤ q.1 := by
      intro q hq x hx
      rcases hbmem x hx with h | h
      · right; have := hdone1 x h; have := (S.inside q hq).1; omega
      · exact S.apart q hq x h
    have htk : ∀ m, m ≤ k → ∀ x ∈ b.take (n1 + m), x ∈ b.take n1 ∨ x ∈ (b.drop n1).take m := by
      intro m _ x hx
      rw [List.take_add] at hx
      exact List.mem_append.1 hx
    by_cases hr : a.2 > p'
    · -- a remainder is appended
      have hd2 : ∀ x ∈ b.take (n1 + k), ∀ a' ∈ rest, x.2 ≤ a'.1 := by
        intro x hx a' ha'
        have := harest a' ha'
        rcases htk k (le_refl _) x hx with h | h
        · have := hdone1 x h; omega
        · have := (S.taken x h).2; omega
      obtain ⟨rc, e1, R⟩ := ih ha2 (fun a' h => hne a' (by simp [h])) (n1 + k) (by omega) hd2
      refine ⟨c ++ (p', a.2) :: rc, ?_, ?_, ?_, ?_, ?_⟩
      · simp only [subLoop, Option.bind_eq_bind]
        rw [← hlen1, hskip]
        simp only [Option.bind_some]
        rw [← hlen2, hcut]
        simp only [Option.bind_some, if_pos hr, e1]
        rfl
      · intro q hq
        rcases List.mem_append.1 hq with hq | hq
        · have := S.inside q hq
          exact ⟨a, by simp, by omega⟩
        · rcases List.mem_cons.1 hq with rfl | hq
          · have := S.mono
            exact ⟨a, by simp, by dsimp only; omega⟩
          · obtain ⟨a', h1, h2⟩ := R.inside q hq
            exact ⟨a', by simp [h1], h2⟩
      · intro q hq x hx
        rcases List.mem_append.1 hq with hq | hq
        · exact capart q hq x hx
        · rcases List.mem_cons.1 hq with rfl | hq
          · dsimp only
            have hm := S.mono
            rcases hbmem x hx with h | h
            · right; have := hdone1 x h; omega
            · rw [← List.take_append_drop k (b.drop n1)] at h
              rcases List.mem_append.1 h with h | h
              · right; exact (S.taken x h).2
              · left; have := S.left x h; omega
          · exact R.apart q hq x hx
      · rw [List.pairwise_append]
        refine ⟨S.chain, ?_, ?_⟩
        · rw [List.pairwise_cons]
          refine ⟨fun q hq => ?_, R.chain⟩
          obtain ⟨a', h1, h2⟩ := R.inside q hq
          have := harest a' h1
          dsimp only; omega
        · intro q hq r hr'
          have h3 := S.inside q hq
          rcases List.mem_cons.1 hr' with rfl | hr'
          · exact h3.2.2.2
          · obtain ⟨a', h1, h2⟩ := R.inside r hr'
            have := harest a' h1
            omega
      · intro a' ha' z hz1 hz2 hz3
        rcases List.mem_cons.1 ha' with rfl | ha'
        · rcases S.cover z hz1 hz2 (fun x hx => hz3 x (List.mem_of_mem_drop hx)) with ⟨q, hq, h⟩ | h
          · exact ⟨q, by simp [hq], h⟩
          · exact ⟨(p', a'.2), by simp, h, hz2⟩
        · obtain ⟨q, hq, h⟩ := R.cover a' ha' z hz1 hz2 hz3
          exact ⟨q, by simp [hq], h⟩
    · -- nothing left: step back
      have hk : k ≠ 0 := by
        intro h
        have := S.zero h
        omega
      obtain ⟨k', rfl⟩ : ∃ k', k = k' + 1 := ⟨k - 1, by omega⟩
      have hd2 : ∀ x ∈ b.take (n1 + k'), ∀ a' ∈ rest, x.2 ≤ a'.1 := by
        intro x hx a' ha'
        have hra := harest a' ha'
        have hlt : n1 + k' < b.length := by omega
        have hmemk : b[n1 + k'] ∈ (b.drop n1).take (k' + 1) := by
          rw [List.mem_take_iff_getElem]
          exact ⟨k', by rw [List.length_drop]; omega, by simp⟩
        have h1 := (S.taken _ hmemk).1
        obtain ⟨j, hj, rfl⟩ := List.getElem_of_mem hx
        rw [List.length_take] at hj
        have h2 := (List.pairwise_iff_getElem.1 hb.2) j (n1 + k') (by omega) hlt (by omega)
        rw [List.getElem_take]
        omega
      obtain ⟨rc, e1, R⟩ := ih ha2 (fun a' h => hne a' (by simp [h])) (n1 + k') (by omega) hd2
      refine ⟨c ++ rc, ?_, ?_, ?_, ?_, ?_⟩
      · simp only [subLoop, Option.bind_eq_bind]
        rw [← hlen1, hskip]
        simp only [Option.bind_some]
        rw [← hlen2, hcut]
        have e2 : (((n1 + (k' + 1) : Nat) : Int) - 1) = ((n1 + k' : Nat) : Int) := by omega
        simp only [Option.bind_some, if_neg hr, e2, e1]
        rfl
      · intro q hq
        rcases List.mem_append.1 hq with hq | hq
        · have := S.inside q hq
          exact ⟨a, by simp, by omega⟩
        · obtain ⟨a', h1, h2⟩ := R.inside q hq
          exact ⟨a', by simp [h1], h2⟩
      · intro q hq x hx
        rcases List.mem_append.1 hq with hq | hq
        · exact capart q hq x hx
        · exact R.apart q hq x hx
      · rw [List.pairwise_append]
        refine ⟨S.chain, R.chain, ?_⟩
        intro q hq r hr'
        have h3 := S.inside q hq
        obtain ⟨a', h1, h2⟩ := R.inside r hr'
        have := harest a' h1
        omega
      · intro a' ha' z hz1 hz2 hz3
        rcases List.mem_cons.1 ha' with rfl | ha'
        · rcases S.cover z hz1 hz2 (fun x hx => hz3 x (List.mem_of_mem_drop hx)) with ⟨q, hq, h⟩ | h
          · exact ⟨q, by simp [hq], h⟩
          · omega
        · obtain ⟨q, hq, h⟩ := R.cover a' ha' z hz1 hz2 hz3
          exact ⟨q, by simp [hq], h⟩

/-! ### Sorting -/

theorem sortByStart_perm (a : List Range) : (sortByStart a).Perm a := sortBy_perm _ _

theorem sortByStart_sorted (a : List Range) : (sortByStart a).Pairwise fun x y => x.1 ≤ y.1 := by
  have := sortBy_sorted (fun x y : Range => decide (x.1 ≤ y.1))
    (by intro a b c; simp; omega) (by intro a b; simp; omega) a
  simpa [sortByStart] using this

/-! ### Union -/

theorem absorb_spec (e : Int) (l : List Range) (hs : l.Pairwise fun x y => x.1 ≤ y.1) (hv : ∀ x ∈ l, x.1 ≤ x.2)
    (s : Int) (hse : s ≤ e) (hsl : ∀ x ∈ l, s ≤ x.1) :
    e ≤ (absorb e l).1 ∧ (∀ x ∈ (absorb e l).2, x ∈ l ∧ (absorb e l).1 < x.1) ∧
    (absorb e l).2.Pairwise (fun x y => x.1 ≤ y.1) ∧
    (∀ z, (s ≤ z ∧ z < (absorb e l).1 ∨ ∃ x ∈ (absorb e l).2, x.1 ≤ z ∧ z < x.2) ↔
      (s ≤ z ∧ z < e ∨ ∃ x ∈ l, x.1 ≤ z ∧ z < x.2)) ∧
    (∀ x ∈ l, x ∈ (absorb e l).2 ∨ x.2 ≤ (absorb e l).1) := by
  induction l generalizing e with
  | nil => simp [absorb]
  | cons x l ih =>
    obtain ⟨h1, h2⟩ := List.pairwise_cons.1 hs
    unfold absorb
    by_cases hc : x.1 > e
    · rw [if_pos hc]
      refine ⟨le_refl _, ?_, hs, fun z => Iff.rfl, fun y hy => Or.inl hy⟩
      intro y hy
      refine ⟨hy, ?_⟩
      rcases List.mem_cons.1 hy with rfl | hy
      · exact hc
      · have := h1 y hy; dsimp only; omega
    · rw [if_neg hc]
      obtain ⟨i1, i2, i3, i4, i5⟩ := ih (max e x.2) h2 (fun y hy => hv y (by simp [hy])) (by omega) (fun y hy => hsl y (by simp [hy]))
      have hxx := hv x (by simp)
      have hsx := hsl x (by simp)
      refine ⟨by omega, fun y hy => ⟨by simp [(i2 y hy).1], (i2 y hy).2⟩, i3, fun z => ?_, ?_⟩
      · rw [i4 z]
        constructor
        · rintro (h | ⟨y, hy, h⟩)
          · by_cases hz : z < e
            · left; omega
            · right; exact ⟨x, by simp, by omega⟩
          · right; exact ⟨y, by simp [hy], h⟩
        · rintro (h | ⟨y, hy, h⟩)
          · left; omega
          · rcases List.mem_cons.1 hy with rfl | hy
            · left; omega
            · right; exact ⟨y, hy, h⟩
      · intro y hy
        rcases List.mem_cons.1 hy with rfl | hy
        · right; omega
        · exact i5 y hy

theorem unionLoop_spec (l : List Range) (hs : l.Pairwise fun x y => x.1 ≤ y.1) (hv : ∀ x ∈ l, x.1 ≤ x.2) :
    (∀ z, (∃ q ∈ unionLoop l, q.1 ≤ z ∧ z < q.2) ↔ ∃ x ∈ l, x.1 ≤ z ∧ z < x.2) ∧
    (unionLoop l).Pairwise (fun q r => q.2 < r.1) ∧
    (∀ q ∈ unionLoop l, q.1 ≤ q.2 ∧ ∃ x ∈ l, x.1 = q.1) ∧
    (∀ x ∈ l, ∃ q ∈ unionLoop l, q.1 ≤ x.1 ∧ x.2 ≤ q.2) := by
  induction hn : l.length using Nat.strong_induction_on generalizing l with
  | _ n ih =>
    cases l with
    | nil => simp [unionLoop]
    | cons x rest =>
      obtain ⟨h1, h2⟩ := List.pairwise_cons.1 hs
      obtain ⟨a1, a2, a3, a4, a5⟩ := absorb_spec x.2 rest h2 (fun y hy => hv y (by simp [hy])) x.1 (hv x (by simp)) h1
      have hlen := absorb_length x.2 rest
      rw [unionLoop]
      generalize (absorb x.2 rest).1 = e at *
      generalize (absorb x.2 rest).2 = l' at *
      obtain ⟨i1, i2, i3, i4⟩ := ih l'.length (by simp at hn; omega) l' a3 (fun y hy => hv y (by simp [(a2 y hy).1])) rfl
      have hx := hv x (by simp)
      refine ⟨fun z => ?_, ?_, ?_, ?_⟩
      · have h4 := a4 z
        have h1z := i1 z
        simp only [List.mem_cons, exists_eq_or_imp]
        rw [h1z]
        exact h4
      · rw [List.pairwise_cons]
        refine ⟨fun q hq => ?_, i2⟩
        obtain ⟨_, y, hy, hyq⟩ := i3 q hq
        have := (a2 y hy).2
        dsimp only; omega
      · intro q hq
        rcases List.mem_cons.1 hq with rfl | hq
        · exact ⟨by dsimp only; omega, x, by simp, rfl⟩
        · obtain ⟨h, y, hy, hyq⟩ := i3 q hq
          exact ⟨h, y, by simp [(a2 y hy).1], hyq⟩
      · intro y hy
        rcases List.mem_cons.1 hy with rfl | hy
        · exact ⟨_, List.mem_cons_self, by dsimp only; omega⟩
        · rcases a5 y hy with h | h
          · obtain ⟨q, hq, hh⟩ := i4 y h
            exact ⟨q, by simp [hq], hh⟩
          · have := h1 y hy
            exact ⟨_, List.mem_cons_self, by dsimp only; omega⟩

end Pixell
