import Verif.Model.Number
import Mathlib.Data.Nat.Prime.Basic
import Mathlib.Tactic.Linarith
import Mathlib.Tactic.Ring

namespace Pixell

/-- `p` is a product of (any number of) the given factors. -/
def IsProduct (factors : List Nat) (p : Nat) : Prop := ∃ l : List Nat, (∀ x ∈ l, x ∈ factors) ∧ l.prod = p

theorem isProduct_one (factors : List Nat) : IsProduct factors 1 := ⟨[], by simp, rfl⟩

theorem IsProduct.mul {factors : List Nat} {p f : Nat} (h : IsProduct factors p) (hf : f ∈ factors) :
    IsProduct factors (p * f) := by
  obtain ⟨l, h1, h2⟩ := h
  refine ⟨f :: l, ?_, by rw [List.prod_cons, h2, Nat.mul_comm]⟩
  intro x hx
  rcases List.mem_cons.1 hx with rfl | hx
  · exact hf
  · exact h1 x hx

theorem IsProduct.pos {factors : List Nat} (h2 : ∀ f ∈ factors, 2 ≤ f) {p : Nat} (h : IsProduct factors p) : 0 < p := by
  obtain ⟨l, h1, rfl⟩ := h
  induction l with
  | nil => simp
  | cons x l ih =>
    rw [List.prod_cons]
    have := h2 x (h1 x (by simp))
    exact Nat.mul_pos (by omega) (ih fun y hy => h1 y (by simp [hy]))

theorem IsProduct.cases {factors : List Nat} (h2 : ∀ f ∈ factors, 2 ≤ f) {p : Nat} (h : IsProduct factors p) :
    p = 1 ∨ ∃ i f, f ∈ factors ∧ IsProduct factors i ∧ p = i * f ∧ i < p := by
  obtain ⟨l, h1, h3⟩ := h
  cases l with
  | nil => left; simpa using h3.symm
  | cons f l =>
    right
    have hl : IsProduct factors l.prod := ⟨l, fun x hx => h1 x (by simp [hx]), rfl⟩
    have hf := h1 f (by simp)
    have := hl.pos h2
    refine ⟨l.prod, f, hf, hl, by rw [← h3, List.prod_cons, Nat.mul_comm], ?_⟩
    rw [← h3, List.prod_cons]
    have := h2 f hf
    nlinarith

/-- What has been marked once all rounds below `k` are done. -/
def SeenAt (factors : List Nat) (below : Bool) (n size k : Nat) (seen : List Nat) : Prop :=
  ∀ m, m < size → (m ∈ seen ↔ m = 1 ∨ ∃ i f, i < k ∧ f ∈ factors ∧ IsProduct factors i ∧ m = i * f ∧ (below = true → m ≤ n))

theorem npFactor_fold_seen (below : Bool) (n size i : Nat) (fs : List Nat) (st : List Nat × Option Nat) (m : Nat)
    (hm : m < size) :
    m ∈ (fs.foldl (npFactor below n size i) st).1 ↔ m ∈ st.1 ∨ ∃ f ∈ fs, m = i * f ∧ (below = true → m ≤ n) := by
  induction fs generalizing st with
  | nil => simp
  | cons f fs ih =>
    rw [List.foldl_cons, ih]
    have : m ∈ (npFactor below n size i st f).1 ↔ m ∈ st.1 ∨ (m = i * f ∧ (below = true → m ≤ n)) := by
      unfold npFactor
      cases below
      · dsimp only
        simp only [Bool.false_eq_true, if_false, false_implies, and_true]
        split
        · simp only [List.mem_cons]; tauto
        · rename_i h
          constructor
          · exact Or.inl
          · rintro (h' | rfl)
            · exact h'
            · exact absurd hm h
      · dsimp only
        simp only [if_true, true_implies]
        split
        · rename_i h
          constructor
          · exact Or.inl
          · rintro (h' | ⟨rfl, h'⟩)
            · exact h'
            · omega
        · rename_i h
          dsimp only
          split
          · simp only [List.mem_cons]
            constructor
            · rintro (rfl | h')
              · right; exact ⟨rfl, by omega⟩
              · exact Or.inl h'
            · rintro (h' | ⟨rfl, _⟩)
              · exact Or.inr h'
              · exact Or.inl rfl
          · rename_i h2
            constructor
            · exact Or.inl
            · rintro (h' | ⟨rfl, _⟩)
              · exact h'
              · exact absurd hm h2
    rw [this]
    simp only [List.mem_cons, exists_eq_or_imp]
    exact or_assoc

theorem seen_round {factors : List Nat} {below : Bool} {n size k : Nat} (h2 : ∀ f ∈ factors, 2 ≤ f) (hk : k ≤ n)
    (hsz : n < size) {st : List Nat × Option Nat} (h : SeenAt factors below n size k st.1) :
    (k ∈ st.1 ↔ IsProduct factors k) ∧ SeenAt factors below n size (k + 1) (npRound below factors n size st k).1 := by
  have hseen : k ∈ st.1 ↔ IsProduct factors k := by
    rw [h k (by omega)]
    constructor
    · rintro (rfl | ⟨i, f, _, hf, hi, rfl, _⟩)
      · exact isProduct_one _
      · exact hi.mul hf
    · intro hp
      rcases hp.cases h2 with rfl | ⟨i, f, hf, hi, he, hlt⟩
      · exact Or.inl rfl
      · exact Or.inr ⟨i, f, hlt, hf, hi, he, fun _ => hk⟩
  refine ⟨hseen, fun m hm => ?_⟩
  unfold npRound
  split
  · rename_i hmem
    rw [npFactor_fold_seen below n size k factors st m hm, h m hm]
    constructor
    · rintro ((rfl | ⟨i, f, h1, hr⟩) | ⟨f, hf, he, hb⟩)
      · exact Or.inl rfl
      · exact Or.inr ⟨i, f, by omega, hr⟩
      · exact Or.inr ⟨k, f, by omega, hf, hseen.1 hmem, he, hb⟩
    · rintro (rfl | ⟨i, f, h1, hf, hi, he, hb⟩)
      · exact Or.inl (Or.inl rfl)
      · rcases Nat.lt_or_ge i k with hlt | hge
        · exact Or.inl (Or.inr ⟨i, f, hlt, hf, hi, he, hb⟩)
        · have : i = k := by omega
          subst this
          exact Or.inr ⟨f, hf, he, hb⟩
  · rename_i hmem
    rw [h m hm]
    constructor
    · rintro (rfl | ⟨i, f, h1, hr⟩)
      · exact Or.inl rfl
      · exact Or.inr ⟨i, f, by omega, hr⟩
    · rintro (rfl | ⟨i, f, h1, hf, hi, he, hb⟩)
      · exact Or.inl rfl
      · rcases Nat.lt_or_ge i k with hlt | hge
        · exact Or.inr ⟨i, f, hlt, hf, hi, he, hb⟩
        · have : i = k := by omega
          subst this
          exact absurd (hseen.2 hi) hmem

/-- Best so far, downwards: some product found, at least as late as any earlier one. -/
structure BestBelow (factors : List Nat) (n k : Nat) (best : Option Nat) : Prop where
  ok : ∀ m, best = some m → ∃ i f, i < k ∧ f ∈ factors ∧ IsProduct factors i ∧ m = i * f ∧ m ≤ n
  late : ∀ i f, i < k → f ∈ factors → IsProduct factors i → i * f ≤ n →
    ∃ m i' f', best = some m ∧ m = i' * f' ∧ i ≤ i' ∧ f' ∈ factors

theorem npFactor_below_best (n size i : Nat) (fs : List Nat) (st : List Nat × Option Nat) :
    (fs.foldl (npFactor true n size i) st).2 = st.2 ∧ (∀ f ∈ fs, n < i * f) ∨
    ∃ f ∈ fs, i * f ≤ n ∧ (fs.foldl (npFactor true n size i) st).2 = some (i * f) := by
  induction fs generalizing st with
  | nil => left; simp
  | cons f fs ih =>
    rw [List.foldl_cons]
    rcases ih (npFactor true n size i st f) with ⟨h1, h2⟩ | ⟨g, hg, h1, h2⟩
    · by_cases hf : n < i * f
      · left
        refine ⟨by rw [h1]; simp [npFactor, hf], ?_⟩
        intro g hg
        rcases List.mem_cons.1 hg with rfl | hg
        · exact hf
        · exact h2 g hg
      · right
        exact ⟨f, by simp, by omega, by rw [h1]; simp [npFactor, hf]⟩
    · right; exact ⟨g, by simp [hg], h1, h2⟩

theorem best_round_below {factors : List Nat} {n size k : Nat} {st : List Nat × Option Nat}
    (hseen : k ∈ st.1 ↔ IsProduct factors k) (h : BestBelow factors n k st.2) :
    BestBelow factors n (k + 1) (npRound true factors n size st k).2 := by
  unfold npRound
  split
  · rename_i hmem
    have hp := hseen.1 hmem
    rcases npFactor_below_best n size k factors st with ⟨h1, h2⟩ | ⟨f, hf, h1, h2⟩
    · rw [h1]
      refine ⟨?_, ?_⟩
      · intro m hm
        obtain ⟨i, f, a, b⟩ := h.ok m hm
        exact ⟨i, f, by omega, b⟩
      · intro i f hi hf hpi hle
        rcases Nat.lt_or_ge i k with hlt | hge
        · exact h.late i f hlt hf hpi hle
        · have : i = k := by omega
          subst this
          have := h2 f hf
          omega
    · rw [h2]
      refine ⟨?_, ?_⟩
      · intro m hm
        cases hm
        exact ⟨k, f, by omega, hf, hp, rfl, h1⟩
      · intro i g hi hg hpi hle
        exact ⟨_, k, f, rfl, rfl, by omega, hf⟩
  · rename_i hmem
    refine ⟨?_, ?_⟩
    · intro m hm
      obtain ⟨i, f, a, b⟩ := h.ok m hm
      exact ⟨i, f, by omega, b⟩
    · intro i f hi hf hpi hle
      rcases Nat.lt_or_ge i k with hlt | hge
      · exact h.late i f hlt hf hpi hle
      · have : i = k := by omega
        subst this
        exact absurd (hseen.2 hpi) hmem

/-- Best so far, upwards: the least product not below `n` found. -/
structure BestAbove (factors : List Nat) (n k : Nat) (best : Option Nat) : Prop where
  ok : ∀ m, best = some m → ∃ i f, i < k ∧ f ∈ factors ∧ IsProduct factors i ∧ m = i * f ∧ n ≤ m
  least : ∀ i f, i < k → f ∈ factors → IsProduct factors i → n ≤ i * f → ∃ m, best = some m ∧ m ≤ i * f

theorem npFactor_above_best (n size i : Nat) (fs : List Nat) (st : List Nat × Option Nat) :
    (∀ m, (fs.foldl (npFactor false n size i) st).2 = some m → st.2 = some m ∨ ∃ f ∈ fs, m = i * f ∧ n ≤ m) ∧
    (∀ b, st.2 = some b → ∃ m, (fs.foldl (npFactor false n size i) st).2 = some m ∧ m ≤ b) ∧
    (∀ f ∈ fs, n ≤ i * f → ∃ m, (fs.foldl (npFactor false n size i) st).2 = some m ∧ m ≤ i * f) := by
  induction fs generalizing st with
  | nil => exact ⟨fun m h => Or.inl h, fun b h => ⟨b, h, le_refl _⟩, by simp⟩
  | cons f fs ih =>
    rw [List.foldl_cons]
    obtain ⟨h1, h2, h3⟩ := ih (npFactor false n size i st f)
    have hnew : (npFactor false n size i st f).2 =
        if n ≤ i * f ∧ (∀ b, st.2 = some b → i * f < b) then some (i * f) else st.2 := by
      unfold npFactor
      dsimp only
      simp only [Bool.false_eq_true, if_false]
      cases hb : st.2 with
      | none => simp
      | some b => simp
    refine ⟨?_, ?_, ?_⟩
    · intro m hm
      rcases h1 m hm with h | ⟨g, hg, h⟩
      · rw [hnew] at h
        split at h
        · rename_i hc
          cases h
          exact Or.inr ⟨f, by simp, rfl, hc.1⟩
        · exact Or.inl h
      · exact Or.inr ⟨g, by simp [hg], h⟩
    · intro b hb
      by_cases hc : n ≤ i * f ∧ (∀ b, st.2 = some b → i * f < b)
      · obtain ⟨m, e, hle⟩ := h2 (i * f) (by rw [hnew, if_pos hc])
        have := hc.2 b hb
        exact ⟨m, e, by omega⟩
      · exact h2 b (by rw [hnew, if_neg hc, hb])
    · intro g hg hle
      rcases List.mem_cons.1 hg with rfl | hg
      · by_cases hc : n ≤ i * g ∧ (∀ b, st.2 = some b → i * g < b)
        · exact h2 (i * g) (by rw [hnew, if_pos hc])
        · have : ∃ b, st.2 = some b ∧ b ≤ i * g := by
            by_contra hcc
            apply hc
            refine ⟨hle, fun b hb => ?_⟩
            by_contra hlt
            exact hcc ⟨b, hb, by omega⟩
          obtain ⟨b, hb, hbl⟩ := this
          obtain ⟨m, e, hm⟩ := h2 b (by rw [hnew, if_neg hc, hb])
          exact ⟨m, e, by omega⟩
      · exact h3 g hg hle

theorem best_round_above {factors : List Nat} {n size k : Nat} {st : List Nat × Option Nat}
    (hseen : k ∈ st.1 ↔ IsProduct factors k) (h : BestAbove factors n k st.2) :
    BestAbove factors n (k + 1) (npRound false factors n size st k).2 := by
  unfold npRound
  split
  · rename_i hmem
    have hp := hseen.1 hmem
    obtain ⟨h1, h2, h3⟩ := npFactor_above_best n size k factors st
    refine ⟨?_, ?_⟩
    · intro m hm
      rcases h1 m hm with hm | ⟨f, hf, rfl, hn⟩
      · obtain ⟨i, f, a, b⟩ := h.ok m hm
        exact ⟨i, f, by omega, b⟩
      · exact ⟨k, f, by omega, hf, hp, rfl, hn⟩
    · intro i f hi hf hpi hle
      rcases Nat.lt_or_ge i k with hlt | hge
      · obtain ⟨b, hb, hbl⟩ := h.least i f hlt hf hpi hle
        obtain ⟨m, e, hm⟩ := h2 b hb
        exact ⟨m, e, by omega⟩
      · have : i = k := by omega
        subst this
        exact h3 f hf hle
  · rename_i hmem
    refine ⟨?_, ?_⟩
    · intro m hm
      obtain ⟨i, f, a, b⟩ := h.ok m hm
      exact ⟨i, f, by omega, b⟩
    · intro i f hi hf hpi hle
      rcases Nat.lt_or_ge i k with hlt | hge
      · exact h.least i f hlt hf hpi hle
      · have : i = k := by omega
        subst this
        exact absurd (hseen.2 hpi) hmem

theorem np_run (P : Nat → Option Nat → Prop) (below : Bool) (factors : List Nat) (n size : Nat) (h2 : ∀ f ∈ factors, 2 ≤ f)
    (hsz : n < size) (h0 : P 0 none)
    (hstep : ∀ k st, (k ∈ st.1 ↔ IsProduct factors k) → P k st.2 → P (k + 1) (npRound below factors n size st k).2) :
    P (n + 1) ((List.range (n + 1)).foldl (npRound below factors n size) ([1], none)).2 := by
  have : ∀ k, k ≤ n + 1 → SeenAt factors below n size k ((List.range k).foldl (npRound below factors n size) ([1], none)).1 ∧
      P k ((List.range k).foldl (npRound below factors n size) ([1], none)).2 := by
    intro k
    induction k with
    | zero =>
      intro _
      refine ⟨?_, h0⟩
      intro m _
      simp
    | succ k ih =>
      intro hk
      obtain ⟨i1, i2⟩ := ih (by omega)
      rw [List.range_succ, List.foldl_append, List.foldl_cons, List.foldl_nil]
      obtain ⟨s1, s2⟩ := seen_round h2 (by omega) hsz i1
      exact ⟨s2, hstep k _ s1 i2⟩
  exact (this (n + 1) (le_refl _)).2

/-! ### primes -/

theorem primes_final {n i : Nat} {factors : List Nat} (hn : 0 < n)
    (hmin : ∀ p, p.Prime → p ∣ n → i ≤ p) (hf : ∀ p ∈ factors, p.Prime) (hs : factors.Pairwise (· ≤ ·))
    (hle : ∀ p ∈ factors, p ≤ i) (hnot : ¬ i * i ≤ n) :
    (if 1 < n then factors ++ [n] else factors).prod = factors.prod * n ∧
      (∀ p ∈ (if 1 < n then factors ++ [n] else factors), p.Prime) ∧
      (if 1 < n then factors ++ [n] else factors).Pairwise (· ≤ ·) := by
  by_cases h1 : 1 < n
  · have hp : n.Prime := by
      by_contra hc
      have h2 := Nat.minFac_sq_le_self hn hc
      have h3 := hmin n.minFac (Nat.minFac_prime (by omega)) (Nat.minFac_dvd n)
      apply hnot
      calc i * i ≤ n.minFac * n.minFac := Nat.mul_le_mul h3 h3
        _ ≤ n := by rw [← sq]; exact h2
    have hin := hmin n hp (dvd_refl n)
    rw [if_pos h1]
    refine ⟨by simp, ?_, ?_⟩
    · intro p hpm
      rcases List.mem_append.1 hpm with h | h
      · exact hf p h
      · rw [List.mem_singleton.1 h]; exact hp
    · rw [List.pairwise_append]
      refine ⟨hs, List.pairwise_singleton _ _, fun a ha b hb => ?_⟩
      rw [List.mem_singleton.1 hb]
      exact le_trans (hle a ha) hin
  · have : n = 1 := by omega
    subst this
    rw [if_neg h1]
    exact ⟨by simp, hf, hs⟩

theorem primesLoop_spec (fuel n i : Nat) (factors : List Nat) (hn : 0 < n) (hi : 2 ≤ i)
    (hmin : ∀ p, p.Prime → p ∣ n → i ≤ p) (hf : ∀ p ∈ factors, p.Prime) (hs : factors.Pairwise (· ≤ ·))
    (hle : ∀ p ∈ factors, p ≤ i) (hfuel : n - i ≤ fuel) :
    ∃ out, primesLoop fuel n i factors = some out ∧ out.prod = factors.prod * n ∧ (∀ p ∈ out, p.Prime) ∧
      out.Pairwise (· ≤ ·) := by
  induction fuel generalizing n i factors with
  | zero =>
    rw [primesLoop]
    have hnot : ¬ i * i ≤ n := by
      intro hc
      have : i < i * i := by nlinarith
      omega
    rw [if_neg hnot]
    exact ⟨_, rfl, primes_final hn hmin hf hs hle hnot⟩
  | succ fuel ih =>
    rw [primesLoop]
    by_cases hc : i * i ≤ n
    · rw [if_pos hc]
      have hin : i < n := by nlinarith
      by_cases hmod : n % i ≠ 0
      · simp only [hmod, ne_eq, not_false_eq_true, if_true]
        refine ih n (i + 1) factors hn (by omega) ?_ hf hs (fun p hp => by have := hle p hp; omega) (by omega)
        intro p hp hpn
        have := hmin p hp hpn
        rcases Nat.lt_or_ge i p with h | h
        · omega
        · have : p = i := by omega
          subst this
          exact absurd (Nat.mod_eq_zero_of_dvd hpn) hmod
      · rw [not_not] at hmod
        have hd : i ∣ n := Nat.dvd_of_mod_eq_zero hmod
        obtain ⟨q, rfl⟩ := hd
        have hq : i * q / i = q := Nat.mul_div_cancel_left q (by omega)
        have hqpos : 0 < q := Nat.pos_of_mul_pos_left hn
        have hqlt : q < i * q := by nlinarith
        have hip : i.Prime := by
          have h3 := hmin i.minFac (Nat.minFac_prime (by omega)) ((Nat.minFac_dvd i).trans (Dvd.intro _ rfl))
          have h4 := Nat.minFac_le (n := i) (by omega)
          have : i.minFac = i := by omega
          rw [← this]; exact Nat.minFac_prime (by omega)
        have := ih q i (factors ++ [i]) hqpos hi (fun p hp hpn => hmin p hp (hpn.trans (Dvd.intro_left i rfl)))
          (by
            intro p hp
            rcases List.mem_append.1 hp with h | h
            · exact hf p h
            · rw [List.mem_singleton.1 h]; exact hip)
          (by
            rw [List.pairwise_append]
            refine ⟨hs, List.pairwise_singleton _ _, fun a ha b hb => ?_⟩
            rw [List.mem_singleton.1 hb]
            exact hle a ha)
          (by
            intro p hp
            rcases List.mem_append.1 hp with h | h
            · exact hle p h
            · rw [List.mem_singleton.1 h])
          (by omega)
        obtain ⟨out, e, e2, e3, e4⟩ := this
        refine ⟨out, ?_, ?_, e3, e4⟩
        · simp only [hmod, ne_eq, not_true, if_false, hq]
          exact e
        · rw [e2]; simp [Nat.mul_assoc]
    · rw [if_neg hc]
      exact ⟨_, rfl, primes_final hn hmin hf hs hle hc⟩

end Pixell
