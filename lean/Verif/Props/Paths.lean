import Verif.Model.Paths
import Mathlib.Tactic.Common

/-
C202: splitting of file paths.
-/
namespace Pixell

/-- Where one is after a part of a path, without links: the names of the directories, innermost first. -/
def goTo (at_ : List String) (part : String) : List String :=
  if part = "/" then [] else if part = "" ∨ part = "." then at_ else if part = ".." then at_.tail else part :: at_

theorem normStep_goes (abs : Bool) (start st : List String) (c : String) (hs : abs = true → start = [])
    (hst : ∀ x ∈ st, x ≠ "/" ∧ x ≠ "" ∧ x ≠ ".") (hc : c ≠ "/") :
    (normStep abs st c).reverse.foldl goTo start = goTo (st.reverse.foldl goTo start) c ∧
    ∀ x ∈ normStep abs st c, x ≠ "/" ∧ x ≠ "" ∧ x ≠ "." := by
  unfold normStep
  split_ifs with h1 h2
  · refine ⟨?_, hst⟩
    simp [goTo, hc, h1]
  · refine ⟨by simp, ?_⟩
    intro x hx
    rcases List.mem_cons.1 hx with e | e
    · subst e
      rw [not_or] at h1
      exact ⟨hc, h1.1, h1.2⟩
    · exact hst x e
  · simp only [not_or, not_and, ne_eq, not_not] at h2
    obtain ⟨e, h3, h4⟩ := h2
    subst e
    refine ⟨?_, fun x hx => hst x (List.mem_of_mem_tail hx)⟩
    cases st with
    | nil =>
      cases abs with
      | false => exact absurd rfl (h3 rfl)
      | true => simp [goTo, hs rfl]
    | cons x st =>
      have hx := hst x List.mem_cons_self
      have hd : x ≠ ".." := by simpa using h4
      simp [goTo, hx.1, hx.2.1, hx.2.2, hd]

theorem normComps_goes (abs : Bool) (start comps : List String) (hs : abs = true → start = []) (hc : ∀ c ∈ comps, c ≠ "/") :
    (normComps abs comps).foldl goTo start = comps.foldl goTo start ∧
    ∀ x ∈ normComps abs comps, x ≠ "/" ∧ x ≠ "" ∧ x ≠ "." := by
  have main : ∀ (comps st : List String), (∀ c ∈ comps, c ≠ "/") → (∀ x ∈ st, x ≠ "/" ∧ x ≠ "" ∧ x ≠ ".") →
      (comps.foldl (normStep abs) st).reverse.foldl goTo start = comps.foldl goTo (st.reverse.foldl goTo start) ∧
      ∀ x ∈ comps.foldl (normStep abs) st, x ≠ "/" ∧ x ≠ "" ∧ x ≠ "." := by
    intro comps
    induction comps with
    | nil => intro st _ h; exact ⟨rfl, h⟩
    | cons c comps ih =>
      intro st hc hst
      obtain ⟨g1, g2⟩ := normStep_goes abs start st c hs hst (hc c List.mem_cons_self)
      obtain ⟨i1, i2⟩ := ih (normStep abs st c) (fun x hx => hc x (List.mem_cons_of_mem _ hx)) g2
      exact ⟨by rw [List.foldl_cons, List.foldl_cons, i1, g1], i2⟩
  obtain ⟨a, b⟩ := main comps [] hc (by simp)
  exact ⟨a, fun x hx => b x (by simpa [normComps] using hx)⟩

/-- C202: going through the parts of a path, from anywhere, leads to the same place as the path itself, from the root if it begins
with a slash, however many slashes, dots and double dots it has. -/
theorem C202_place (slashes : Nat) (comps cwd : List String) (hc : ∀ c ∈ comps, c ≠ "/") :
    (pathSplit slashes comps).foldl goTo cwd = comps.foldl goTo (if slashes = 0 then cwd else []) := by
  unfold pathSplit keptSlashes
  simp only
  by_cases h0 : slashes = 0
  · simp only [h0, if_true, Nat.lt_irrefl, decide_false, if_false]
    have := (normComps_goes false cwd comps (by simp) hc).1
    split_ifs with e
    · rw [e] at this
      rw [← this]
      simp [goTo]
    · exact this
  · have hg : ∀ (k : Nat) (l : List String), (List.replicate k "" ++ l).foldl goTo [] = l.foldl goTo [] := by
      intro k l
      induction k with
      | zero => simp
      | succ k ih => rw [List.replicate_succ, List.cons_append, List.foldl_cons]; simpa [goTo] using ih
    have hk : 0 < (if slashes = 2 then 2 else 1) := by split_ifs <;> omega
    have hcons : ∀ l : List String, ("/" :: l).foldl goTo cwd = l.foldl goTo [] := by intro l; simp [goTo]
    have := (normComps_goes true [] comps (by simp) hc).1
    simp only [h0, if_false, hk, if_true, decide_true]
    rw [hcons, hg]
    split_ifs with e
    · rw [e] at this
      rw [← this]; simp [goTo]
    · exact this

/-- No part of a path goes back: double dots only come first, and not after a slash. -/
theorem normComps_normal (abs : Bool) (comps : List String) :
    (normComps abs comps).Pairwise (fun a b => b = ".." → a = "..") ∧ (abs = true → ".." ∉ normComps abs comps) := by
  have step : ∀ (st : List String) (c : String), st.Pairwise (fun b a => b = ".." → a = "..") ∧ (abs = true → ".." ∉ st) →
      (normStep abs st c).Pairwise (fun b a => b = ".." → a = "..") ∧ (abs = true → ".." ∉ normStep abs st c) := by
    rintro st c ⟨hp, ha⟩
    unfold normStep
    split_ifs with h1 h2
    · exact ⟨hp, ha⟩
    · constructor
      · rw [List.pairwise_cons]
        refine ⟨?_, hp⟩
        intro x hx e
        rcases h2 with h2 | ⟨_, h2⟩ | h2
        · exact absurd e h2
        · rw [h2] at hx; simp at hx
        · cases st with
          | nil => simp at hx
          | cons y st =>
            have hy : y = ".." := by simpa using h2
            rcases List.mem_cons.1 hx with g | g
            · rw [g, hy]
            · exact (List.pairwise_cons.1 hp).1 x g hy
      · intro habs hm
        rcases List.mem_cons.1 hm with g | g
        · rcases h2 with h2 | ⟨h2, _⟩ | h2
          · exact h2 g.symm
          · rw [habs] at h2; exact absurd h2 (by simp)
          · exact ha habs (List.mem_of_mem_head? h2)
        · exact ha habs g
    · exact ⟨hp.tail, fun habs hm => ha habs (List.mem_of_mem_tail hm)⟩
  have main : ∀ (comps st : List String), st.Pairwise (fun b a => b = ".." → a = "..") ∧ (abs = true → ".." ∉ st) →
      (comps.foldl (normStep abs) st).Pairwise (fun b a => b = ".." → a = "..") ∧
      (abs = true → ".." ∉ comps.foldl (normStep abs) st) := by
    intro comps
    induction comps with
    | nil => intro st h; exact h
    | cons c comps ih => intro st h; exact ih _ (step st c h)
  obtain ⟨a, b⟩ := main comps [] ⟨List.Pairwise.nil, by simp⟩
  refine ⟨?_, fun h => by simpa [normComps] using b h⟩
  unfold normComps
  rw [List.pairwise_reverse]
  exact a

/-- C202: the parts of relative paths, and of those with one slash or more than two that lead anywhere below the root, are names, with
"/" only in front of the others, "." only alone, and ".." only in front of names of relative paths. -/
theorem C202_parts_partial (slashes : Nat) (comps : List String) (hc : ∀ c ∈ comps, c ≠ "/") (h2 : slashes ≠ 2)
    (hroot : slashes ≠ 0 → comps.foldl goTo [] ≠ []) :
    ∃ names : List String, (∀ x ∈ names, x ≠ "/" ∧ x ≠ "" ∧ x ≠ ".") ∧ names.Pairwise (fun a b => b = ".." → a = "..") ∧
      (slashes ≠ 0 → ".." ∉ names ∧ names ≠ [] ∧ pathSplit slashes comps = "/" :: names) ∧
      (slashes = 0 → pathSplit slashes comps = if names = [] then ["."] else names) := by
  refine ⟨normComps (decide (slashes ≠ 0)) comps, (normComps_goes _ [] comps (by simp) hc).2, (normComps_normal _ _).1, ?_, ?_⟩
  · intro h0
    have hne : normComps true comps ≠ [] := by
      intro e
      have := (normComps_goes true [] comps (by simp) hc).1
      rw [e] at this
      exact hroot h0 this.symm
    have e : decide (slashes ≠ 0) = true := by simp [h0]
    rw [e]
    refine ⟨(normComps_normal true comps).2 rfl, hne, ?_⟩
    simp [pathSplit, keptSlashes, h0, h2, hne]
  · intro h0
    subst h0
    simp [pathSplit, keptSlashes]

example : pathSplit 1 ["a", "", "b", ".", "..", "c"] = ["/", "a", "c"] ∧ pathSplit 0 ["..", "a", "..", "..", "b"] = ["..", "..", "b"] ∧
    pathSplit 3 ["..", "a", ""] = ["/", "a"] ∧ pathSplit 0 ["a", ".."] = ["."] := by decide +kernel

/-- C202 refuted for paths that lead to the root, and for all that begin with exactly two slashes: there is a part without a
name. -/
theorem C202_parts_refuted (slashes : Nat) (comps : List String) (h0 : slashes ≠ 0) (hc : ∀ c ∈ comps, c ≠ "/")
    (h : slashes = 2 ∨ comps.foldl goTo [] = []) : "" ∈ pathSplit slashes comps := by
  have pos : 0 < keptSlashes slashes := by unfold keptSlashes; split_ifs <;> omega
  unfold pathSplit
  simp only [pos, if_true, decide_true]
  rcases h with h | h
  · subst h
    simp [keptSlashes]
  · have hd := (normComps_goes true [] comps (by simp) hc)
    have hnil : normComps true comps = [] := by
      have h1 := hd.1
      rw [h] at h1
      have h2 := (normComps_normal true comps).2 rfl
      by_contra hne
      obtain ⟨l, x, e⟩ := List.eq_nil_or_concat' (normComps true comps) |>.resolve_left hne
      have hx := hd.2 x (by rw [e]; simp)
      have hxd : x ≠ ".." := by rintro rfl; exact h2 (by rw [e]; simp)
      rw [e, List.foldl_append] at h1
      simp [goTo, hx.1, hx.2.1, hx.2.2, hxd] at h1
    rw [hnil]
    simp

example : pathSplit 1 [""] = ["/", ""] ∧ pathSplit 2 ["a"] = ["/", "", "a"] := by decide +kernel

end Pixell
