import Verif.Model.Settings
import Mathlib.Data.List.Infix
import Mathlib.Tactic.Linarith
import Mathlib.Tactic.Ring

/-
C201: environment variables, text replacement and fractional offsets.
-/
namespace Pixell

/-! ### Environment variables -/

/-- A call of setenv. -/
structure EnvCall where
  name : String
  value : Option String
  keep : Bool

/-- The value a variable should have after some calls, the first of which comes first: each call for this variable that need not
keep what there is sets it to the given value, or deletes it. -/
def wanted (name : String) : Option String → List EnvCall → Option String
  | v, [] => v
  | v, c :: cs => wanted name (if c.name = name then (if c.keep then v.or c.value else c.value) else v) cs

/-- C201: after any sequence of calls of setenv every variable has the value of the last call that was to set it, deleted ones have
none, and getenv gives the default exactly for those. -/
theorem C201_history (cs : List EnvCall) (e : Environ) (name : String) (default : Option String) :
    let e' := cs.foldl (fun e c => setEnv e c.name c.value c.keep) e
    e' name = wanted name (e name) cs ∧
    getEnv e' name default = (wanted name (e name) cs).or default := by
  have main : (cs.foldl (fun e c => setEnv e c.name c.value c.keep) e) name = wanted name (e name) cs := by
    induction cs generalizing e with
    | nil => rfl
    | cons c cs ih =>
      rw [List.foldl_cons, ih, wanted]
      congr 1
      unfold setEnv
      by_cases hn : c.name = name
      · subst hn
        cases h : e c.name <;> cases hk : c.keep <;> cases hv : c.value <;> simp [h]
      · cases h : e c.name <;> cases hk : c.keep <;> cases hv : c.value <;> simp [hn, Ne.symm hn]
  refine ⟨main, ?_⟩
  simp only [getEnv, main]
  cases wanted name (e name) cs <;> rfl

example : wanted "A" (some "0") [⟨"A", some "1", true⟩, ⟨"A", none, false⟩, ⟨"B", some "2", false⟩, ⟨"A", some "3", true⟩] = some "3" := by
  decide +kernel

/-! ### replace -/

theorem replaceFrom_absent (pat rep : List Char) : ∀ s : List Char, ¬ pat <:+: s → replaceFrom pat rep s 0 = s
  | [], _ => rfl
  | c :: s, h => by
    have h1 : ¬ pat.isPrefixOf (c :: s) = true := by
      intro e
      exact h (List.isPrefixOf_iff_prefix.1 e).isInfix
    have h2 : ¬ pat <:+: s := fun e => h (e.trans (List.suffix_cons c s).isInfix)
    rw [replaceFrom, if_neg h1, replaceFrom_absent pat rep s h2]

theorem replaceFrom_skip (pat rep : List Char) : ∀ (s : List Char) (k : Nat),
    replaceFrom pat rep s k = replaceFrom pat rep (s.drop k) 0
  | s, 0 => by simp
  | [], k + 1 => by simp [replaceFrom]
  | c :: s, k + 1 => by rw [replaceFrom, List.drop_succ_cons]; exact replaceFrom_skip pat rep s k

theorem replaceFrom_append (pat rep : List Char) (hp : pat ≠ []) (t : List Char) :
    replaceFrom pat rep (pat ++ t) 0 = rep ++ replaceFrom pat rep t 0 := by
  obtain ⟨c, p, rfl⟩ := List.exists_cons_of_ne_nil hp
  rw [List.cons_append, replaceFrom, if_pos (by
    rw [List.isPrefixOf_iff_prefix]; exact ⟨t, rfl⟩), replaceFrom_skip]
  simp

/-- C201: replacing works from the left: what is before the first occurrence stays, the occurrence is replaced, and the
rest is treated in the same way. -/
theorem C201_replace (s pat rep : List Char) (hp : pat ≠ []) (h : pat <:+: s) :
    ∃ a t, s = a ++ pat ++ t ∧ (∀ a' t', s = a' ++ pat ++ t' → a.length ≤ a'.length) ∧
      replaceFrom pat rep s 0 = a ++ rep ++ replaceFrom pat rep t 0 := by
  induction s with
  | nil => exact absurd (List.infix_nil.1 h) hp
  | cons c s ih =>
    by_cases hpre : pat <+: c :: s
    · obtain ⟨t, e⟩ := hpre
      refine ⟨[], t, by simp [e], by simp, ?_⟩
      rw [← e, replaceFrom_append pat rep hp]
      simp
    · have hs : pat <:+: s := by
        rcases List.infix_cons_iff.1 h with h | h
        · exact absurd h hpre
        · exact h
      obtain ⟨a, t, e1, e2, e3⟩ := ih hs
      refine ⟨c :: a, t, by simp [e1], ?_, ?_⟩
      · intro a' t' e
        cases a' with
        | nil => exact absurd ⟨t', by simpa using e.symm⟩ hpre
        | cons x a' =>
          have : s = a' ++ pat ++ t' := by
            simp only [List.cons_append, List.cons.injEq] at e
            exact e.2
          simpa using e2 a' t' this
      · rw [replaceFrom, if_neg (by rw [List.isPrefixOf_iff_prefix]; exact hpre), e3]
        simp

theorem replaceFrom_self (pat : List Char) (hp : pat ≠ []) : ∀ (n : Nat) (s : List Char), s.length ≤ n → replaceFrom pat pat s 0 = s
  | 0, s, h => by
    have : s = [] := List.length_eq_zero_iff.1 (by omega)
    subst this; rfl
  | n + 1, s, h => by
    by_cases hi : pat <:+: s
    · obtain ⟨a, t, e, _, e3⟩ := C201_replace s pat pat hp hi
      have : 0 < pat.length := List.length_pos_iff.2 hp
      have hl : s.length = a.length + pat.length + t.length := by rw [e]; simp [Nat.add_assoc]
      rw [e3, replaceFrom_self pat hp n t (by omega), ← e]
    · exact replaceFrom_absent pat pat s hi

theorem replaceFrom_length (pat rep : List Char) (hp : pat ≠ []) : ∀ (n : Nat) (s : List Char), s.length ≤ n →
    (rep.length ≤ pat.length → (replaceFrom pat rep s 0).length ≤ s.length) ∧
    (pat.length ≤ rep.length → s.length ≤ (replaceFrom pat rep s 0).length)
  | 0, s, h => by
    have : s = [] := List.length_eq_zero_iff.1 (by omega)
    subst this; simp [replaceFrom]
  | n + 1, s, h => by
    by_cases hi : pat <:+: s
    · obtain ⟨a, t, e, _, e3⟩ := C201_replace s pat rep hp hi
      have hpos : 0 < pat.length := List.length_pos_iff.2 hp
      have hl : s.length = a.length + pat.length + t.length := by rw [e]; simp [Nat.add_assoc]
      obtain ⟨i1, i2⟩ := replaceFrom_length pat rep hp n t (by omega)
      have hl' : (replaceFrom pat rep s 0).length = a.length + rep.length + (replaceFrom pat rep t 0).length := by
        rw [e3]; simp [Nat.add_assoc]
      constructor
      · intro g; have := i1 g; omega
      · intro g; have := i2 g; omega
    · rw [replaceFrom_absent pat rep s hi]
      exact ⟨fun _ => le_rfl, fun _ => le_rfl⟩

/-- C201: for a replacement that differs from the pattern, replace raises exactly if the pattern is not found. -/
theorem C201_found_partial (s pat rep : List Char) (hp : pat ≠ []) (hr : rep ≠ pat) :
    replaceText s pat rep = none ↔ ¬ pat <:+: s := by
  unfold replaceText
  simp only
  constructor
  · intro h hi
    split_ifs at h with e
    obtain ⟨a, t, es, _, e3⟩ := C201_replace s pat rep hp hi
    rw [e3] at e
    have hl : (replaceFrom pat rep t 0).length + rep.length = t.length + pat.length := by
      have := congrArg List.length (e.trans es)
      simp at this; omega
    obtain ⟨i1, i2⟩ := replaceFrom_length pat rep hp t.length t le_rfl
    have hlen : rep.length = pat.length := by
      rcases le_total rep.length pat.length with g | g
      · have := i1 g; omega
      · have := i2 g; omega
    have : rep ++ replaceFrom pat rep t 0 = pat ++ t := by
      have := e.trans es
      rw [List.append_assoc, List.append_assoc] at this
      exact List.append_cancel_left this
    exact hr (List.append_inj_left this hlen)
  · intro h
    rw [replaceFrom_absent pat rep s h, if_pos rfl]

example : replaceText "banana".toList "an".toList "o".toList = some "booa".toList ∧
    replaceText "banana".toList "am".toList "o".toList = none := by decide +kernel

/-- C201 refuted for a replacement equal to the pattern: replace raises "Pattern not found" although it is there. -/
theorem C201_found_refuted (a t pat : List Char) (hp : pat ≠ []) :
    pat <:+: a ++ pat ++ t ∧ replaceText (a ++ pat ++ t) pat pat = none := by
  refine ⟨⟨a, t, rfl⟩, ?_⟩
  unfold replaceText
  simp only
  rw [replaceFrom_self pat hp _ _ le_rfl, if_pos rfl]

/-! ### hasoff -/

/-- C201: hasoff tells whether the value is an integer plus the offset, to the given tolerance, for all values, offsets and
tolerances. -/
theorem C201_hasoff (val off tol : ℚ) : hasOff val off tol = true ↔ ∃ k : ℤ, |val - (k + off)| < tol := by
  unfold hasOff
  simp only [decide_eq_true_eq]
  set x := val - off + 1 / 2 with hx
  have h0 := Int.floor_le x
  have h1 := Int.lt_floor_add_one x
  have e : x - ⌊x⌋ - 1 / 2 = val - (⌊x⌋ + off) := by rw [hx]; ring
  constructor
  · intro h
    exact ⟨⌊x⌋, by rw [← e]; exact h⟩
  · rintro ⟨k, hk⟩
    refine lt_of_le_of_lt ?_ hk
    rw [e]
    have v : val = x + off - 1 / 2 := by rw [hx]; ring
    rcases lt_trichotomy k ⌊x⌋ with g | g | g
    · have g' : (k : ℚ) + 1 ≤ ⌊x⌋ := by exact_mod_cast g
      rw [abs_le]
      have := le_abs_self (val - (k + off))
      constructor <;> linarith
    · rw [g]
    · have g' : (⌊x⌋ : ℚ) + 1 ≤ k := by exact_mod_cast g
      rw [abs_le]
      have := neg_abs_le (val - (k + off))
      constructor <;> linarith

example : hasOff (173 / 10) (3 / 10) (1 / 1000000) = true ∧ hasOff (-27 / 10) (3 / 10) (1 / 1000000) = true ∧
    hasOff (174 / 10) (3 / 10) (1 / 1000000) = false := by decide +kernel

end Pixell
