import Verif.Model.Timing
import Mathlib.Algebra.Order.BigOperators.Group.List
import Mathlib.Tactic.Linarith
import Mathlib.Tactic.Ring

/-
C200: timing of blocks of code.
-/
namespace Pixell

/-! ### What a program does, without any bookkeeping -/

/-- Whether it ends in an exception. -/
def Timed.raises : Timed → Bool
  | .work _ => false
  | .raise => true
  | .seq p q => p.raises || q.raises
  | .attempt _ => false
  | .mark _ _ b => b.raises
  | .show _ _ b => b.raises

/-- The time it takes on a clock. -/
def Timed.takes : Timed → Nat → ℚ
  | .work d, c => d c
  | .raise, _ => 0
  | .seq p q, c => if p.raises then p.takes c else p.takes c + q.takes c
  | .attempt p, c => p.takes c
  | .mark _ _ b, c => b.takes c
  | .show _ _ b, c => b.takes c

/-- The blocks that are entered, in the order in which they end, each with the time its body takes on the clock given for it. -/
def Timed.blocks : Timed → List (String × ℚ)
  | .work _ => []
  | .raise => []
  | .seq p q => if p.raises then p.blocks else p.blocks ++ q.blocks
  | .attempt p => p.blocks
  | .mark name clock b => b.blocks ++ [(name, b.takes (clock.getD 0))]
  | .show name clock b => b.blocks ++ [(name, b.takes (clock.getD 0))]

/-- The names of the shown blocks that are entered, in the order in which they end. -/
def Timed.shown : Timed → List String
  | .work _ => []
  | .raise => []
  | .seq p q => if p.raises then p.shown else p.shown ++ q.shown
  | .attempt p => p.shown
  | .mark _ _ b => b.shown
  | .show name _ b => b.shown ++ [name]

/-- No clock but the standard one is given to a shown block. -/
def Timed.PlainShow : Timed → Prop
  | .work _ => True
  | .raise => True
  | .seq p q => p.PlainShow ∧ q.PlainShow
  | .attempt p => p.PlainShow
  | .mark _ _ b => b.PlainShow
  | .show _ clock b => clock.getD 0 = 0 ∧ b.PlainShow

/-- The times of the blocks with a name. -/
def timesOf (name : String) (l : List (String × ℚ)) : List ℚ := (l.filter fun p => p.1 = name).map fun p => p.2

/-- The bunches tell the times of a list of blocks. -/
def Tells (s : BenchSt) (l : List (String × ℚ)) : Prop :=
  ∀ name, (timesOf name l = [] → s.n name = none ∧ s.tot name = none ∧ s.t name = none) ∧
    (timesOf name l ≠ [] → s.n name = some (timesOf name l).length ∧ s.tot name = some (timesOf name l).sum ∧
      s.t name = (timesOf name l).getLast?)

theorem timesOf_append (name : String) (l k : List (String × ℚ)) : timesOf name (l ++ k) = timesOf name l ++ timesOf name k := by
  simp [timesOf]

theorem tells_add (s : BenchSt) (l : List (String × ℚ)) (h : Tells s l) (name : String) (dt : ℚ) :
    Tells (s.add name dt) (l ++ [(name, dt)]) := by
  intro k
  rw [timesOf_append]
  by_cases e : k = name
  · subst e
    have e1 : timesOf k [(k, dt)] = [dt] := by simp [timesOf]
    rw [e1]
    refine ⟨fun c => by simp at c, fun _ => ?_⟩
    by_cases hl : timesOf k l = []
    · obtain ⟨a, b, c⟩ := (h k).1 hl
      simp [BenchSt.add, setKey, a, hl]
    · obtain ⟨a, b, c⟩ := (h k).2 hl
      simp [BenchSt.add, setKey, a, b]
  · have e1 : timesOf k [(name, dt)] = [] := by simp [timesOf, Ne.symm e]
    rw [e1, List.append_nil]
    have := h k
    simpa [BenchSt.add, setKey, e] using this

theorem run_raises : ∀ (p : Timed) (s : BenchSt), (p.run s).2 = p.raises
  | .work _, _ => rfl
  | .raise, _ => rfl
  | .seq p q, s => by
    simp only [Timed.run, Timed.raises, run_raises p]
    cases h : p.raises
    · simpa using run_raises q _
    · simp [run_raises p, h]
  | .attempt _, _ => rfl
  | .mark _ _ b, s => by simpa [Timed.run, Timed.raises] using run_raises b s
  | .show _ _ b, s => by simpa [Timed.run, Timed.raises] using run_raises b s

theorem run_now : ∀ (p : Timed) (s : BenchSt) (c : Nat), (p.run s).1.now c = s.now c + p.takes c
  | .work _, _, _ => rfl
  | .raise, _, _ => by simp [Timed.run, Timed.takes]
  | .seq p q, s, c => by
    simp only [Timed.run, Timed.takes, run_raises p]
    cases h : p.raises
    · simp only [Bool.false_eq_true, if_false]
      rw [run_now q, run_now p]; ring
    · simp only [if_true]
      exact run_now p s c
  | .attempt p, s, c => run_now p s c
  | .mark _ _ b, s, c => by simpa [Timed.run, Timed.takes, BenchSt.add] using run_now b s c
  | .show _ _ b, s, c => by simpa [Timed.run, Timed.takes, BenchSt.add, BenchSt.print] using run_now b s c

theorem run_tells : ∀ (p : Timed) (s : BenchSt) (l : List (String × ℚ)), p.PlainShow → Tells s l →
    Tells (p.run s).1 (l ++ p.blocks)
  | .work _, s, l, _, h => by simpa [Timed.run, Timed.blocks, Tells] using h
  | .raise, s, l, _, h => by simpa [Timed.run, Timed.blocks] using h
  | .seq p q, s, l, hp, h => by
    simp only [Timed.run, Timed.blocks, run_raises p]
    have h1 := run_tells p s l hp.1 h
    cases e : p.raises
    · simp only [Bool.false_eq_true, if_false]
      rw [← List.append_assoc]
      exact run_tells q _ _ hp.2 h1
    · simpa using h1
  | .attempt p, s, l, hp, h => run_tells p s l hp h
  | .mark name clock b, s, l, hp, h => by
    have := tells_add _ _ (run_tells b s l hp h) name (b.takes (clock.getD 0))
    simp only [Timed.run, Timed.blocks, run_now b, ← List.append_assoc]
    rw [add_sub_cancel_left]
    exact this
  | .show name clock b, s, l, hp, h => by
    have := tells_add _ _ (run_tells b s l hp.2 h) name (b.takes (clock.getD 0))
    simp only [Timed.run, Timed.blocks, run_now b, ← List.append_assoc]
    rw [add_sub_cancel_left]
    rw [hp.1] at this ⊢
    exact this

/-- C200: after any program, however its blocks are nested and whatever is raised or caught, every name has the number of its
blocks, the sum of their times and the time of the last that ended; exceptions pass through.  Shown blocks have the standard
clock. -/
theorem C200_times_partial (p : Timed) (now : Nat → ℚ) (hp : p.PlainShow) :
    Tells (p.run (.fresh now)).1 p.blocks ∧ (p.run (.fresh now)).2 = p.raises := by
  refine ⟨?_, run_raises p _⟩
  have := run_tells p (.fresh now) [] hp (by intro k; simp [timesOf, BenchSt.fresh])
  simpa using this

/-- C200: the same for programs that run one after another on the same Bench. -/
theorem C200_history (ps : List Timed) (now : Nat → ℚ) (hp : ∀ p ∈ ps, p.PlainShow) :
    Tells (ps.foldl (fun s p => (p.run s).1) (.fresh now)) (ps.flatMap Timed.blocks) := by
  have : ∀ (ps : List Timed) (s : BenchSt) (l : List (String × ℚ)), (∀ p ∈ ps, p.PlainShow) → Tells s l →
      Tells (ps.foldl (fun s p => (p.run s).1) s) (l ++ ps.flatMap Timed.blocks) := by
    intro ps
    induction ps with
    | nil => intro s l _ h; simpa using h
    | cons p ps ih =>
      intro s l hp h
      rw [List.foldl_cons, List.flatMap_cons, ← List.append_assoc]
      exact ih _ _ (fun q hq => hp q (List.mem_cons_of_mem _ hq)) (run_tells p s l (hp p List.mem_cons_self) h)
  simpa using this ps (.fresh now) [] hp (by intro k; simp [timesOf, BenchSt.fresh])

/-- Two blocks of "read" in one of "all"; the second raises, what comes after it does not run. -/
example :
    let p : Timed := .attempt (.mark "all" none (.seq (.mark "read" none (.work fun _ => 2)) (.seq (.work fun _ => 1)
      (.seq (.mark "read" none (.seq (.work fun _ => 5) .raise)) (.mark "write" none (.work fun _ => 9))))))
    p.PlainShow ∧ p.blocks = [("read", 2), ("read", 5), ("all", 8)] := by
  refine ⟨by simp [Timed.PlainShow], by decide +kernel⟩

/-- C200 refuted for shown blocks with a clock: the time is that of the standard clock, not of the one given, whenever they
differ. -/
theorem C200_clock_refuted (name : String) (c : Nat) (b : Timed) (now : Nat → ℚ) (h : b.takes c ≠ b.takes 0) :
    ((Timed.show name (some c) b).run (.fresh now)).1.t name ≠ some (b.takes c) ∧
    ((Timed.mark name (some c) b).run (.fresh now)).1.t name = some (b.takes c) := by
  constructor
  · simp only [Timed.run, run_now, add_sub_cancel_left, BenchSt.add, BenchSt.print, setKey, if_true]
    intro e
    exact h (Option.some.inj e).symm
  · simp [Timed.run, run_now, BenchSt.add, setKey]

example : (Timed.work fun c => c).takes 1 ≠ (Timed.work fun c => c).takes 0 := by decide +kernel

/-! ### Printing -/

/-- C200: a line is printed for each shown block, in the order in which they end, also if they raise, and none for others. -/
theorem C200_lines (p : Timed) : ∀ s : BenchSt, ((p.run s).1.out.map fun l => l.1) = (s.out.map fun l => l.1) ++ p.shown := by
  induction p with
  | work d => intro s; simp [Timed.run, Timed.shown]
  | raise => intro s; simp [Timed.run, Timed.shown]
  | seq p q ihp ihq =>
    intro s
    simp only [Timed.run, Timed.shown, run_raises p]
    cases e : p.raises
    · simp only [Bool.false_eq_true, if_false]
      rw [ihq, ihp, List.append_assoc]
    · simpa using ihp s
  | attempt p ih => exact ih
  | mark name clock b ih => intro s; simpa [Timed.run, Timed.shown, BenchSt.add] using ih s
  | «show» name clock b ih =>
    intro s
    have := ih s
    simp only [Timed.run, Timed.shown, BenchSt.add, BenchSt.print, List.map_append, List.map_cons, List.map_nil]
    rw [this, List.append_assoc]

/-- C200: the line of a shown block has the time of the block, the mean of the times of all blocks with this name so far,
itself and blocks in it included, and their number. -/
theorem C200_line (name : String) (b : Timed) (s : BenchSt) (l : List (String × ℚ)) (hb : b.PlainShow) (h : Tells s l) :
    let ts := timesOf name (l ++ b.blocks) ++ [b.takes 0]
    ((Timed.show name none b).run s).1.out.getLast? = some (name, b.takes 0, ts.sum / ts.length, ts.length) := by
  have ht := run_tells (.mark name none b) s l hb h
  have hne : timesOf name (l ++ (Timed.mark name none b).blocks) = timesOf name (l ++ b.blocks) ++ [b.takes 0] := by
    rw [Timed.blocks, ← List.append_assoc, timesOf_append]
    simp [timesOf]
  obtain ⟨h1, h2, h3⟩ := (ht name).2 (by rw [hne]; simp)
  rw [hne] at h1 h2 h3
  have e : ((Timed.show name none b).run s).1 = (((Timed.mark name none b).run s).1).print name := rfl
  intro ts
  rw [e]
  simp only [BenchSt.print, List.getLast?_append, List.getLast?_singleton, Option.some_or, h1, h2, h3]
  simp [ts]

/-! ### Totals and the time that has passed -/

/-- Nothing takes negative time. -/
def Timed.Forward : Timed → Prop
  | .work d => ∀ c, 0 ≤ d c
  | .raise => True
  | .seq p q => p.Forward ∧ q.Forward
  | .attempt p => p.Forward
  | .mark _ _ b => b.Forward
  | .show _ _ b => b.Forward

/-- The name of a block occurs in a program. -/
def Timed.Has (name : String) : Timed → Prop
  | .work _ => False
  | .raise => False
  | .seq p q => p.Has name ∨ q.Has name
  | .attempt p => p.Has name
  | .mark k _ b => k = name ∨ b.Has name
  | .show k _ b => k = name ∨ b.Has name

/-- All blocks with the name have the standard clock and none is in another one with that name. -/
def Timed.Flat (name : String) : Timed → Prop
  | .work _ => True
  | .raise => True
  | .seq p q => p.Flat name ∧ q.Flat name
  | .attempt p => p.Flat name
  | .mark k clock b => b.Flat name ∧ (k = name → clock.getD 0 = 0 ∧ ¬ b.Has name)
  | .show k clock b => b.Flat name ∧ (k = name → clock.getD 0 = 0 ∧ ¬ b.Has name)

theorem takes_nonneg (p : Timed) (h : p.Forward) (c : Nat) : 0 ≤ p.takes c := by
  induction p with
  | work d => exact h c
  | raise => exact le_rfl
  | seq p q ihp ihq =>
    have := ihp h.1; have := ihq h.2
    simp only [Timed.takes]; split_ifs <;> linarith
  | attempt p ih => exact ih h
  | mark _ _ b ih => exact ih h
  | «show» _ _ b ih => exact ih h

theorem timesOf_hasnt (name : String) (p : Timed) (h : ¬ p.Has name) : timesOf name p.blocks = [] := by
  induction p with
  | work d => rfl
  | raise => rfl
  | seq p q ihp ihq =>
    simp only [Timed.Has, not_or] at h
    simp only [Timed.blocks]
    split_ifs
    · exact ihp h.1
    · rw [timesOf_append, ihp h.1, ihq h.2]; rfl
  | attempt p ih => exact ih h
  | mark k _ b ih =>
    simp only [Timed.Has, not_or] at h
    rw [Timed.blocks, timesOf_append, ih h.2]
    simp [timesOf, h.1]
  | «show» k _ b ih =>
    simp only [Timed.Has, not_or] at h
    rw [Timed.blocks, timesOf_append, ih h.2]
    simp [timesOf, h.1]

theorem flat_sum (name : String) (p : Timed) (hf : p.Forward) (h : p.Flat name) : (timesOf name p.blocks).sum ≤ p.takes 0 := by
  have block : ∀ (k : String) (clock : Option Nat) (b : Timed), b.Forward → (timesOf name b.blocks).sum ≤ b.takes 0 →
      (k = name → clock.getD 0 = 0 ∧ ¬ b.Has name) →
      (timesOf name (b.blocks ++ [(k, b.takes (clock.getD 0))])).sum ≤ b.takes 0 := by
    intro k clock b hb ih hk
    rw [timesOf_append]
    by_cases e : k = name
    · obtain ⟨hc, hn⟩ := hk e
      rw [timesOf_hasnt name b hn, hc]
      simp [timesOf, e]
    · have : timesOf name [(k, b.takes (clock.getD 0))] = [] := by simp [timesOf, e]
      rw [this, List.append_nil]
      exact ih
  induction p with
  | work d => simpa [Timed.blocks, timesOf, Timed.takes] using hf 0
  | raise => simp [Timed.blocks, timesOf, Timed.takes]
  | seq p q ihp ihq =>
    have h1 := ihp hf.1 h.1; have h2 := ihq hf.2 h.2
    simp only [Timed.blocks, Timed.takes]
    split_ifs
    · exact h1
    · rw [timesOf_append, List.sum_append]; linarith
  | attempt p ih => exact ih hf h
  | mark k clock b ih => exact block k clock b hf (ih hf h.1) h.2
  | «show» k clock b ih => exact block k clock b hf (ih hf h.1) h.2

/-- C200: the total of a name is at most the time that has passed, if no block with this name is in another one. -/
theorem C200_total_partial (p : Timed) (now : Nat → ℚ) (name : String) (hp : p.PlainShow) (hf : p.Forward) (h : p.Flat name)
    (tot : ℚ) (ht : (p.run (.fresh now)).1.tot name = some tot) : tot ≤ (p.run (.fresh now)).1.now 0 - now 0 := by
  have hs := (C200_times_partial p now hp).1 name
  have e : (p.run (.fresh now)).1.now 0 - now 0 = p.takes 0 := by
    rw [run_now]; simp [BenchSt.fresh]
  rw [e]
  by_cases hn : timesOf name p.blocks = []
  · have := (hs.1 hn).2.1
    rw [this] at ht; simp at ht
  · have := (hs.2 hn).2.1
    rw [this, Option.some.injEq] at ht
    rw [← ht]
    exact flat_sum name p hf h

/-- C200 refuted for blocks inside blocks of the same name, as in recursive functions: time is counted once for each level, so
that the total is more than the time that has passed. -/
theorem C200_total_refuted (name : String) (d : ℚ) (hd : 0 < d) (k : Nat) (hk : 2 ≤ k) (now : Nat → ℚ) :
    let p := (Timed.mark name none)^[k] (.work fun _ => d)
    (p.run (.fresh now)).1.tot name = some (k * d) ∧ (p.run (.fresh now)).1.now 0 - now 0 = d ∧
      (p.run (.fresh now)).1.now 0 - now 0 < k * d := by
  intro p
  have tk : ∀ k : Nat, ((Timed.mark name none)^[k] (.work fun _ => d)).takes 0 = d := by
    intro k
    induction k with
    | zero => rfl
    | succ k ih => rw [Function.iterate_succ_apply']; exact ih
  have bl : ∀ k : Nat, timesOf name ((Timed.mark name none)^[k] (.work fun _ => d)).blocks = List.replicate k d := by
    intro k
    induction k with
    | zero => rfl
    | succ k ih =>
      rw [Function.iterate_succ_apply', Timed.blocks, timesOf_append, ih, List.replicate_succ']
      simp [timesOf, tk]
  have pl : ∀ k : Nat, ((Timed.mark name none)^[k] (.work fun _ => d)).PlainShow := by
    intro k
    induction k with
    | zero => trivial
    | succ k ih => rw [Function.iterate_succ_apply']; exact ih
  have e : (p.run (.fresh now)).1.now 0 - now 0 = d := by
    rw [run_now]; simp [BenchSt.fresh, p, tk]
  refine ⟨?_, e, ?_⟩
  · have := (((C200_times_partial p now (pl k)).1 name).2 (by rw [bl]; simp; omega)).2.1
    rw [this, bl]
    simp
  · rw [e]
    have : (2 : ℚ) ≤ k := by exact_mod_cast hk
    nlinarith

end Pixell
