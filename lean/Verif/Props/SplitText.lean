import Verif.Model.SplitText
import Verif.Props.Store
import Mathlib.Tactic.Linarith
import Mathlib.Tactic.Ring
import Mathlib.Tactic.NormNum

/-
Property C118: splitting of strings outside groups.
-/
namespace Pixell

/-- The specification, in one pass: outside groups the separator ends a token, and an opening character opens a group; a
group ends where as many closing as opening characters of its own kind have been met.  The result is the finished tokens and
the last one. -/
def scanOutside (start stop : List Char) (sep : Char) : List Char → (depth kind : Nat) → List Char → List (List Char)
  | [], _, _, tok => [tok]
  | c :: cs, 0, kind, tok =>
    match start.idxOf? c with
    | some k => scanOutside start stop sep cs 1 k (tok ++ [c])
    | none => if c = sep then tok :: scanOutside start stop sep cs 0 kind [] else scanOutside start stop sep cs 0 kind (tok ++ [c])
  | c :: cs, d + 1, kind, tok =>
    if start[kind]? = some c then scanOutside start stop sep cs (d + 2) kind (tok ++ [c])
    else if stop[kind]? = some c then scanOutside start stop sep cs d kind (tok ++ [c])
    else scanOutside start stop sep cs (d + 1) kind (tok ++ [c])

/-- One character outside groups. -/
def charStep (sep : Char) (res : List (List Char) × List Char) (c : Char) : List (List Char) × List Char :=
  if c = sep then (res.1 ++ [res.2], []) else (res.1, res.2 ++ [c])

/-- The tokens of a segment added to the result. -/
def addToks (res : List (List Char) × List Char) : List (List Char) → List (List Char) × List Char
  | [] => res
  | t :: ts => match ts.getLast? with
    | none => (res.1, res.2 ++ t)
    | some z => (res.1 ++ (res.2 ++ t) :: ts.dropLast, z)

theorem addToks_split (sep : Char) (seg : List Char) (res : List (List Char) × List Char) :
    addToks res (pySplit sep seg) = seg.foldl (charStep sep) res := by
  induction seg generalizing res with
  | nil => simp [pySplit, addToks]
  | cons x xs ih =>
    have hne := pySplit_ne_nil sep xs
    rw [List.foldl_cons, ← ih]
    rw [show pySplit sep (x :: xs) = if x = sep then [] :: pySplit sep xs else match pySplit sep xs with
      | [] => [[x]]
      | t :: ts => (x :: t) :: ts from rfl]
    unfold charStep
    by_cases hx : x = sep
    · rw [if_pos hx, if_pos hx]
      cases hs : pySplit sep xs with
      | nil => exact absurd hs hne
      | cons u us =>
        cases us with
        | nil => simp [addToks]
        | cons w ws =>
          simp only [addToks, List.getLast?_cons_cons]
          cases hl : (w :: ws).getLast? with
          | none => simp at hl
          | some z => simp
    · rw [if_neg hx, if_neg hx]
      cases hs : pySplit sep xs with
      | nil => exact absurd hs hne
      | cons u us =>
        simp only [addToks]
        cases us.getLast? with
        | none => simp
        | some z => simp

theorem outsideStep_eq (start : List Char) (sep : Char) (res : List (List Char) × List Char) (seg : List Char) :
    outsideStep start sep res seg = if (∃ c ∈ seg.head?, c ∈ start) then (res.1, res.2 ++ seg) else seg.foldl (charStep sep) res := by
  cases seg with
  | nil => simp [outsideStep]
  | cons c cs =>
    unfold outsideStep
    by_cases hc : c ∈ start
    · simp [hc]
    · simp only [hc, if_false, List.head?_cons, Option.mem_def, Option.some.injEq, exists_eq_left']
      exact addToks_split sep (c :: cs) res

/-- What the state of split_by_group stands for: the tokens of the segments so far. -/
def outState (start : List Char) (sep : Char) (s : GroupSt) : List (List Char) × List Char :=
  (s.done ++ s.last.toList).foldl (outsideStep start sep) ([], [])

/-- The states that occur. -/
def GroupOk (start : List Char) (s : GroupSt) : Prop :=
  (s.n = 0 → s.new = false → ∃ seg, s.last = some seg ∧ ∀ c ∈ seg.head?, c ∉ start) ∧
  (s.n ≠ 0 → s.new = false ∧ s.ind < start.length ∧ ∃ c seg, s.last = some (c :: seg) ∧ c ∈ start)

theorem idxOf?_spec {l : List Char} {c : Char} {k : Nat} (h : l.idxOf? c = some k) : k < l.length ∧ c ∈ l := by
  unfold List.idxOf? at h
  obtain ⟨h1, h2, -⟩ := List.findIdx?_eq_some_iff_getElem.1 h
  exact ⟨h1, by have := eq_of_beq h2; rw [← this]; exact List.getElem_mem h1⟩

theorem idxOf?_none {l : List Char} {c : Char} (h : l.idxOf? c = none) : c ∉ l := by
  unfold List.idxOf? at h
  rw [List.findIdx?_eq_none_iff] at h
  intro hc
  simpa using h c hc

theorem outState_append (start : List Char) (sep : Char) (s : GroupSt) : outState start sep s.append = outState start sep s := by
  unfold outState GroupSt.append
  simp [outsideStep]

/-- Adding a character to the last segment. -/
theorem outState_add (start : List Char) (sep : Char) (s : GroupSt) (seg : List Char) (c : Char) (h : s.last = some seg) :
    outState start sep { s with last := some (s.last.getD [] ++ [c]) } =
      if (∃ x ∈ (seg ++ [c]).head?, x ∈ start) then ((outState start sep s).1, (outState start sep s).2 ++ [c])
      else charStep sep (outState start sep s) c := by
  unfold outState
  rw [h]
  simp only [Option.getD_some, Option.toList_some, List.foldl_append, List.foldl_cons, List.foldl_nil]
  generalize s.done.foldl (outsideStep start sep) ([], []) = res
  rw [outsideStep_eq, outsideStep_eq]
  cases seg with
  | nil => simp
  | cons x xs =>
    by_cases hx : x ∈ start
    · simp [hx]
    · simp [hx]

/-- The loop agrees with the specification. -/
theorem group_loop (start stop : List Char) (sep : Char) (hlen : start.length ≤ stop.length) (cs : List Char) :
    ∀ s : GroupSt, GroupOk start s → ∃ s', cs.foldlM (groupStep start stop) s = some s' ∧
      (outState start sep s').1 ++ [(outState start sep s').2] =
        (outState start sep s).1 ++ scanOutside start stop sep cs s.n s.ind (outState start sep s).2 := by
  induction cs with
  | nil =>
    intro s _
    exact ⟨s, rfl, by cases s.n <;> simp [scanOutside]⟩
  | cons c cs ih =>
    intro s hok
    -- one character: a step to a state that continues in the same way
    suffices h : ∃ s', groupStep start stop s c = some s' ∧ GroupOk start s' ∧
        (outState start sep s').1 ++ scanOutside start stop sep cs s'.n s'.ind (outState start sep s').2 =
          (outState start sep s).1 ++ scanOutside start stop sep (c :: cs) s.n s.ind (outState start sep s).2 by
      obtain ⟨s', h1, h2, h3⟩ := h
      obtain ⟨s'', h4, h5⟩ := ih s' h2
      refine ⟨s'', ?_, h5.trans h3⟩
      rw [List.foldlM_cons, h1]
      exact h4
    unfold groupStep
    by_cases hn : s.n = 0
    · -- outside of groups, after a possible new segment
      obtain ⟨t, ht, htn, hti, htnew, htout, seg, hseg, hhead⟩ : ∃ t : GroupSt, (if s.new then { s.append with new := false } else s) = t ∧ t.n = 0 ∧ t.ind = s.ind ∧
          t.new = false ∧ outState start sep t = outState start sep s ∧ ∃ seg, t.last = some seg ∧ ∀ c ∈ seg.head?, c ∉ start := by
        cases hnew : s.new with
        | true =>
          refine ⟨_, rfl, hn, rfl, rfl, outState_append start sep s, [], rfl, by simp⟩
        | false =>
          obtain ⟨seg, h1, h2⟩ := hok.1 hn hnew
          exact ⟨s, by simp, hn, rfl, hnew, rfl, seg, h1, h2⟩
      rw [ht]
      simp only [htn, if_true]
      rw [hn]
      unfold strFind
      cases hf : start.idxOf? c with
      | some k =>
        obtain ⟨hk, hcm⟩ := idxOf?_spec hf
        have e := outState_add start sep t.append [] c rfl
        rw [if_pos ⟨c, by simp, hcm⟩, outState_append, htout] at e
        refine ⟨_, rfl, ⟨fun h => by simp at h, fun _ => ⟨htnew, hk, c, [], rfl, hcm⟩⟩, ?_⟩
        have e' : outState start sep { ({ t.append with ind := k, n := 0 + 1 } : GroupSt) with last := some (t.append.last.getD [] ++ [c]) } =
            ((outState start sep s).1, (outState start sep s).2 ++ [c]) := e
        simp only [Option.pure_def, Option.bind_eq_bind]
        rw [e']
        conv_rhs => unfold scanOutside
        rw [hf]
      | none =>
        have hcm := idxOf?_none hf
        have e := outState_add start sep t seg c hseg
        have hnot : ¬ ∃ x ∈ (seg ++ [c]).head?, x ∈ start := by
          rintro ⟨x, hx, hxs⟩
          cases seg with
          | nil =>
            simp only [List.nil_append, List.head?_cons, Option.mem_def, Option.some.injEq] at hx
            subst hx; exact hcm hxs
          | cons y ys =>
            simp only [List.cons_append, List.head?_cons, Option.mem_def, Option.some.injEq] at hx
            subst hx; exact hhead y (by simp) hxs
        rw [if_neg hnot, htout] at e
        refine ⟨_, rfl, ⟨fun _ _ => ⟨_, rfl, ?_⟩, fun h => absurd htn h⟩, ?_⟩
        · intro x hx hxs
          rw [hseg] at hx
          exact hnot ⟨x, hx, hxs⟩
        · simp only []
          rw [e, htn, hti]
          unfold charStep
          conv_rhs => unfold scanOutside
          rw [hf]
          simp only []
          by_cases hs : c = sep
          · rw [if_pos hs, if_pos hs]; simp
          · rw [if_neg hs, if_neg hs]
    · -- inside of a group
      obtain ⟨hnew, hind, g, seg, hlast, hg⟩ := hok.2 hn
      rw [hnew]
      simp only [Bool.false_eq_true, if_false, if_neg hn]
      have hstop : s.ind < stop.length := by omega
      have e := outState_add start sep s (g :: seg) c hlast
      rw [if_pos ⟨g, by simp, hg⟩] at e
      obtain ⟨d, hd⟩ : ∃ d, s.n = d + 1 := ⟨s.n - 1, by omega⟩
      by_cases h1 : start[s.ind]? = some c
      · rw [if_pos h1]
        refine ⟨_, rfl, ⟨fun h => by simp at h, fun _ => ⟨hnew, hind, g, seg ++ [c], by simp [hlast], hg⟩⟩, ?_⟩
        have e' : outState start sep { ({ s with n := s.n + 1 } : GroupSt) with last := some (s.last.getD [] ++ [c]) } =
            ((outState start sep s).1, (outState start sep s).2 ++ [c]) := e
        simp only []
        rw [hnew] at *
        rw [e', hd]
        conv_rhs => unfold scanOutside
        rw [if_pos h1]
      · rw [if_neg h1, List.getElem?_eq_getElem hstop]
        simp only []
        by_cases h2 : stop[s.ind] = c
        · rw [if_pos h2]
          refine ⟨_, rfl, ⟨?_, ?_⟩, ?_⟩
          · intro h
            simp only [] at h
            rw [if_pos h]
            intro h'; simp at h'
          · intro h
            simp only [] at h
            refine ⟨by simp only []; rw [if_neg h]; exact hnew, hind, g, seg ++ [c], by simp [hlast], hg⟩
          · have e' : ∀ b, outState start sep { ({ s with n := s.n - 1, new := b } : GroupSt) with last := some (s.last.getD [] ++ [c]) } =
                ((outState start sep s).1, (outState start sep s).2 ++ [c]) := fun b => e
            simp only []
            rw [e', hd]
            conv_rhs => unfold scanOutside
            rw [if_neg h1, List.getElem?_eq_getElem hstop, if_pos (by rw [h2])]
            simp
        · rw [if_neg h2]
          refine ⟨_, rfl, ⟨fun h => absurd h hn, fun _ => ⟨hnew, hind, g, seg ++ [c], by simp [hlast], hg⟩⟩, ?_⟩
          have e' : outState start sep { s with last := some (s.last.getD [] ++ [c]) } =
            ((outState start sep s).1, (outState start sep s).2 ++ [c]) := e
          simp only []
          rw [hnew] at *
          rw [e', hd]
          conv_rhs => unfold scanOutside
          rw [if_neg h1, List.getElem?_eq_getElem hstop, if_neg (by simpa using h2)]

/-- C118: split_outside splits the string at the separators outside groups, for all strings, and all opening and closing
characters (as many closing ones at least). -/
theorem C118_split (start stop : List Char) (sep : Char) (hlen : start.length ≤ stop.length) (a : List Char) :
    splitOutside start stop sep a = some (scanOutside start stop sep a 0 0 []) := by
  obtain ⟨s', h1, h2⟩ := group_loop start stop sep hlen a ⟨[], none, true, 0, 0⟩ ⟨fun _ h => by simp at h, fun h => absurd rfl h⟩
  unfold splitOutside splitByGroup
  rw [h1]
  simp only [Option.map_some, Option.some.injEq]
  exact h2

theorem scan_ne_nil (start stop : List Char) (sep : Char) (cs : List Char) (d k : Nat) (tok : List Char) : scanOutside start stop sep cs d k tok ≠ [] := by
  induction cs generalizing d k tok with
  | nil => cases d <;> simp [scanOutside]
  | cons c cs ih =>
    cases d with
    | zero =>
      unfold scanOutside
      split
      · exact ih _ _ _
      · split_ifs
        · simp
        · exact ih _ _ _
    | succ d =>
      unfold scanOutside
      split_ifs <;> exact ih _ _ _

/-- C118: nothing is lost: the tokens joined with the separator are the string. -/
theorem C118_join (start stop : List Char) (sep : Char) (hlen : start.length ≤ stop.length) (a : List Char) :
    ∃ toks, splitOutside start stop sep a = some toks ∧ pyJoin sep toks = a := by
  refine ⟨_, C118_split start stop sep hlen a, ?_⟩
  have key : ∀ (cs : List Char) (d k : Nat) (tok : List Char), pyJoin sep (scanOutside start stop sep cs d k tok) = tok ++ cs := by
    intro cs
    induction cs with
    | nil => intro d k tok; cases d <;> simp [scanOutside, pyJoin]
    | cons c cs ih =>
      intro d k tok
      cases d with
      | zero =>
        unfold scanOutside
        split
        · rw [ih]; simp
        · split_ifs with h
          · rw [pyJoin_cons _ _ _ (scan_ne_nil _ _ _ _ _ _ _), ih, h]; simp
          · rw [ih]; simp
      | succ d =>
        unfold scanOutside
        split_ifs <;> rw [ih] <;> simp
  rw [key]; rfl

/-- C118: in a string without opening characters it is the ordinary split. -/
theorem C118_plain (start stop : List Char) (sep : Char) (hlen : start.length ≤ stop.length) (a : List Char) (h : ∀ c ∈ a, c ∉ start) :
    splitOutside start stop sep a = some (pySplit sep a) := by
  rw [C118_split start stop sep hlen]
  congr 1
  have key : ∀ (cs tok : List Char), (∀ c ∈ cs, c ∉ start) → scanOutside start stop sep cs 0 0 tok =
      match pySplit sep cs with
      | [] => [tok]
      | t :: ts => (tok ++ t) :: ts := by
    intro cs
    induction cs with
    | nil => intro tok _; simp [scanOutside, pySplit]
    | cons c cs ih =>
      intro tok hc
      have hidx : start.idxOf? c = none := by
        cases hf : start.idxOf? c with
        | none => rfl
        | some k => exact absurd (idxOf?_spec hf).2 (hc c (by simp))
      unfold scanOutside pySplit
      rw [hidx]
      simp only []
      have hne := pySplit_ne_nil sep cs
      by_cases hs : c = sep
      · rw [if_pos hs, if_pos hs, ih [] fun x hx => hc x (List.mem_cons_of_mem _ hx)]
        cases hp : pySplit sep cs with
        | nil => exact absurd hp hne
        | cons u us => simp
      · rw [if_neg hs, if_neg hs, ih _ fun x hx => hc x (List.mem_cons_of_mem _ hx)]
        cases hp : pySplit sep cs with
        | nil => exact absurd hp hne
        | cons u us => simp
  rw [key a [] h]
  cases hp : pySplit sep a with
  | nil => exact absurd hp (pySplit_ne_nil sep a)
  | cons u us => simp

example : splitOutside "([{".toList ")]}".toList ',' "a,f(b,c),[d,(e],g".toList =
    some ["a".toList, "f(b,c)".toList, "[d,(e]".toList, "g".toList] := by decide +kernel

/-- C118 fails for groups that open and close with the same character, as quotes: they never close. -/
theorem C118_quotes_refuted : splitOutside ['"'] ['"'] ',' "\"a\",b".toList = some ["\"a\",b".toList] := by decide +kernel

end Pixell
