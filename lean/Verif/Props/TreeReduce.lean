import Verif.Model.TreeReduce
import Verif.Props.Tiles
import Mathlib.Algebra.BigOperators.Fin
import Mathlib.Algebra.BigOperators.Group.Finset.Basic
import Mathlib.Data.Fintype.Card
import Mathlib.Algebra.Order.BigOperators.Group.Finset

/-
C133: reducing distributed tile maps.
-/
namespace Pixell

/-! ### Specification: one operation after the other -/

/-- The tile moves from the sender to the receiver and is added there. -/
def planStep {α : Type} [Add α] {R : ℕ} (op : TreeOp R) (w : Fin R → ℕ → Option α) : Fin R → ℕ → Option α := fun r g =>
  if g ≠ op.gi then w r g
  else if r = op.sender then none
  else if r = op.receiver then (w op.receiver op.gi).bind fun v => (w op.sender op.gi).map fun t => v + t
  else w r g

/-- The tiles of the tasks after the first k operations. -/
def planAt {α : Type} [Add α] {R : ℕ} (ops : List (TreeOp R)) (w : Fin R → ℕ → Option α) (k : ℕ) : Fin R → ℕ → Option α :=
  (ops.take k).foldl (fun w op => planStep op w) w

/-- A plan is fit for the tiles at hand: whenever a tile is sent, both sender and receiver have it. -/
def PlanOk {α : Type} [Add α] {R : ℕ} (ops : List (TreeOp R)) (w : Fin R → ℕ → Option α) : Prop :=
  ∀ k op, ops[k]? = some op → op.sender ≠ op.receiver ∧ (planAt ops w k op.sender op.gi).isSome ∧
    (planAt ops w k op.receiver op.gi).isSome

theorem planAt_succ {α : Type} [Add α] {R : ℕ} {ops : List (TreeOp R)} (w : Fin R → ℕ → Option α) {k : ℕ} {op : TreeOp R}
    (h : ops[k]? = some op) : planAt ops w (k + 1) = planStep op (planAt ops w k) := by
  unfold planAt
  rw [List.take_add_one, h]
  simp

theorem planStep_other {α : Type} [Add α] {R : ℕ} {op : TreeOp R} (w : Fin R → ℕ → Option α) {r : Fin R} {g : ℕ}
    (h : g ≠ op.gi ∨ (r ≠ op.sender ∧ r ≠ op.receiver)) : planStep op w r g = w r g := by
  unfold planStep
  by_cases hg : g ≠ op.gi
  · rw [if_pos hg]
  · rw [if_neg hg]
    rcases h with h | ⟨h1, h2⟩
    · exact absurd h hg
    · rw [if_neg h1, if_neg h2]

/-! ### The invariant -/

/-- The message for r in operation k, if s is its sender and r its receiver. -/
def msgAt {α : Type} [Add α] {R : ℕ} (ops : List (TreeOp R)) (w : Fin R → ℕ → Option α) (s r : Fin R) (k : ℕ) : Option α :=
  (ops[k]?).bind fun op => if op.sender = s ∧ op.receiver = r then planAt ops w k s op.gi else none

/-- The messages sent by s, at position a, that r, at position b, has not received yet. -/
def msgs {α : Type} [Add α] {R : ℕ} (ops : List (TreeOp R)) (w : Fin R → ℕ → Option α) (s r : Fin R) (a b : ℕ) : List α :=
  (List.range' b (a - b)).filterMap (msgAt ops w s r)

theorem msgs_empty {α : Type} [Add α] {R : ℕ} (ops : List (TreeOp R)) (w : Fin R → ℕ → Option α) (s r : Fin R) {a b : ℕ}
    (h : a ≤ b) : msgs ops w s r a b = [] := by
  unfold msgs
  rw [Nat.sub_eq_zero_of_le h]
  rfl

theorem msgs_send {α : Type} [Add α] {R : ℕ} (ops : List (TreeOp R)) (w : Fin R → ℕ → Option α) (s r : Fin R) {a b : ℕ}
    (h : b ≤ a) : msgs ops w s r (a + 1) b = msgs ops w s r a b ++ (msgAt ops w s r a).toList := by
  unfold msgs
  rw [Nat.succ_sub h, List.range'_concat, List.filterMap_append]
  congr 1
  rw [Nat.one_mul, Nat.add_sub_cancel' h]
  cases hm : msgAt ops w s r a <;> simp [List.filterMap_cons, hm]

theorem msgs_recv {α : Type} [Add α] {R : ℕ} (ops : List (TreeOp R)) (w : Fin R → ℕ → Option α) (s r : Fin R) {a b : ℕ}
    (h : b < a) : msgs ops w s r a b = (msgAt ops w s r b).toList ++ msgs ops w s r a (b + 1) := by
  unfold msgs
  have : a - b = (a - (b + 1)) + 1 := by omega
  rw [this, List.range'_succ, List.filterMap_cons]
  cases msgAt ops w s r b <;> simp

structure TreeInv {α : Type} [Add α] {R : ℕ} (ops : List (TreeOp R)) (w : Fin R → ℕ → Option α) (s : TreeState α R) : Prop where
  le : ∀ r, s.pc r ≤ ops.length
  work : ∀ r, s.work r = planAt ops w (s.pc r) r
  chan : ∀ a b, s.chan a b = msgs ops w a b (s.pc a) (s.pc b)
  order : ∀ k op, ops[k]? = some op → op.sender ≠ op.receiver → k < s.pc op.receiver → k < s.pc op.sender

theorem advance_self {R : ℕ} (pc : Fin R → ℕ) (r : Fin R) : advance pc r r = pc r + 1 := if_pos rfl
theorem advance_other {R : ℕ} (pc : Fin R → ℕ) {r r' : Fin R} (h : r' ≠ r) : advance pc r r' = pc r' := if_neg h

theorem lt_of_get {β : Type} {l : List β} {k : ℕ} {x : β} (h : l[k]? = some x) : k < l.length :=
  (List.getElem?_eq_some_iff.1 h).1

theorem advance_le {R : ℕ} {n : ℕ} {pc : Fin R → ℕ} (h : ∀ r, pc r ≤ n) {r : Fin R} (hr : pc r < n) (r' : Fin R) :
    advance pc r r' ≤ n := by
  by_cases hh : r' = r
  · rw [hh, advance_self]; exact hr
  · rw [advance_other _ hh]; exact h r'

theorem treeInv_init {α : Type} [Add α] {R : ℕ} (ops : List (TreeOp R)) (w : Fin R → ℕ → Option α) :
    TreeInv ops w (treeInit w) :=
  ⟨fun _ => Nat.zero_le _, fun _ => rfl, fun a b => (msgs_empty ops w a b (Nat.le_refl _)).symm, fun _ _ _ _ h => absurd h (Nat.not_lt_zero _)⟩

theorem treeInv_skip {α : Type} [Add α] {R : ℕ} {ops : List (TreeOp R)} {w : Fin R → ℕ → Option α} {s s' : TreeState α R}
    {r : Fin R} (h : TreeInv ops w s) (hs : TreeSkip ops r s s') : TreeInv ops w s' := by
  obtain ⟨op, h1, h2, h3, rfl⟩ := hs
  have hm : ∀ q, msgAt ops w r q (s.pc r) = none ∧ msgAt ops w q r (s.pc r) = none := by
    intro q
    unfold msgAt
    rw [h1]
    simp only [Option.bind_some]
    rw [if_neg (fun hh => h2 hh.1.symm), if_neg (fun hh => h3 hh.2.symm)]
    exact ⟨rfl, rfl⟩
  refine ⟨advance_le h.le (lt_of_get h1), ?_, ?_, ?_⟩
  · intro q
    show s.work q = planAt ops w (advance s.pc r q) q
    rw [h.work]
    by_cases hq : q = r
    · rw [hq, advance_self, planAt_succ w h1]
      funext g
      rw [planStep_other _ (Or.inr ⟨h2, h3⟩)]
    · rw [advance_other _ hq]
  · intro a b
    show s.chan a b = msgs ops w a b (advance s.pc r a) (advance s.pc r b)
    rw [h.chan]
    by_cases ha : a = r
    · subst ha
      by_cases hb : b = a
      · subst hb
        rw [msgs_empty _ _ _ _ (Nat.le_refl _), msgs_empty _ _ _ _ (Nat.le_refl _)]
      · rw [advance_self, advance_other _ hb]
        rcases Nat.lt_or_ge (s.pc a) (s.pc b) with hl | hl
        · rw [msgs_empty _ _ _ _ hl.le, msgs_empty _ _ _ _ hl]
        · rw [msgs_send _ _ _ _ hl, (hm b).1]; simp
    · rw [advance_other _ ha]
      by_cases hb : b = r
      · subst hb
        rw [advance_self]
        rcases Nat.lt_or_ge (s.pc b) (s.pc a) with hl | hl
        · rw [msgs_recv _ _ _ _ hl, (hm a).2]; simp
        · rw [msgs_empty _ _ _ _ hl, msgs_empty _ _ _ _ (Nat.le_succ_of_le hl)]
      · rw [advance_other _ hb]
  · intro k op' hk hne hlt
    show k < advance s.pc r op'.sender
    change k < advance s.pc r op'.receiver at hlt
    have old : k < s.pc op'.receiver → k < advance s.pc r op'.sender := by
      intro hl
      have := h.order k op' hk hne hl
      unfold advance
      split
      · rename_i hh; rw [← hh]; omega
      · exact this
    by_cases hr : op'.receiver = r
    · rw [hr, advance_self] at hlt
      by_cases hkk : k = s.pc r
      · rw [hkk, h1, Option.some.injEq] at hk
        exact absurd hr.symm (hk ▸ h3)
      · exact old (by rw [hr]; omega)
    · rw [advance_other _ hr] at hlt
      exact old hlt

theorem treeInv_send {α : Type} [Add α] {R : ℕ} {ops : List (TreeOp R)} {w : Fin R → ℕ → Option α} (ok : PlanOk ops w)
    {s s' : TreeState α R} {r q : Fin R} (h : TreeInv ops w s) (hs : TreeSend ops r q s s') : TreeInv ops w s' := by
  obtain ⟨op, v, h1, rfl, rfl, hv, rfl⟩ := hs
  have hne := (ok _ _ h1).1
  have hbehind : s.pc op.receiver ≤ s.pc op.sender := by
    by_contra hc
    have := h.order _ _ h1 hne (by omega)
    omega
  refine ⟨advance_le h.le (lt_of_get h1), ?_, ?_, ?_⟩
  · intro a
    funext g
    show (if a = op.sender ∧ g = op.gi then none else s.work a g) = planAt ops w (advance s.pc op.sender a) a g
    by_cases ha : a = op.sender
    · rw [ha, advance_self, planAt_succ w h1]
      by_cases hg : g = op.gi
      · rw [if_pos ⟨rfl, hg⟩]
        unfold planStep
        rw [if_neg (not_not.2 hg), if_pos rfl]
      · rw [if_neg (fun hh => hg hh.2), planStep_other _ (Or.inl hg), h.work]
    · rw [if_neg (fun hh => ha hh.1), advance_other _ ha, h.work]
  · intro a b
    show (if a = op.sender ∧ b = op.receiver then s.chan a b ++ [v] else s.chan a b)
      = msgs ops w a b (advance s.pc op.sender a) (advance s.pc op.sender b)
    by_cases ha : a = op.sender
    · by_cases hb : b = op.receiver
      · rw [if_pos ⟨ha, hb⟩, h.chan, ha, hb, advance_self, advance_other _ hne.symm, msgs_send _ _ _ _ hbehind]
        congr 1
        unfold msgAt
        rw [h1]
        simp only [Option.bind_some, and_self, if_true]
        rw [← h.work, hv]
        rfl
      · rw [if_neg (fun hh => hb hh.2), h.chan]
        subst ha
        by_cases hb2 : b = op.sender
        · subst hb2
          rw [msgs_empty _ _ _ _ (Nat.le_refl _), msgs_empty _ _ _ _ (Nat.le_refl _)]
        · rw [advance_self, advance_other _ hb2]
          rcases Nat.lt_or_ge (s.pc op.sender) (s.pc b) with hl | hl
          · rw [msgs_empty _ _ _ _ hl.le, msgs_empty _ _ _ _ hl]
          · rw [msgs_send _ _ _ _ hl]
            have : msgAt ops w op.sender b (s.pc op.sender) = none := by
              unfold msgAt
              rw [h1]
              simp only [Option.bind_some]
              rw [if_neg (fun hh => hb hh.2.symm)]
            rw [this]; simp
    · rw [if_neg (fun hh => ha hh.1), h.chan, advance_other _ ha]
      by_cases hb : b = op.sender
      · subst hb
        rw [advance_self]
        rcases Nat.lt_or_ge (s.pc op.sender) (s.pc a) with hl | hl
        · rw [msgs_recv _ _ _ _ hl]
          have : msgAt ops w a op.sender (s.pc op.sender) = none := by
            unfold msgAt
            rw [h1]
            simp only [Option.bind_some]
            rw [if_neg (fun hh => ha hh.1.symm)]
          rw [this]; simp
        · rw [msgs_empty _ _ _ _ hl, msgs_empty _ _ _ _ (Nat.le_succ_of_le hl)]
      · rw [advance_other _ hb]
  · intro k op' hk hne' hlt
    show k < advance s.pc op.sender op'.sender
    change k < advance s.pc op.sender op'.receiver at hlt
    have old : k < s.pc op'.receiver → k < advance s.pc op.sender op'.sender := by
      intro hl
      have := h.order k op' hk hne' hl
      unfold advance
      split
      · rename_i hh; rw [← hh]; omega
      · exact this
    by_cases hr : op'.receiver = op.sender
    · rw [hr, advance_self] at hlt
      by_cases hkk : k = s.pc op.sender
      · rw [hkk, h1, Option.some.injEq] at hk
        rw [hk] at hne
        rw [hk] at hr
        exact absurd hr.symm hne
      · exact old (by rw [hr]; omega)
    · rw [advance_other _ hr] at hlt
      exact old hlt

theorem treeInv_recv {α : Type} [Add α] {R : ℕ} {ops : List (TreeOp R)} {w : Fin R → ℕ → Option α} (ok : PlanOk ops w)
    {s s' : TreeState α R} {r q : Fin R} (h : TreeInv ops w s) (hs : TreeRecv ops r q s s') : TreeInv ops w s' := by
  obtain ⟨op, v, t, rest, h1, hne, rfl, rfl, hv, hc, rfl⟩ := hs
  have hahead : s.pc op.receiver < s.pc op.sender := by
    by_contra hn
    rw [h.chan, msgs_empty _ _ _ _ (by omega)] at hc
    exact absurd hc (by simp)
  have hsplit := h.chan op.sender op.receiver
  rw [msgs_recv _ _ _ _ hahead, hc] at hsplit
  have hmsg : msgAt ops w op.sender op.receiver (s.pc op.receiver) = planAt ops w (s.pc op.receiver) op.sender op.gi := by
    unfold msgAt
    rw [h1]
    simp
  have hrec : planAt ops w (s.pc op.receiver) op.receiver op.gi = some v := by rw [← h.work]; exact hv
  obtain ⟨t', ht'⟩ := Option.isSome_iff_exists.1 (ok _ _ h1).2.1
  rw [hmsg, ht'] at hsplit
  simp only [Option.toList_some, List.singleton_append, List.cons.injEq] at hsplit
  obtain ⟨rfl, hrest⟩ := hsplit
  refine ⟨advance_le h.le (lt_of_get h1), ?_, ?_, ?_⟩
  · intro a
    funext g
    show (if a = op.receiver ∧ g = op.gi then some (v + t) else s.work a g) = planAt ops w (advance s.pc op.receiver a) a g
    by_cases ha : a = op.receiver
    · rw [ha, advance_self, planAt_succ w h1]
      by_cases hg : g = op.gi
      · rw [if_pos ⟨rfl, hg⟩]
        unfold planStep
        rw [if_neg (not_not.2 hg), if_neg hne, if_pos rfl, hrec, ht']
        rfl
      · rw [if_neg (fun hh => hg hh.2), planStep_other _ (Or.inl hg), h.work]
    · rw [if_neg (fun hh => ha hh.1), advance_other _ ha, h.work]
  · intro a b
    show (if a = op.sender ∧ b = op.receiver then rest else s.chan a b)
      = msgs ops w a b (advance s.pc op.receiver a) (advance s.pc op.receiver b)
    by_cases hb : b = op.receiver
    · by_cases ha : a = op.sender
      · rw [if_pos ⟨ha, hb⟩, ha, hb, advance_self, advance_other _ hne.symm, hrest]
      · rw [if_neg (fun hh => ha hh.1), h.chan]
        subst hb
        by_cases ha2 : a = op.receiver
        · subst ha2
          rw [msgs_empty _ _ _ _ (Nat.le_refl _), msgs_empty _ _ _ _ (Nat.le_refl _)]
        · rw [advance_self, advance_other _ ha2]
          rcases Nat.lt_or_ge (s.pc op.receiver) (s.pc a) with hl | hl
          · rw [msgs_recv _ _ _ _ hl]
            have : msgAt ops w a op.receiver (s.pc op.receiver) = none := by
              unfold msgAt
              rw [h1]
              simp only [Option.bind_some]
              rw [if_neg (fun hh => ha hh.1.symm)]
            rw [this]; simp
          · rw [msgs_empty _ _ _ _ hl, msgs_empty _ _ _ _ (Nat.le_succ_of_le hl)]
    · rw [if_neg (fun hh => hb hh.2), h.chan, advance_other _ hb]
      by_cases ha : a = op.receiver
      · subst ha
        rw [advance_self]
        rcases Nat.lt_or_ge (s.pc op.receiver) (s.pc b) with hl | hl
        · rw [msgs_empty _ _ _ _ hl.le, msgs_empty _ _ _ _ hl]
        · rw [msgs_send _ _ _ _ hl]
          have : msgAt ops w op.receiver b (s.pc op.receiver) = none := by
            unfold msgAt
            rw [h1]
            simp only [Option.bind_some]
            rw [if_neg (fun hh => hne hh.1.symm)]
          rw [this]; simp
      · rw [advance_other _ ha]
  · intro k op' hk hne' hlt
    show k < advance s.pc op.receiver op'.sender
    change k < advance s.pc op.receiver op'.receiver at hlt
    have mono : ∀ x, k < s.pc x → k < advance s.pc op.receiver x := by
      intro x hx
      unfold advance
      split
      · rename_i hh; rw [← hh]; omega
      · exact hx
    by_cases hr : op'.receiver = op.receiver
    · rw [hr, advance_self] at hlt
      by_cases hkk : k = s.pc op.receiver
      · have : op' = op := by
          rw [hkk, h1, Option.some.injEq] at hk
          exact hk.symm
        rw [this]
        apply mono
        rw [hkk]; exact hahead
      · exact mono _ (h.order k op' hk hne' (by rw [hr]; omega))
    · rw [advance_other _ hr] at hlt
      exact mono _ (h.order k op' hk hne' hlt)

theorem treeInv_run {α : Type} [Add α] {R : ℕ} {ops : List (TreeOp R)} {w : Fin R → ℕ → Option α} (ok : PlanOk ops w)
    {e : Bool} {n : ℕ} {s : TreeState α R} (h : TreeRun ops e n (treeInit w) s) : TreeInv ops w s := by
  generalize hs : treeInit w = s0 at h
  induction h with
  | refl s => rw [← hs]; exact treeInv_init ops w
  | step _ hst ih =>
    have ih := ih hs
    cases hst with
    | skip r h => exact treeInv_skip ih h
    | recv r q h => exact treeInv_recv ok ih h
    | sync r q _ h1 h2 => exact treeInv_recv ok (treeInv_send ok ih h1) h2
    | send r q h => exact treeInv_send ok ih h

/-! ### The theorems -/

/-- C133: whatever the order in which the tasks run, and whether sends wait for their receives or not, when all tasks are
through, each has the tiles it would have if the operations were done one after the other, and no message is left. -/
theorem C133_schedule {α : Type} [Add α] {R : ℕ} (ops : List (TreeOp R)) (w : Fin R → ℕ → Option α) (ok : PlanOk ops w)
    {e : Bool} {n : ℕ} {s : TreeState α R} (h : TreeRun ops e n (treeInit w) s) (hend : ∀ r, s.pc r = ops.length) :
    s.work = planAt ops w ops.length ∧ ∀ a b, s.chan a b = [] := by
  have inv := treeInv_run ok h
  constructor
  · funext r
    rw [inv.work, hend]
  · intro a b
    rw [inv.chan, hend, hend, msgs_empty _ _ _ _ (Nat.le_refl _)]

/-- C133: the tasks never wait for each other forever and no task finds a tile missing: unless all are through, one can go on,
also if every send waits for its receive. -/
theorem C133_progress {α : Type} [Add α] {R : ℕ} (ops : List (TreeOp R)) (w : Fin R → ℕ → Option α) (ok : PlanOk ops w)
    {e : Bool} {n : ℕ} {s : TreeState α R} (h : TreeRun ops e n (treeInit w) s) (hend : ∃ r, s.pc r ≠ ops.length) :
    ∃ s', TreeStep ops false s s' := by
  have inv := treeInv_run ok h
  obtain ⟨r0, hr0⟩ := hend
  obtain ⟨r, -, hr⟩ := Finset.exists_min_image (Finset.univ : Finset (Fin R)) s.pc ⟨r0, Finset.mem_univ _⟩
  have hlt : s.pc r < ops.length := by
    have h1 := hr r0 (Finset.mem_univ _)
    have h2 := inv.le r0
    omega
  obtain ⟨op, hop⟩ : ∃ op, ops[s.pc r]? = some op := ⟨_, List.getElem?_eq_getElem hlt⟩
  obtain ⟨hne, hs1, hs2⟩ := ok _ _ hop
  -- the receiver can go on if the message is on the way
  have recvCase : ∀ m : TreeState α R, TreeInv ops w m → ops[m.pc op.receiver]? = some op → m.pc op.receiver = s.pc r →
      m.pc op.receiver < m.pc op.sender → ∃ s', TreeRecv ops op.receiver op.sender m s' := by
    intro m im h1 h2 h3
    obtain ⟨v, hv⟩ := Option.isSome_iff_exists.1 hs2
    obtain ⟨t, ht⟩ := Option.isSome_iff_exists.1 hs1
    have hc := im.chan op.sender op.receiver
    rw [msgs_recv _ _ _ _ h3] at hc
    have hm : msgAt ops w op.sender op.receiver (m.pc op.receiver) = some t := by
      unfold msgAt
      rw [h1]
      simp only [Option.bind_some, and_self, if_true]
      rw [h2]; exact ht
    rw [hm] at hc
    exact ⟨_, op, v, t, _, h1, hne.symm, rfl, rfl, by rw [im.work, h2]; exact hv, hc, rfl⟩
  by_cases h1 : r = op.sender
  · -- the receiver is at the same operation, or earlier messages are on the way to it, or it is not there yet
    subst h1
    have hle := hr op.receiver (Finset.mem_univ _)
    have heq : s.pc op.receiver = s.pc op.sender := by
      by_contra hc
      have := inv.order _ _ hop hne (by omega)
      omega
    obtain ⟨t, ht⟩ := Option.isSome_iff_exists.1 hs1
    have hsend : TreeSend ops op.sender op.receiver s
        { pc := advance s.pc op.sender
          work := fun r' g => if r' = op.sender ∧ g = op.gi then none else s.work r' g
          chan := fun a b => if a = op.sender ∧ b = op.receiver then s.chan a b ++ [t] else s.chan a b } :=
      ⟨op, t, hop, rfl, rfl, by rw [inv.work]; exact ht, rfl⟩
    obtain ⟨s', hs'⟩ := recvCase _ (treeInv_send ok inv hsend)
      (by show ops[advance s.pc op.sender op.receiver]? = some op
          rw [advance_other _ hne.symm, heq]; exact hop)
      (by show advance s.pc op.sender op.receiver = _
          rw [advance_other _ hne.symm, heq])
      (by show advance s.pc op.sender op.receiver < advance s.pc op.sender op.sender
          rw [advance_other _ hne.symm, advance_self]; omega)
    refine ⟨s', TreeStep.sync op.sender op.receiver ?_ hsend hs'⟩
    rw [inv.chan, msgs_empty _ _ _ _ (by omega)]
  · by_cases h2 : r = op.receiver
    · subst h2
      have hle := hr op.sender (Finset.mem_univ _)
      rcases Nat.lt_or_ge (s.pc op.receiver) (s.pc op.sender) with hl | hl
      · obtain ⟨s', hs'⟩ := recvCase s inv hop rfl hl
        exact ⟨s', TreeStep.recv _ _ hs'⟩
      · have heq : s.pc op.sender = s.pc op.receiver := by omega
        obtain ⟨t, ht⟩ := Option.isSome_iff_exists.1 hs1
        have hsend : TreeSend ops op.sender op.receiver s
            { pc := advance s.pc op.sender
              work := fun r' g => if r' = op.sender ∧ g = op.gi then none else s.work r' g
              chan := fun a b => if a = op.sender ∧ b = op.receiver then s.chan a b ++ [t] else s.chan a b } :=
          ⟨op, t, by rw [heq]; exact hop, rfl, rfl, by rw [inv.work, heq]; exact ht, rfl⟩
        obtain ⟨s', hs'⟩ := recvCase _ (treeInv_send ok inv hsend)
          (by show ops[advance s.pc op.sender op.receiver]? = some op
              rw [advance_other _ hne.symm]; exact hop)
          (by show advance s.pc op.sender op.receiver = _
              rw [advance_other _ hne.symm])
          (by show advance s.pc op.sender op.receiver < advance s.pc op.sender op.sender
              rw [advance_other _ hne.symm, advance_self]; omega)
        refine ⟨s', TreeStep.sync op.sender op.receiver ?_ hsend hs'⟩
        rw [inv.chan, msgs_empty _ _ _ _ (by omega)]
    · exact ⟨_, TreeStep.skip r ⟨op, hop, h1, h2, rfl⟩⟩

theorem sum_advance {R : ℕ} (pc : Fin R → ℕ) (r : Fin R) : ∑ q, advance pc r q = ∑ q, pc q + 1 := by
  have h : ∀ q, advance pc r q = pc q + if q = r then 1 else 0 := by
    intro q
    unfold advance
    by_cases hq : q = r
    · rw [if_pos hq, if_pos hq, hq]
    · rw [if_neg hq, if_neg hq, Nat.add_zero]
  rw [Finset.sum_congr rfl (fun q _ => h q), Finset.sum_add_distrib]
  simp

/-- C133: and they always come to an end: there are at most as many steps as tasks times operations. -/
theorem C133_terminates {α : Type} [Add α] {R : ℕ} (ops : List (TreeOp R)) (w : Fin R → ℕ → Option α) (ok : PlanOk ops w)
    {e : Bool} {n : ℕ} {s : TreeState α R} (h : TreeRun ops e n (treeInit w) s) : n ≤ R * ops.length := by
  have inv := treeInv_run ok h
  have h1 : n ≤ ∑ r, s.pc r := by
    clear inv
    generalize treeInit w = s0 at h
    induction h with
    | refl => exact Nat.zero_le _
    | step _ hst ih =>
      cases hst with
      | skip r h => obtain ⟨_, _, _, _, rfl⟩ := h; rw [sum_advance]; omega
      | recv r q h => obtain ⟨_, _, _, _, _, _, _, _, _, _, rfl⟩ := h; rw [sum_advance]; omega
      | sync r q _ h1 h2 =>
        obtain ⟨_, _, _, _, _, _, rfl⟩ := h1
        obtain ⟨_, _, _, _, _, _, _, _, _, _, rfl⟩ := h2
        rw [sum_advance, sum_advance]; omega
      | send r q h => obtain ⟨_, _, _, _, _, _, rfl⟩ := h; rw [sum_advance]; omega
  have h2 : ∑ r, s.pc r ≤ ∑ _r : Fin R, ops.length := Finset.sum_le_sum (fun r _ => inv.le r)
  rw [Finset.sum_const, Finset.card_univ, Fintype.card_fin, smul_eq_mul] at h2
  omega

/-- The tasks that have a tile. -/
def owners {α : Type} {R : ℕ} (w : Fin R → ℕ → Option α) (g : ℕ) : Finset (Fin R) :=
  Finset.univ.filter fun r => (w r g).isSome

/-- One operation keeps the sum over the tasks and takes the tile from one of them. -/
theorem planStep_sum {α : Type} [AddCommMonoid α] {R : ℕ} {op : TreeOp R} {w : Fin R → ℕ → Option α}
    (hne : op.sender ≠ op.receiver) (h1 : (w op.sender op.gi).isSome) (h2 : (w op.receiver op.gi).isSome) (g : ℕ) :
    ∑ r, (planStep op w r g).getD 0 = ∑ r, (w r g).getD 0 ∧
      owners (planStep op w) g = if g = op.gi then (owners w g).erase op.sender else owners w g := by
  by_cases hg : g = op.gi
  · subst hg
    obtain ⟨t, ht⟩ := Option.isSome_iff_exists.1 h1
    obtain ⟨v, hv⟩ := Option.isSome_iff_exists.1 h2
    have e1 : planStep op w op.sender op.gi = none := by
      unfold planStep; rw [if_neg (by simp), if_pos rfl]
    have e2 : planStep op w op.receiver op.gi = some (v + t) := by
      unfold planStep; rw [if_neg (by simp), if_neg hne.symm, if_pos rfl, hv, ht]; rfl
    have e3 : ∀ r, r ≠ op.sender → r ≠ op.receiver → planStep op w r op.gi = w r op.gi :=
      fun r h h' => planStep_other _ (Or.inr ⟨h, h'⟩)
    constructor
    · rw [← Finset.add_sum_erase _ _ (Finset.mem_univ op.sender), ← Finset.add_sum_erase _ (fun r => (w r op.gi).getD 0) (Finset.mem_univ op.sender)]
      have hm : op.receiver ∈ Finset.univ.erase op.sender := Finset.mem_erase.2 ⟨hne.symm, Finset.mem_univ _⟩
      rw [← Finset.add_sum_erase _ _ hm, ← Finset.add_sum_erase _ (fun r => (w r op.gi).getD 0) hm]
      have : ∑ r ∈ (Finset.univ.erase op.sender).erase op.receiver, (planStep op w r op.gi).getD 0
          = ∑ r ∈ (Finset.univ.erase op.sender).erase op.receiver, (w r op.gi).getD 0 := by
        apply Finset.sum_congr rfl
        intro r hr
        rw [Finset.mem_erase, Finset.mem_erase] at hr
        rw [e3 r hr.2.1 hr.1]
      rw [this, e1, e2, ht, hv]
      simp only [Option.getD_none, Option.getD_some, zero_add]
      rw [← add_assoc, add_comm v t]
    · rw [if_pos rfl]
      ext r
      unfold owners
      rw [Finset.mem_erase, Finset.mem_filter, Finset.mem_filter]
      by_cases hr : r = op.sender
      · subst hr; simp [e1]
      · by_cases hr2 : r = op.receiver
        · subst hr2; simp [e2, hv, hr]
        · rw [e3 r hr hr2]; simp [hr]
  · have : ∀ r, planStep op w r g = w r g := fun r => planStep_other _ (Or.inl hg)
    rw [if_neg hg]
    constructor
    · simp only [this]
    · unfold owners; simp only [this]

theorem planAt_sum {α : Type} [AddCommMonoid α] {R : ℕ} {ops : List (TreeOp R)} {w : Fin R → ℕ → Option α} (ok : PlanOk ops w)
    (g : ℕ) : ∀ k ≤ ops.length, ∑ r, (planAt ops w k r g).getD 0 = ∑ r, (w r g).getD 0 ∧
      (owners (planAt ops w k) g).card + ((ops.take k).filter fun op => op.gi = g).length = (owners w g).card := by
  intro k
  induction k with
  | zero => intro _; exact ⟨rfl, by simp [planAt]⟩
  | succ k ih =>
    intro hk
    obtain ⟨i1, i2⟩ := ih (by omega)
    have hop : ops[k]? = some ops[k] := List.getElem?_eq_getElem (by omega)
    obtain ⟨o1, o2, o3⟩ := ok k _ hop
    obtain ⟨s1, s2⟩ := planStep_sum o1 o2 o3 g
    rw [planAt_succ w hop, s1, s2]
    refine ⟨i1, ?_⟩
    rw [List.take_add_one, hop, List.filter_append, List.length_append]
    by_cases hg : g = ops[k].gi
    · rw [if_pos hg, Finset.card_erase_of_mem]
      · have hpos : 0 < (owners (planAt ops w k) g).card := by
          apply Finset.card_pos.2
          exact ⟨ops[k].sender, by unfold owners; rw [Finset.mem_filter]; exact ⟨Finset.mem_univ _, by rw [hg]; exact o2⟩⟩
        simp only [Option.toList_some, List.filter_cons, hg.symm, decide_true, if_true, List.filter_nil, List.length_singleton]
        omega
      · unfold owners; rw [Finset.mem_filter]; exact ⟨Finset.mem_univ _, by rw [hg]; exact o2⟩
    · rw [if_neg hg]
      simp only [Option.toList_some, List.filter_cons, show ¬ ops[k].gi = g from fun h => hg h.symm, decide_false, List.filter_nil]
      simpa using i2

/-- C133, the main statement.  If the plan has one operation less for each tile than tasks with this tile, then after any
execution each tile is in exactly one task, where it is the sum over all tasks of that tile, and in no other. -/
theorem C133_reduced {α : Type} [AddCommMonoid α] {R : ℕ} (ops : List (TreeOp R)) (w : Fin R → ℕ → Option α) (ok : PlanOk ops w)
    {e : Bool} {n : ℕ} {s : TreeState α R} (h : TreeRun ops e n (treeInit w) s) (hend : ∀ r, s.pc r = ops.length) (g : ℕ)
    (hplan : (ops.filter fun op => op.gi = g).length + 1 = (owners w g).card) :
    ∃ r, s.work r g = some (∑ q, (w q g).getD 0) ∧ ∀ q, q ≠ r → s.work q g = none := by
  rw [(C133_schedule ops w ok h hend).1]
  obtain ⟨h1, h2⟩ := planAt_sum ok g ops.length le_rfl
  rw [List.take_length] at h2
  have hc : (owners (planAt ops w ops.length) g).card = 1 := by omega
  obtain ⟨r, hr⟩ := Finset.card_eq_one.1 hc
  have hnone : ∀ q, q ≠ r → planAt ops w ops.length q g = none := by
    intro q hq
    by_contra hn
    have : q ∈ owners (planAt ops w ops.length) g := by
      unfold owners
      rw [Finset.mem_filter]
      exact ⟨Finset.mem_univ _, Option.isSome_iff_ne_none.2 hn⟩
    rw [hr, Finset.mem_singleton] at this
    exact hq this
  refine ⟨r, ?_, hnone⟩
  have hrm : r ∈ owners (planAt ops w ops.length) g := by rw [hr]; exact Finset.mem_singleton_self r
  unfold owners at hrm
  rw [Finset.mem_filter] at hrm
  obtain ⟨v, hv⟩ := Option.isSome_iff_exists.1 hrm.2
  rw [hv, ← h1, Finset.sum_eq_single r]
  · rw [hv]; rfl
  · intro q _ hq; rw [hnone q hq]; rfl
  · intro hn; exact absurd (Finset.mem_univ r) hn

example : PlanOk [⟨0, (1 : Fin 3), 0⟩, ⟨0, 0, 2⟩] (fun _ g => if g = 0 then some (1 : ℤ) else none) := by
  intro k op h
  match k with
  | 0 =>
    simp only [List.getElem?_cons_zero, Option.some.injEq] at h
    subst h
    decide
  | 1 =>
    simp only [List.getElem?_cons_succ, List.getElem?_cons_zero, Option.some.injEq] at h
    subst h
    decide
  | k + 2 => simp at h
example : (owners (R := 3) (fun _ g => if g = 0 then some (1 : ℤ) else none) 0).card = 3 := by decide

theorem flatMap_drop {β γ : Type} (f : β → List γ) (l : List β) (i : ℕ) :
    (l.flatMap f).drop ((l.take i).map fun x => (f x).length).sum = (l.drop i).flatMap f := by
  induction l generalizing i with
  | nil => simp
  | cons x l ih =>
    cases i with
    | zero => simp
    | succ i =>
      rw [List.flatMap_cons, List.take_succ_cons, List.map_cons, List.sum_cons, List.drop_succ_cons, ← ih i,
        List.drop_append, List.drop_eq_nil_of_le (by omega)]
      simp

/-- C133: what tree_reduce gives a task keeps its tiles: from_tiles undoes the list of tiles. -/
theorem C133_from_tiles {α : Type} (npix : List ℕ) (tiles : List (Option (List α)))
    (hn : tiles.length = npix.length) (hl : ∀ g t, tiles.getD g none = some t → t.length = npix.getD g 0) :
    (fromTiles npix tiles).WF ∧ ∀ g, (fromTiles npix tiles).get g = tiles.getD g none := by
  have hlen : ∀ g ∈ (fromTiles npix tiles).active, ((tiles.getD g none).getD []).length = npix.getD g 0 := by
    intro g hg
    have hg' : g ∈ (List.range tiles.length).filter fun gi => (tiles.getD gi none).isSome := hg
    rw [List.mem_filter] at hg'
    obtain ⟨t, ht⟩ := Option.isSome_iff_exists.1 hg'.2
    rw [ht]
    exact hl g t ht
  have hsum : ∀ l : List ℕ, (∀ g ∈ l, g ∈ (fromTiles npix tiles).active) →
      (l.map fun g => ((tiles.getD g none).getD []).length) = l.map fun g => npix.getD g 0 := by
    intro l h
    apply List.map_congr_left
    intro g hg
    exact hlen g (h g hg)
  have w : (fromTiles npix tiles).WF := by
    refine ⟨List.Nodup.filter _ List.nodup_range, ?_, ?_⟩
    · intro g hg
      have hg' : g ∈ (List.range tiles.length).filter fun gi => (tiles.getD gi none).isSome := hg
      rw [List.mem_filter, List.mem_range] at hg'
      show g < npix.length
      omega
    · show ((fromTiles npix tiles).active.flatMap fun gi => (tiles.getD gi none).getD []).length
        = ((fromTiles npix tiles).active.map fun gi => npix.getD gi 0).sum
      rw [List.length_flatMap, ← hsum _ (fun _ h => h)]
  refine ⟨w, ?_⟩
  intro g
  by_cases hg : g ∈ (fromTiles npix tiles).active
  · obtain ⟨i, hi, hgi⟩ := List.getElem_of_mem hg
    have hg' : g ∈ (List.range tiles.length).filter fun gi => (tiles.getD gi none).isSome := hg
    rw [List.mem_filter] at hg'
    obtain ⟨t, ht⟩ := Option.isSome_iff_exists.1 hg'.2
    rw [ht]
    have hlk : lookupOf (fromTiles npix tiles).active g = some i := by
      rw [← hgi]; exact lookupOf_getElem w.nodup hi
    unfold TileMap.get
    rw [hlk, Option.map_some]
    congr 1
    unfold TileMap.sub
    have hoff : (fromTiles npix tiles).off i
        = (((fromTiles npix tiles).active.take i).map fun g => ((tiles.getD g none).getD []).length).sum := by
      unfold TileMap.off TileMap.sizes
      rw [← List.map_take, hsum _ (fun x hx => List.mem_of_mem_take hx)]
      rfl
    rw [(fromTiles npix tiles).off_succ (gi := g) (by rw [List.getElem?_eq_getElem hi, hgi]), hoff]
    show (((fromTiles npix tiles).active.flatMap fun gi => (tiles.getD gi none).getD []).drop _).take _ = t
    rw [flatMap_drop (fun gi => (tiles.getD gi none).getD []), List.drop_eq_getElem_cons hi, List.flatMap_cons, hgi, ht]
    show List.take (npix.getD g 0) (t ++ _) = t
    rw [← hl g t ht, List.take_left]
  · rw [TileMap.get_eq_none.2 hg]
    by_contra hc
    apply hg
    show g ∈ (List.range tiles.length).filter fun gi => (tiles.getD gi none).isSome
    have hs : (tiles.getD g none).isSome := Option.isSome_iff_ne_none.2 (fun h => hc h.symm)
    rw [List.mem_filter, List.mem_range]
    refine ⟨?_, hs⟩
    by_contra hlt
    have e : tiles.getD g none = none := by
      rw [List.getD_eq_getElem?_getD, List.getElem?_eq_none (by omega)]; rfl
    rw [e] at hs
    simp at hs

example : fromTiles [1, 2, 1] [some [7], none, some [9]] = ⟨[1, 2, 1], [0, 2], [7, 9]⟩ := by decide

theorem mem_activeDistributed {α : Type} (imaps : List (TileMap α)) (n g : ℕ) :
    g ∈ activeDistributed imaps n ↔ g < n ∧ ∃ m ∈ imaps, g ∈ m.active := by
  unfold activeDistributed
  rw [List.mem_filter, List.mem_range, decide_eq_true_iff]
  apply and_congr Iff.rfl
  rw [Ne, List.sum_eq_zero_iff]
  constructor
  · intro h
    by_contra hc
    apply h
    intro x hx
    obtain ⟨m, hm, rfl⟩ := List.mem_map.1 hx
    rw [if_neg (fun hg => hc ⟨m, hm, hg⟩)]
  · rintro ⟨m, hm, hg⟩ h
    have := h _ (List.mem_map.2 ⟨m, hm, rfl⟩)
    rw [if_pos hg] at this
    exact one_ne_zero this

theorem activeDistributed_sorted {α : Type} (imaps : List (TileMap α)) (n : ℕ) :
    (activeDistributed imaps n).Pairwise (· < ·) := List.Pairwise.filter _ List.pairwise_lt_range

/-- Full claim: reduce gives the root exactly the tiles that are active in some task, each the sum over the tasks, and no
tiles to the others. -/
def C133_reduce_claim {α : Type} [AddMonoid α] (imaps : List (TileMap α)) (npix : List ℕ) (root rank : ℕ) : Prop :=
  ∃ out, reduceTiles imaps npix root rank = some out ∧ out.WF ∧
    (rank ≠ root → out.active = []) ∧
    (rank = root → ∀ g, g ∈ out.active ↔ ∃ m ∈ imaps, g ∈ m.active) ∧
    ∀ g ∈ out.active, ∃ t, out.get g = some t ∧ t.length = npix.getD g 0 ∧
      ∀ k < npix.getD g 0, t.getD k 0 = (imaps.map fun m => ((m.get g).getD []).getD k 0).sum

/-- C133: it holds if all tasks list their tiles in increasing order. -/
theorem C133_reduce_partial {α : Type} [AddMonoid α] (imaps : List (TileMap α)) (npix : List ℕ) (root rank : ℕ)
    (hi : ∀ m ∈ imaps, m.WF ∧ m.npix = npix ∧ m.active.Pairwise (· < ·)) : C133_reduce_claim imaps npix root rank := by
  have ho : (if rank = root then activeDistributed imaps npix.length else []).Pairwise (· < ·) := by
    by_cases h : rank = root
    · rw [if_pos h]; exact activeDistributed_sorted _ _
    · rw [if_neg h]; exact List.Pairwise.nil
  have hv : ∀ g ∈ (if rank = root then activeDistributed imaps npix.length else []), g < npix.length := by
    intro g hg
    by_cases h : rank = root
    · rw [if_pos h] at hg; exact ((mem_activeDistributed _ _ _).1 hg).1
    · rw [if_neg h] at hg; exact absurd hg (by simp)
  have hnd := ho.imp (S := (· ≠ ·)) (fun h => Nat.ne_of_lt h)
  obtain ⟨o, e1, e2, e3⟩ := C23_redistribute_partial npix _ imaps hi ho hv
  obtain ⟨o', e, w, a, n, g⟩ := redist_loop npix _ imaps hi ho (TileMap.zeros_WF (α := α) hnd hv) rfl rfl
  have hoo : o = o' := by
    have : redistribute imaps npix (if rank = root then activeDistributed imaps npix.length else []) = some o' := by
      simp [redistribute, e]
    rw [this] at e1
    exact (Option.some.inj e1).symm
  refine ⟨o, e1, hoo ▸ w, ?_, ?_, ?_⟩
  · intro h
    rw [e2, if_neg h]
  · intro h g
    rw [e2, if_pos h, mem_activeDistributed]
    constructor
    · exact fun hh => hh.2
    · rintro ⟨m, hm, hg⟩
      refine ⟨?_, m, hm, hg⟩
      have := (hi m hm).1.valid g hg
      rw [(hi m hm).2.1] at this
      exact this
  · intro g hg
    rw [e2] at hg
    exact e3 g hg

/-- Full claim: the map written to disk is the sum over the tasks of their maps. -/
def C133_write_claim {α : Type} [AddMonoid α] (imaps : List (TileMap α)) (ny nx th tw : ℕ) : Prop :=
  ∃ f, writtenMap imaps ny nx th tw = some f ∧ ∀ y < ny, ∀ x < nx,
    f y x = (imaps.map fun m => m.toEnmap ny nx th tw y x).sum

/-- C133: it holds if all tasks list their tiles in increasing order. -/
theorem C133_write_partial {α : Type} [AddMonoid α] (imaps : List (TileMap α)) (ny nx th tw : ℕ) (hth : 0 < th) (htw : 0 < tw)
    (hi : ∀ m ∈ imaps, m.WF ∧ m.npix = tileNpix ny nx th tw ∧ m.active.Pairwise (· < ·)) :
    C133_write_claim imaps ny nx th tw := by
  obtain ⟨out, h1, h2, -, h4, h5⟩ := C133_reduce_partial imaps (tileNpix ny nx th tw) 0 0 hi
  refine ⟨out.toEnmap ny nx th tw, ?_, ?_⟩
  · unfold writtenMap
    rw [h1]; rfl
  · intro y hy x hx
    rw [toEnmap_eq h2 hth htw hy hx]
    have e : (imaps.map fun m => m.toEnmap ny nx th tw y x)
        = imaps.map fun m => ((m.get (pixTile nx th tw y x)).getD []).getD (pixIdx nx th tw y x) 0 := by
      apply List.map_congr_left
      intro m hm
      exact toEnmap_eq (hi m hm).1 hth htw hy hx
    rw [e]
    by_cases hg : pixTile nx th tw y x ∈ out.active
    · obtain ⟨t, t1, t2, t3⟩ := h5 _ hg
      rw [t1, Option.getD_some]
      exact t3 _ (pixIdx_lt hth htw hy hx)
    · rw [TileMap.get_eq_none.2 hg]
      have hz : ∀ m ∈ imaps, m.get (pixTile nx th tw y x) = none := by
        intro m hm
        apply TileMap.get_eq_none.2
        intro hmm
        exact hg ((h4 rfl _).2 ⟨m, hm, hmm⟩)
      symm
      show _ = (0 : α)
      apply List.sum_eq_zero
      intro v hv
      obtain ⟨m, hm, rfl⟩ := List.mem_map.1 hv
      rw [hz m hm]
      rfl

/-- C133 refuted: one task with the tiles 1 and 0, in this order, of a map of one row and two columns with the values 10 and
20 writes the map with 20 and 10. -/
theorem C133_write_refuted :
    let m : TileMap ℤ := ⟨[1, 1], [1, 0], [10, 20]⟩
    m.toEnmap 1 2 1 1 0 0 = 20 ∧ ∃ f, writtenMap [m] 1 2 1 1 = some f ∧ f 0 0 = 10 ∧ ¬ C133_write_claim [m] 1 2 1 1 := by
  intro m
  have e : reduceTiles [m] (tileNpix 1 2 1 1) 0 0 = some ⟨[1, 1], [0, 1], [10, 20]⟩ := by decide +kernel
  have ew : writtenMap [m] 1 2 1 1 = some (TileMap.toEnmap ⟨[1, 1], [0, 1], [10, 20]⟩ 1 2 1 1) := by
    unfold writtenMap; rw [e]; rfl
  have e0 : m.toEnmap 1 2 1 1 0 0 = 20 := by decide +kernel
  have e1 : TileMap.toEnmap (α := ℤ) ⟨[1, 1], [0, 1], [10, 20]⟩ 1 2 1 1 0 0 = 10 := by decide +kernel
  refine ⟨e0, _, ew, e1, ?_⟩
  rintro ⟨f, hf, h⟩
  rw [ew, Option.some.injEq] at hf
  have h1 := h 0 (by omega) 0 (by omega)
  rw [← hf, e1] at h1
  simp only [List.map_cons, List.map_nil, List.sum_cons, List.sum_nil, e0] at h1
  omega

example : (reduceTiles [(⟨[1, 2], [0, 1], [10, 20, 21]⟩ : TileMap ℤ), ⟨[1, 2], [1], [5, 6]⟩] [1, 2] 0 0).map
    (fun o => (o.active, o.buf)) = some ([0, 1], [10, 25, 27]) := by decide

end Pixell
