import Verif.Model.SrcMem
import Mathlib.Algebra.Order.Group.Multiset
import Mathlib.Algebra.BigOperators.Group.Multiset.Basic
import Mathlib.Tactic.Abel
import Mathlib.Tactic.Ring
import Mathlib.Tactic.Linarith

/-
C135: painting objects gives back all the memory it takes, however often it is called.
-/
namespace Pixell

/-- The computation runs without undefined behaviour where the blocks A are live, leaves all others alone, and ends with blocks and a
result as in Q. -/
def MemSpec {α : Type} (A : Multiset ℕ) (m : CMem α) (Q : α → Multiset ℕ → Prop) : Prop :=
  ∀ (h : CHeap) (F : Multiset ℕ), h.live = A + F → ∃ a h' B, m h = some (a, h') ∧ h'.live = B + F ∧ Q a B

theorem MemSpec.bind {α β : Type} {A : Multiset ℕ} {m : CMem α} {f : α → CMem β} {Q : α → Multiset ℕ → Prop}
    {R : β → Multiset ℕ → Prop} (h1 : MemSpec A m Q) (h2 : ∀ a B, Q a B → MemSpec B (f a) R) : MemSpec A (m >>= f) R := by
  intro h F hF
  obtain ⟨a, h', B, e, hl, hq⟩ := h1 h F hF
  obtain ⟨b, h'', C, e', hl', hr⟩ := h2 a B hq h' F hl
  refine ⟨b, h'', C, ?_, hl', hr⟩
  show (m h).bind (fun p => f p.1 p.2) = _
  rw [e]
  exact e'

theorem MemSpec.pure {α : Type} (A : Multiset ℕ) (a : α) {Q : α → Multiset ℕ → Prop} (h : Q a A) : MemSpec A (Pure.pure a) Q :=
  fun s F hF => ⟨a, s, A, rfl, hF, h⟩

theorem MemSpec.mono {α : Type} {A : Multiset ℕ} {m : CMem α} {Q R : α → Multiset ℕ → Prop} (h : MemSpec A m Q)
    (hi : ∀ a B, Q a B → R a B) : MemSpec A m R := by
  intro s F hF
  obtain ⟨a, h', B, e, hl, hq⟩ := h s F hF
  exact ⟨a, h', B, e, hl, hi a B hq⟩

/-- Blocks the computation does not use stay. -/
theorem MemSpec.frame {α : Type} {A : Multiset ℕ} {m : CMem α} {Q : α → Multiset ℕ → Prop} (h : MemSpec A m Q) (G : Multiset ℕ) :
    MemSpec (A + G) m (fun a B => ∃ C, B = C + G ∧ Q a C) := by
  intro s F hF
  obtain ⟨a, h', B, e, hl, hq⟩ := h s (G + F) (by rw [hF, add_assoc])
  exact ⟨a, h', B + G, e, by rw [hl, add_assoc], B, rfl, hq⟩

theorem alloc_spec (A : Multiset ℕ) : MemSpec A cAlloc (fun p B => B = {p} + A) :=
  fun h F hF => ⟨h.next, ⟨h.next + 1, {h.next} + h.live⟩, {h.next} + A, rfl, by rw [hF]; simp only [add_assoc], rfl⟩

theorem free_spec (p : ℕ) (A B : Multiset ℕ) (hB : B = {p} + A) : MemSpec B (cFree (some p)) (fun _ C => C = A) := by
  intro h F hF
  have hm : p ∈ h.live := by rw [hF, hB]; simp
  refine ⟨(), ⟨h.next, h.live.erase p⟩, A, if_pos hm, ?_, rfl⟩
  show h.live.erase p = A + F
  rw [hF, hB, Multiset.singleton_add, Multiset.cons_add, Multiset.erase_cons_head]

theorem free_none_spec (A : Multiset ℕ) : MemSpec A (cFree none) (fun _ C => C = A) := fun h F hF => ⟨(), h, A, rfl, hF, rfl⟩

theorem realloc_spec (p : ℕ) (A B : Multiset ℕ) (hB : B = {p} + A) : MemSpec B (cRealloc p) (fun q C => C = {q} + A) :=
  (free_spec p A B hB).bind fun _ C hC => by subst hC; exact alloc_spec _

/-- A loop that keeps the blocks. -/
theorem each_keep {α β : Type} (f : α → CMem β) (A : Multiset ℕ) (hf : ∀ a, MemSpec A (f a) (fun _ B => B = A)) (l : List α) :
    MemSpec A (eachM f l) (fun _ B => B = A) := by
  induction l with
  | nil => exact MemSpec.pure _ _ rfl
  | cons a t ih =>
    refine (hf a).bind fun b B hB => ?_
    subst hB
    exact ih.bind fun _ C hC => MemSpec.pure _ _ hC

theorem repeat_keep {β : Type} (m : CMem β) (A : Multiset ℕ) (hm : MemSpec A m (fun _ B => B = A)) (n : ℕ) :
    MemSpec A (repeatM m n) (fun _ B => B = A) := by
  induction n with
  | zero => exact MemSpec.pure _ _ rfl
  | succ n ih =>
    refine hm.bind fun b B hB => ?_
    subst hB
    exact ih.bind fun _ C hC => MemSpec.pure _ _ hC

/-- A loop that gives each element the blocks it owns, and changes them. -/
theorem each_own {α β : Type} (f : α → CMem β) (own : α → Multiset ℕ) (own' : β → Multiset ℕ) (P : α → β → Prop)
    (hf : ∀ a, MemSpec (own a) (f a) (fun b B => B = own' b ∧ P a b)) (l : List α) :
    MemSpec (l.map own).sum (eachM f l) (fun r B => B = (r.map own').sum ∧ List.Forall₂ P l r) := by
  induction l with
  | nil => exact MemSpec.pure _ _ ⟨rfl, List.Forall₂.nil⟩
  | cons a t ih =>
    have h1 := (hf a).frame (t.map own).sum
    rw [List.map_cons, List.sum_cons]
    refine h1.bind fun b B hB => ?_
    obtain ⟨C, rfl, rfl, hp⟩ := hB
    have h2 := ih.frame (own' b)
    rw [add_comm (own' b)]
    refine h2.bind fun r D hD => ?_
    obtain ⟨E, rfl, rfl, hr⟩ := hD
    exact MemSpec.pure _ _ ⟨by rw [List.map_cons, List.sum_cons, add_comm], List.Forall₂.cons hp hr⟩

theorem repeat_own {β : Type} (m : CMem β) (own' : β → Multiset ℕ) (P : β → Prop)
    (hm : MemSpec 0 m (fun b B => B = own' b ∧ P b)) (n : ℕ) :
    MemSpec 0 (repeatM m n) (fun r B => B = (r.map own').sum ∧ r.length = n ∧ ∀ b ∈ r, P b) := by
  induction n with
  | zero => exact MemSpec.pure _ _ ⟨rfl, rfl, by simp⟩
  | succ n ih =>
    refine hm.bind fun b B hB => ?_
    obtain ⟨rfl, hp⟩ := hB
    have h2 := ih.frame (own' b)
    rw [zero_add] at h2
    refine h2.bind fun r D hD => ?_
    obtain ⟨E, rfl, rfl, hr, hall⟩ := hD
    refine MemSpec.pure _ _ ⟨by rw [List.map_cons, List.sum_cons, add_comm], by rw [List.length_cons, hr], ?_⟩
    intro c hc
    rcases List.mem_cons.1 hc with rfl | hc
    · exact hp
    · exact hall c hc

/-- A step of a sequence that uses some of the blocks. -/
theorem MemSpec.step {α β : Type} {A A' : Multiset ℕ} (G : Multiset ℕ) {m : CMem α} {f : α → CMem β} {Q : α → Multiset ℕ → Prop}
    {R : β → Multiset ℕ → Prop} (h1 : MemSpec A' m Q) (hA : A = A' + G) (h2 : ∀ a C, Q a C → MemSpec (C + G) (f a) R) :
    MemSpec A (m >>= f) R := by
  rw [hA]
  refine (h1.frame G).bind fun a B hB => ?_
  obtain ⟨C, rfl, hC⟩ := hB
  exact h2 a C hC

theorem MemSpec.alloc {β : Type} {A : Multiset ℕ} {f : ℕ → CMem β} {R : β → Multiset ℕ → Prop}
    (h : ∀ p, MemSpec ({p} + A) (f p) R) : MemSpec A (cAlloc >>= f) R :=
  (alloc_spec A).bind fun p B hB => by rw [hB]; exact h p

theorem MemSpec.free {β : Type} {A : Multiset ℕ} {p : ℕ} (A' : Multiset ℕ) {f : Unit → CMem β} {R : β → Multiset ℕ → Prop}
    (hA : A = {p} + A') (h : MemSpec A' (f ()) R) : MemSpec A (cFree (some p) >>= f) R :=
  (free_spec p A' A hA).bind fun _ B hB => by rw [hB]; exact h

/-- The blocks of the rows of an array made by calloc_pppf. -/
def pppfRows (rows : List (ℕ × List ℕ)) : Multiset ℕ := (rows.map (fun r => {r.1} + (r.2.map (fun c => ({c} : Multiset ℕ))).sum)).sum

theorem callocPppf_spec (n1 n2 : ℕ) :
    MemSpec 0 (callocPppf n1 n2) (fun a B => B = {a.1} + pppfRows a.2 ∧ a.2.length = n1 ∧ ∀ r ∈ a.2, r.2.length = n2) := by
  unfold callocPppf
  refine MemSpec.alloc fun a => ?_
  have hrow : MemSpec 0 (do
      let b ← cAlloc
      let cs ← repeatM cAlloc n2
      pure (b, cs)) (fun (r : ℕ × List ℕ) B => B = {r.1} + (r.2.map (fun c => ({c} : Multiset ℕ))).sum ∧ r.2.length = n2) := by
    refine MemSpec.alloc fun b => ?_
    have h1 := repeat_own cAlloc (fun c => ({c} : Multiset ℕ)) (fun _ => True) ((alloc_spec 0).mono fun p B hB => ⟨by rw [hB, add_zero], trivial⟩) n2
    refine h1.step {b} (by abel) fun cs C hC => ?_
    exact MemSpec.pure _ _ ⟨by rw [hC.1]; abel, hC.2.1⟩
  refine (repeat_own _ _ _ hrow n1).step {a} (by abel) fun rows C hC => ?_
  exact MemSpec.pure _ _ ⟨by rw [hC.1]; unfold pppfRows; abel, hC.2.1, hC.2.2⟩

/-- Freeing the array gives back only the outermost block. -/
theorem freePppf_spec (a : ℕ × List (ℕ × List ℕ)) (n2 : ℕ) : MemSpec {a.1} (freePppf a n2) (fun _ B => B = 0) := by
  unfold freePppf
  refine (each_keep _ {a.1} (fun r => ?_) a.2).bind fun _ B hB => ?_
  · refine MemSpec.alloc fun b => ?_
    refine (repeat_keep _ _ (free_none_spec _) n2).bind fun _ B hB => ?_
    subst hB
    exact free_spec b {a.1} _ rfl
  · subst hB
    exact free_spec a.1 0 _ (by abel)

/-- The blocks of a list. -/
def intlBlocks (l : IntL) : Multiset ℕ := {l.self} + {l.vals}

theorem intlistNew_spec : MemSpec 0 intlistNew (fun l B => B = intlBlocks l ∧ l.n = 0) := by
  unfold intlistNew
  refine MemSpec.alloc fun s => MemSpec.alloc fun v => ?_
  exact MemSpec.pure _ _ ⟨by unfold intlBlocks; abel, rfl⟩

theorem intlistPush_spec (l : IntL) : MemSpec (intlBlocks l) (intlistPush l) (fun l' B => B = intlBlocks l' ∧ l'.n = l.n + 1) := by
  unfold intlistPush
  by_cases h : l.n ≥ l.cap
  · rw [if_pos h]
    refine (realloc_spec l.vals {l.self} _ (by unfold intlBlocks; abel)).bind fun v B hB => ?_
    exact MemSpec.pure _ _ ⟨by rw [hB]; unfold intlBlocks; abel, rfl⟩
  · rw [if_neg h]
    exact MemSpec.pure _ _ ⟨rfl, rfl⟩

theorem intlistPushN_spec (l : IntL) (k : ℕ) :
    MemSpec (intlBlocks l) (intlistPushN l k) (fun l' B => B = intlBlocks l' ∧ l'.n = l.n + k) := by
  induction k generalizing l with
  | zero => exact MemSpec.pure _ _ ⟨rfl, rfl⟩
  | succ k ih =>
    refine (intlistPush_spec l).bind fun l' B hB => ?_
    obtain ⟨rfl, hn⟩ := hB
    exact (ih l').mono fun l'' C hC => ⟨hC.1, by rw [hC.2, hn]; ring⟩

theorem intlistFree_spec (l : IntL) : MemSpec (intlBlocks l) (intlistFree l) (fun _ B => B = 0) := by
  unfold intlistFree
  refine MemSpec.free {l.self} (by unfold intlBlocks; abel) ?_
  exact free_spec l.self 0 _ (by abel)

theorem each_free {α β : Type} (f : α → CMem β) (own : α → Multiset ℕ) (hf : ∀ a, MemSpec (own a) (f a) (fun _ B => B = 0)) (l : List α) :
    MemSpec (l.map own).sum (eachM f l) (fun _ B => B = 0) :=
  (each_own f own (fun _ => 0) (fun _ _ => True) (fun a => (hf a).mono fun _ _ h => ⟨h, trivial⟩) l).mono fun r B hB => by
    rw [hB.1]
    simp

theorem sum_filter_split {α : Type} (g : α → Multiset ℕ) (q : α → Bool) (l : List α) :
    (l.map g).sum = ((l.filter q).map g).sum + ((l.filter (fun a => !q a)).map g).sum := by
  induction l with
  | nil => simp
  | cons a t ih =>
    rw [List.map_cons, List.sum_cons, ih, List.filter_cons, List.filter_cons]
    cases q a
    · simp only [Bool.false_eq_true, if_false, Bool.not_false, if_true, List.map_cons, List.sum_cons]
      abel
    · simp only [if_true, Bool.not_true, Bool.false_eq_true, if_false, List.map_cons, List.sum_cons]
      abel

theorem sum_add_split {α : Type} (g k : α → Multiset ℕ) (l : List α) :
    (l.map (fun a => g a + k a)).sum = (l.map g).sum + (l.map k).sum := by
  induction l with
  | nil => simp
  | cons a t ih =>
    simp only [List.map_cons, List.sum_cons, ih]
    abel

/-- The blocks of the cells given to the caller. -/
def cellBlocks (cells : List (ℕ × ℕ)) : Multiset ℕ := (cells.map (fun c => ({c.1} : Multiset ℕ) + {c.2})).sum

theorem assignCells_spec (cnt : List ℕ) :
    MemSpec 0 (assignCellsMem cnt) (fun o B => B = {o.nobj} + {o.objs} + {o.boxes} + cellBlocks o.cells
      ∧ o.cells.length = (cnt.filter (fun k => decide (0 < k))).length) := by
  unfold assignCellsMem
  refine MemSpec.alloc fun cl => ?_
  have h1 := each_own (fun k => do let l ← intlistNew; pure (l, k)) (fun _ : ℕ => (0 : Multiset ℕ))
    (fun p : IntL × ℕ => intlBlocks p.1) (fun k p => p.1.n = 0 ∧ p.2 = k) (fun k => intlistNew_spec.bind fun l B hB =>
      MemSpec.pure _ _ ⟨hB.1, hB.2, rfl⟩) cnt
  have z : (cnt.map (fun _ => (0 : Multiset ℕ))).sum = 0 := by simp
  rw [z] at h1
  refine h1.step {cl} (by abel) fun ls C hC => ?_
  obtain ⟨rfl, hls⟩ := hC
  refine MemSpec.alloc fun cb => ?_
  have h2 := each_own (fun p : IntL × ℕ => intlistPushN p.1 p.2) (fun p => intlBlocks p.1) intlBlocks
    (fun p l => l.n = p.1.n + p.2) (fun p => (intlistPushN_spec p.1 p.2).mono fun _ _ h => h) ls
  refine h2.step ({cl} + {cb}) (by abel) fun lists C hC => ?_
  obtain ⟨rfl, hlists⟩ := hC
  have hn : (lists.filter (fun l => decide (0 < l.n))).length = (cnt.filter (fun k => decide (0 < k))).length := by
    clear h1 h2 z
    induction hls generalizing lists with
    | nil => cases hlists; rfl
    | cons hp _ ih =>
      cases hlists with
      | cons hq ht =>
        rw [List.filter_cons, List.filter_cons]
        have e : ∀ {a b : ℕ}, a = b → decide (0 < a) = decide (0 < b) := fun h => by rw [h]
        rw [e (show _ = _ by rw [hq, hp.1, hp.2, zero_add])]
        split_ifs
        · rw [List.length_cons, List.length_cons]
          exact congrArg Nat.succ (by apply ih <;> assumption)
        · apply ih <;> assumption
  set act := lists.filter (fun l => decide (0 < l.n)) with hact
  set inact := lists.filter (fun l => !decide (0 < l.n)) with hinact
  have hsplit : (lists.map intlBlocks).sum = (act.map intlBlocks).sum + (inact.map intlBlocks).sum :=
    sum_filter_split intlBlocks (fun l => decide (0 < l.n)) lists
  have hactsum : (act.map intlBlocks).sum = (act.map (fun l => ({l.self} : Multiset ℕ))).sum + (act.map (fun l => ({l.vals} : Multiset ℕ))).sum :=
    sum_add_split _ _ act
  rw [hsplit, hactsum]
  set S := (act.map (fun l => ({l.self} : Multiset ℕ))).sum with hS
  set V := (act.map (fun l => ({l.vals} : Multiset ℕ))).sum with hV
  set I := (inact.map intlBlocks).sum with hI
  refine intlistNew_spec.step (S + V + I + {cl} + {cb}) (by abel) fun active C hC => ?_
  obtain ⟨rfl, -⟩ := hC
  refine intlistNew_spec.step (intlBlocks active + S + V + I + {cl} + {cb}) (by abel) fun inactive C hC => ?_
  obtain ⟨rfl, -⟩ := hC
  refine (intlistPushN_spec active act.length).step (intlBlocks inactive + S + V + I + {cl} + {cb}) (by abel) fun active C hC => ?_
  obtain ⟨rfl, -⟩ := hC
  refine (intlistPushN_spec inactive inact.length).step (intlBlocks active + S + V + I + {cl} + {cb}) (by abel) fun inactive C hC => ?_
  obtain ⟨rfl, -⟩ := hC
  refine MemSpec.alloc fun nobj => MemSpec.alloc fun objs => MemSpec.alloc fun boxes => ?_
  have h3 := each_own (fun l : IntL => do let b ← cAlloc; pure (l.vals, b)) (fun l => ({l.vals} : Multiset ℕ))
    (fun c : ℕ × ℕ => ({c.1} : Multiset ℕ) + {c.2}) (fun _ _ => True) (fun l => MemSpec.alloc fun b =>
      MemSpec.pure _ _ ⟨by abel, trivial⟩) act
  rw [← hV] at h3
  refine h3.step ({nobj} + {objs} + {boxes} + intlBlocks inactive + intlBlocks active + S + I + {cl} + {cb}) (by abel) fun cells C hC => ?_
  obtain ⟨rfl, hlen⟩ := hC
  refine (each_free intlistFree intlBlocks intlistFree_spec inact).step
    (cellBlocks cells + {nobj} + {objs} + {boxes} + intlBlocks inactive + intlBlocks active + S + {cl} + {cb})
    (by rw [← hI]; unfold cellBlocks; abel) fun _ C hC => ?_
  subst hC
  have h4 := each_free (fun l : IntL => cFree (some l.self)) (fun l => ({l.self} : Multiset ℕ))
    (fun l => free_spec l.self 0 _ (by abel)) act
  rw [← hS] at h4
  refine h4.step (cellBlocks cells + {nobj} + {objs} + {boxes} + intlBlocks inactive + intlBlocks active + {cl} + {cb})
    (by abel) fun _ C hC => ?_
  subst hC
  refine (intlistFree_spec active).step (cellBlocks cells + {nobj} + {objs} + {boxes} + intlBlocks inactive + {cl} + {cb})
    (by abel) fun _ C hC => ?_
  subst hC
  refine (intlistFree_spec inactive).step (cellBlocks cells + {nobj} + {objs} + {boxes} + {cl} + {cb}) (by abel) fun _ C hC => ?_
  subst hC
  refine MemSpec.free (cellBlocks cells + {nobj} + {objs} + {boxes} + {cb}) (by abel) ?_
  refine MemSpec.free (cellBlocks cells + {nobj} + {objs} + {boxes}) (by abel) ?_
  exact MemSpec.pure _ _ ⟨by abel, by rw [← hn]; exact hlen.length_eq.symm⟩

theorem processCell_spec (A : Multiset ℕ) : MemSpec A processCellMem (fun _ B => B = A) := by
  unfold processCellMem
  refine MemSpec.alloc fun data => MemSpec.alloc fun decs => MemSpec.alloc fun ras => MemSpec.alloc fun work => MemSpec.alloc fun amp => ?_
  refine MemSpec.free ({work} + {ras} + {decs} + {data} + A) (by abel) ?_
  refine MemSpec.free ({work} + {ras} + {decs} + A) (by abel) ?_
  refine MemSpec.free ({work} + {ras} + A) (by abel) ?_
  refine MemSpec.free ({work} + A) (by abel) ?_
  exact free_spec work A _ rfl

theorem eachCellFree_spec (cells : List (ℕ × ℕ)) :
    MemSpec (cellBlocks cells) (eachM (fun c : ℕ × ℕ => do cFree (some c.1); cFree (some c.2)) cells) (fun _ B => B = 0) :=
  each_free (fun c : ℕ × ℕ => do cFree (some c.1); cFree (some c.2)) (fun c => ({c.1} : Multiset ℕ) + {c.2})
    (fun c => MemSpec.free (f := fun _ => cFree (some c.2)) {c.2} rfl (free_spec c.2 0 _ (by abel))) cells

/-- The blocks left behind by one call: none, or those of the rows of the work space of the transposed operation. -/
theorem simObjects_spec (table : Bool) (cnt : List ℕ) (transpose : Bool) (nthread ncomp : ℕ) :
    MemSpec 0 (simObjectsMem table cnt transpose nthread ncomp)
      (fun _ B => B.card = if transpose then nthread * (ncomp + 1) else 0) := by
  unfold simObjectsMem
  refine MemSpec.alloc fun amaxs => ?_
  have hinfo : MemSpec 0 (if table then do let p ← cAlloc; pure (some p) else pure none : CMem (Option ℕ))
      (fun i B => B = (i.elim 0 (fun p => {p}) : Multiset ℕ)) := by
    cases table
    · exact MemSpec.pure _ _ rfl
    · exact MemSpec.alloc fun p => MemSpec.pure _ _ (by simp)
  refine hinfo.step {amaxs} (by abel) fun info C hC => ?_
  subst hC
  refine MemSpec.alloc fun rmaxs => ?_
  refine MemSpec.free ({rmaxs} + info.elim 0 (fun p => {p})) (by abel) ?_
  have hfree : MemSpec (info.elim 0 (fun p => {p})) (cFree info) (fun _ B => B = 0) := by
    cases info
    · exact free_none_spec 0
    · exact free_spec _ 0 _ (by simp)
  refine hfree.step {rmaxs} (by abel) fun _ C hC => ?_
  subst hC
  refine (assignCells_spec cnt).step {rmaxs} (by abel) fun out C hC => ?_
  obtain ⟨rfl, -⟩ := hC
  have hend : ∀ L : Multiset ℕ, MemSpec ({out.nobj} + {out.objs} + {out.boxes} + cellBlocks out.cells + {rmaxs} + L) (do
      let _ ← eachM (fun c : ℕ × ℕ => do cFree (some c.1); cFree (some c.2)) out.cells
      cFree (some out.objs)
      cFree (some out.boxes)
      cFree (some out.nobj)
      cFree (some rmaxs)) (fun _ B => B = L) := by
    intro L
    refine (eachCellFree_spec out.cells).step ({out.nobj} + {out.objs} + {out.boxes} + {rmaxs} + L) (by abel) fun _ C hC => ?_
    subst hC
    refine MemSpec.free ({out.nobj} + {out.boxes} + {rmaxs} + L) (by abel) ?_
    refine MemSpec.free ({out.nobj} + {rmaxs} + L) (by abel) ?_
    refine MemSpec.free ({rmaxs} + L) (by abel) ?_
    exact free_spec rmaxs L _ rfl
  cases transpose
  · simp only [Bool.false_eq_true, if_false]
    refine (each_keep _ _ (fun _ => processCell_spec _) out.cells).bind fun _ C hC => ?_
    subst hC
    have := hend 0
    rw [add_zero] at this
    exact this.mono fun _ B hB => by rw [hB]; rfl
  · simp only [if_true]
    refine (callocPppf_spec nthread ncomp).step ({out.nobj} + {out.objs} + {out.boxes} + cellBlocks out.cells + {rmaxs}) (by abel)
      fun work C hC => ?_
    obtain ⟨rfl, hlen, hrow⟩ := hC
    refine (each_keep _ _ (fun _ => processCell_spec _) out.cells).bind fun _ C hC => ?_
    subst hC
    refine (freePppf_spec work ncomp).step ({out.nobj} + {out.objs} + {out.boxes} + cellBlocks out.cells + {rmaxs} + pppfRows work.2)
      (by abel) fun _ C hC => ?_
    subst hC
    rw [zero_add]
    refine (hend _).mono fun _ B hB => ?_
    rw [hB]
    subst hlen
    clear hB hend
    obtain ⟨w, rows⟩ := work
    unfold pppfRows
    simp only at hrow ⊢
    induction rows with
    | nil => simp
    | cons r t ih =>
      have e : ((r.2.map (fun c => ({c} : Multiset ℕ))).sum).card = r.2.length := by
        induction r.2 with
        | nil => rfl
        | cons c u ih' => rw [List.map_cons, List.sum_cons, Multiset.card_add, ih', Multiset.card_singleton, List.length_cons, add_comm]
      rw [List.map_cons, List.sum_cons, Multiset.card_add, Multiset.card_add, e, hrow r (by simp), ih (fun r' h => hrow r' (by simp [h])),
        Multiset.card_singleton, List.length_cons]
      ring

/-- What one call leaves behind: a failed assertion leaves the pointers collected so far, the transposed operation its work space. -/
def leakOf (c : PaintCall) : ℕ :=
  if c.okObj = false then 1 else if c.okProf = false ∨ c.okPos = false then 4
  else if c.transpose then c.nthread * (c.ncomp + 1) else 0

theorem simObjectsWrap_spec (c : PaintCall) :
    MemSpec 0 (simObjectsWrap c.okObj c.okProf c.okPos c.table c.cnt c.transpose c.nthread c.ncomp)
      (fun r B => B.card = leakOf c ∧ r = (c.okObj && c.okProf && c.okPos)) := by
  obtain ⟨o, pr, po, t, cnt, tr, nt, nc⟩ := c
  unfold simObjectsWrap leakOf
  simp only
  refine MemSpec.alloc fun map => ?_
  cases o
  · simp only [Bool.not_false, if_true, Bool.false_and]
    exact MemSpec.pure _ _ ⟨by simp, rfl⟩
  · simp only [Bool.not_true, Bool.false_eq_true, if_false, Bool.true_and]
    refine MemSpec.alloc fun amps => MemSpec.alloc fun rs => MemSpec.alloc fun vs => ?_
    by_cases h : pr = false ∨ po = false
    · have h1 : (!pr || !po) = true := by rcases h with h | h <;> simp [h]
      have h2 : (pr && po) = false := by rcases h with h | h <;> simp [h]
      rw [if_pos h1, h2]
      refine MemSpec.pure _ _ ⟨?_, rfl⟩
      rw [if_neg (by simp), if_pos h]
      simp
    · have hp : pr = true := by cases pr <;> simp_all
      have hq : po = true := by cases po <;> simp_all
      subst hp hq
      simp only [Bool.not_true, Bool.or_self, Bool.false_eq_true, if_false, or_self, Bool.and_self]
      refine (simObjects_spec t cnt tr nt nc).step ({map} + {amps} + {rs} + {vs}) (by abel) fun _ C hC => ?_
      refine MemSpec.free ({amps} + {rs} + {vs} + C) (by abel) ?_
      refine MemSpec.free ({rs} + {vs} + C) (by abel) ?_
      refine MemSpec.free ({vs} + C) (by abel) ?_
      refine MemSpec.free C (by abel) ?_
      exact MemSpec.pure _ _ ⟨by simpa using hC, rfl⟩

/-- C135, the memory after any history of calls: it runs without undefined behaviour, keeps all blocks of others, and the number of new
blocks is the sum of what the calls leave behind. -/
theorem C135_history (cs : List PaintCall) (h : CHeap) :
    ∃ h' B, paintCalls cs h = some (cs.map (fun c => c.okObj && c.okProf && c.okPos), h') ∧ h'.live = B + h.live
      ∧ B.card = (cs.map leakOf).sum := by
  have key : MemSpec 0 (paintCalls cs) (fun r B => B.card = (cs.map leakOf).sum ∧ r = cs.map (fun c => c.okObj && c.okProf && c.okPos)) := by
    unfold paintCalls
    induction cs with
    | nil => exact MemSpec.pure _ _ ⟨rfl, rfl⟩
    | cons c t ih =>
      refine (simObjectsWrap_spec c).bind fun r B hB => ?_
      refine ih.step B (by rw [zero_add]) fun l C hC => ?_
      refine MemSpec.pure _ _ ⟨?_, ?_⟩
      · rw [Multiset.card_add, hC.1, hB.1, List.map_cons, List.sum_cons, add_comm]
      · rw [hB.2, hC.2, List.map_cons]
  obtain ⟨a, h', B, e, hl, hc, ha⟩ := key h h.live (by rw [zero_add])
  exact ⟨h', B, by rw [e, ha], hl, hc⟩

/-- C135.  Painting objects gives back all its memory: after any history of successful calls without transposition exactly the blocks from
before are live. -/
theorem C135_paint_partial (cs : List PaintCall) (hok : ∀ c ∈ cs, c.okObj ∧ c.okProf ∧ c.okPos) (ht : ∀ c ∈ cs, c.transpose = false)
    (h : CHeap) : ∃ h', paintCalls cs h = some (cs.map (fun _ => true), h') ∧ h'.live = h.live := by
  obtain ⟨h', B, e, hl, hc⟩ := C135_history cs h
  have hz : (cs.map leakOf).sum = 0 := by
    apply List.sum_eq_zero
    intro x hx
    obtain ⟨c, hc, rfl⟩ := List.mem_map.1 hx
    obtain ⟨h1, h2, h3⟩ := hok c hc
    unfold leakOf
    rw [h1, h2, h3, ht c hc]
    simp
  rw [hz, Multiset.card_eq_zero] at hc
  refine ⟨h', ?_, by rw [hl, hc, zero_add]⟩
  rw [e]
  congr 2
  apply List.map_congr_left
  intro c hc
  obtain ⟨h1, h2, h3⟩ := hok c hc
  rw [h1, h2, h3]
  rfl

example (h : CHeap) : ∃ h', paintCalls [⟨true, true, true, false, [3, 0, 70], false, 4, 3⟩, ⟨true, true, true, true, [], false, 4, 1⟩] h
    = some ([true, true], h') ∧ h'.live = h.live :=
  C135_paint_partial _ (by simp) (by simp) h

/-- C135.  The transposed operation loses its work space on every call: whatever the limit, there is a history of successful calls for
the same arguments after which more blocks than that are live. -/
theorem C135_transpose_refuted (cnt : List ℕ) (table : Bool) (nthread ncomp : ℕ) (hn : 0 < nthread) (h : CHeap) (limit : ℕ) :
    ∃ k h', paintCalls (List.replicate k ⟨true, true, true, table, cnt, true, nthread, ncomp⟩) h = some (List.replicate k true, h')
      ∧ limit < h'.live.card := by
  obtain ⟨h', B, e, hl, hc⟩ := C135_history (List.replicate (limit + 1) ⟨true, true, true, table, cnt, true, nthread, ncomp⟩) h
  refine ⟨limit + 1, h', ?_, ?_⟩
  · rw [e, List.map_replicate]
    rfl
  · rw [hl, Multiset.card_add, hc, List.map_replicate, List.sum_replicate]
    have : 1 ≤ nthread * (ncomp + 1) := Nat.succ_le_of_lt (Nat.mul_pos hn (by omega))
    unfold leakOf
    simp only [Bool.true_eq_false, if_false, or_self, if_true, nsmul_eq_mul, Nat.cast_id]
    nlinarith

/-- C135.  A call that ends with an exception loses the pointers it has collected. -/
theorem C135_error_refuted (okProf okPos table : Bool) (cnt : List ℕ) (transpose : Bool) (nthread ncomp : ℕ) (h : CHeap) :
    ∃ h', paintCalls [⟨false, okProf, okPos, table, cnt, transpose, nthread, ncomp⟩] h = some ([false], h')
      ∧ h'.live.card = h.live.card + 1 := by
  obtain ⟨h', B, e, hl, hc⟩ := C135_history [⟨false, okProf, okPos, table, cnt, transpose, nthread, ncomp⟩] h
  refine ⟨h', e, ?_⟩
  rw [hl, Multiset.card_add, hc, add_comm]
  rfl

end Pixell
