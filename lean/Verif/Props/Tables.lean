import Verif.Model.Tables
import Verif.Props.ColorScheme
import Mathlib.Data.List.Perm.Basic

/-
Property C194: bunches of arrays, joined tables and flattened views.
-/
namespace Pixell

/-- A value fits under another in an array of its type: numbers under a number, whole numbers under a whole number, texts
under a text that is not shorter. -/
def CellFits : CellVal → CellVal → Prop
  | .int _, .int _ => True
  | .num _, .num _ => True
  | .text f, .text s => s.length ≤ f.length
  | _, _ => False

theorem cast_fits {f v : CellVal} (h : CellFits f v) : castLike f v = some v := by
  cases f <;> cases v <;> simp_all [CellFits, castLike, List.take_of_length_le]

theorem mapM_self {α : Type} {g : α → Option α} : ∀ (l : List α), (∀ x ∈ l, g x = some x) → l.mapM g = some l
  | [], _ => rfl
  | x :: l, h => by
    rw [List.mapM_cons, h x List.mem_cons_self, mapM_self l fun y hy => h y (List.mem_cons_of_mem _ hy)]
    rfl

theorem mapM_value {α β : Type} {g : α → Option β} {f : α → β} : ∀ (l : List α), (∀ x ∈ l, g x = some (f x)) → l.mapM g = some (l.map f)
  | [], _ => rfl
  | x :: l, h => by
    rw [List.mapM_cons, h x List.mem_cons_self, mapM_value l fun y hy => h y (List.mem_cons_of_mem _ hy)]
    rfl

/-- C194: from a list of bunches one gets a bunch with the keys of the first, in which each key has the values of all
bunches in order, if all have the keys of the first and values that fit its values. -/
theorem C194_concat_partial (first : List (String × CellVal)) (rest : List (List (String × CellVal)))
    (value : List (String × CellVal) → String → CellVal)
    (hv : ∀ b ∈ first :: rest, ∀ k ∈ first.map Prod.fst, ((b.find? fun p => p.1 == k).map Prod.snd) = some (value b k))
    (hf : ∀ b ∈ first :: rest, ∀ k ∈ first.map Prod.fst, CellFits (value first k) (value b k)) :
    bunchConcat (first :: rest) = some (first.map fun kv => (kv.1, (first :: rest).map fun b => value b kv.1)) := by
  simp only [bunchConcat, List.head?_cons, Option.bind_eq_bind, Option.bind_some]
  apply mapM_value
  intro kv hkv
  have hk : kv.1 ∈ first.map Prod.fst := List.mem_map_of_mem hkv
  have e1 : (first :: rest).mapM (fun b => (b.find? fun p => p.1 == kv.1).map Prod.snd) =
      some ((first :: rest).map fun b => value b kv.1) := mapM_value _ fun b hb => hv b hb _ hk
  rw [e1]
  simp only [Option.bind_some, List.map_cons, List.head?_cons]
  have e2 : (value first kv.1 :: rest.map fun b => value b kv.1).mapM (castLike (value first kv.1)) =
      some (value first kv.1 :: rest.map fun b => value b kv.1) := by
    apply mapM_self
    intro x hx
    rcases List.mem_cons.1 hx with rfl | hx
    · exact cast_fits (hf first List.mem_cons_self _ hk)
    · obtain ⟨b, hb, rfl⟩ := List.mem_map.1 hx
      exact cast_fits (hf b (List.mem_cons_of_mem _ hb) _ hk)
  rw [e2]
  rfl

example : bunchConcat [[("a", .int 1), ("b", .text ['x', 'y'])], [("b", .text ['z']), ("a", .int 2)]] =
    some [("a", [.int 1, .int 2]), ("b", [.text ['x', 'y'], .text ['z']])] := by decide +kernel

/-- C194 fails if the first value of a key is a whole number: later numbers lose their fractions. -/
theorem C194_whole_refuted (n : ℤ) (q : ℚ) (hq : 0 ≤ q) : bunchConcat [[("a", .int n)], [("a", .num q)]] =
    some [("a", [.int n, .int ⌊q⌋])] := by
  simp [bunchConcat, castLike, List.find?, not_lt.2 hq]

/-- C194 fails for texts: later ones are cut to the length of the first. -/
theorem C194_text_refuted (f s : List Char) : bunchConcat [[("a", .text f)], [("a", .text s)]] =
    some [("a", [.text f, .text (s.take f.length)])] := by
  simp [bunchConcat, castLike, List.find?]

/-- C194 fails for bunches with different keys: keys that the first lacks are dropped, keys that another lacks raise; and
for no bunches. -/
theorem C194_keys_refuted (v w : CellVal) :
    bunchConcat [[("a", .int 1)], [("a", .int 2), ("b", v)]] = some [("a", [.int 1, .int 2])] ∧
    bunchConcat [[("a", .int 1), ("b", w)], [("a", .int 2)]] = none ∧ bunchConcat [] = none := by
  refine ⟨?_, ?_, rfl⟩
  · simp [bunchConcat, castLike, List.find?]
  · simp [bunchConcat, castLike, List.find?]

/-! ### Joined tables -/

/-- C194: tables with the same number of rows and no common column are joined: the columns of all, in order and
unchanged. -/
theorem C194_merge_partial {α : Type} (t : List (String × List α)) (ts : List (List (String × List α))) (n : Nat) (ht : t ≠ [])
    (hn : ∀ c ∈ (t :: ts).flatten, c.2.length = n) (hd : ((t :: ts).flatten.map Prod.fst).Nodup) :
    mergeTables (t :: ts) = some (t :: ts).flatten := by
  cases t with
  | nil => exact absurd rfl ht
  | cons c t =>
    have hc : c.2.length = n := hn c (by simp)
    simp only [mergeTables, List.head?_cons, Option.bind_eq_bind, Option.bind_some, Option.map_some, Option.getD_some, hc]
    rw [if_pos hd]
    apply mapM_self
    intro x hx
    simp [fillColumn, hn x hx]

example : mergeTables [[("a", [1, 2])], [("b", [3, 4]), ("c", [5, 6])]] = some [("a", [1, 2]), ("b", [3, 4]), ("c", [5, 6])] := by
  decide +kernel

/-- C194 fails for a table with one row joined to a longer one: it is repeated for every row, without an error; and for a
column that two tables have. -/
theorem C194_row_refuted {α : Type} (col : List α) (x : α) :
    mergeTables [[("a", col)], [("b", [x])]] = some [("a", col), ("b", List.replicate col.length x)] ∧
    mergeTables [[("a", col)], [("a", col)]] = none := by
  constructor
  · by_cases h : col.length = 1
    · simp [mergeTables, fillColumn, h]
    · simp [mergeTables, fillColumn, Ne.symm h]
  · simp [mergeTables]

/-! ### Flattened views -/

theorem writeAll_length {α : Type} (ws : List (Nat × α)) : ∀ a : List α, (writeAll a ws).length = a.length := by
  induction ws with
  | nil => intro a; rfl
  | cons w ws ih => intro a; simp only [writeAll, List.foldl_cons] at *; rw [ih]; simp

theorem writeAll_cons {α : Type} (a : List α) (w : Nat × α) (ws : List (Nat × α)) : writeAll a (w :: ws) = writeAll (a.set w.1 w.2) ws := rfl

theorem writeAll_other {α : Type} (ws : List (Nat × α)) : ∀ (a : List α) (j : Nat), j ∉ ws.map Prod.fst → (writeAll a ws)[j]? = a[j]? := by
  induction ws with
  | nil => intro a j _; rfl
  | cons w ws ih =>
    intro a j hj
    simp only [List.map_cons, List.mem_cons, not_or] at hj
    rw [writeAll_cons, ih _ j hj.2, List.getElem?_set_ne (Ne.symm hj.1)]

/-- Writing a whole array back to distinct positions. -/
theorem writeAll_zip {α : Type} : ∀ (p : List Nat) (f a : List α), p.Nodup → f.length = p.length → (∀ j ∈ p, j < a.length) →
    ∀ (i : Nat) (j : Nat), p[i]? = some j → (writeAll a (p.zip f))[j]? = f[i]?
  | [], _, _, _, _, _, i, j, h => by simp at h
  | q :: p, [], _, _, hl, _, _, _, _ => by simp at hl
  | q :: p, x :: f, a, hnd, hl, hlt, i, j, h => by
    rw [List.zip_cons_cons, writeAll_cons]
    cases i with
    | zero =>
      simp only [List.getElem?_cons_zero, Option.some.injEq] at h
      subst h
      rw [writeAll_other]
      · simp [hlt q List.mem_cons_self]
      · intro hm
        obtain ⟨y, hy, e⟩ := List.mem_map.1 hm
        have := (List.of_mem_zip hy).1
        rw [e] at this
        exact (List.nodup_cons.1 hnd).1 this
    | succ i =>
      simp only [List.getElem?_cons_succ] at h ⊢
      exact writeAll_zip p f _ (List.nodup_cons.1 hnd).2 (by simpa using hl)
        (fun j hj => by simpa using hlt j (List.mem_cons_of_mem _ hj)) i j h

/-- Writing through a view and writing to a flattened copy agree at every position. -/
theorem writes_agree {α : Type} (p : List Nat) (hnd : p.Nodup) (i j : Nat) (hij : p[i]? = some j) :
    ∀ (ws : List (Nat × α)) (a f : List α), f.length = p.length → (∀ j ∈ p, j < a.length) → a[j]? = f[i]? →
    (writeAll a (ws.filterMap fun w => p[w.1]?.map fun j => (j, w.2)))[j]? = (writeAll f ws)[i]? := by
  intro ws
  induction ws with
  | nil => intro a f _ _ h; exact h
  | cons w ws ih =>
    intro a f hl hlt h
    rw [writeAll_cons]
    cases hw : p[w.1]? with
    | none =>
      rw [List.filterMap_cons_none (by simp [hw])]
      apply ih _ _ (by simpa using hl) hlt
      have hlen : p.length ≤ w.1 := List.getElem?_eq_none_iff.1 hw
      rw [List.set_eq_of_length_le (by omega)]
      exact h
    | some k =>
      rw [List.filterMap_cons_some (b := (k, w.2)) (by simp [hw]), writeAll_cons]
      apply ih _ _ (by simpa using hl) (by simpa using hlt)
      have hi : i < p.length := (List.getElem?_eq_some_iff.1 hij).1
      have hj : j < a.length := hlt j (List.mem_of_getElem? hij)
      by_cases e : w.1 = i
      · subst e
        rw [hij] at hw
        have : j = k := by simpa using hw
        subst this
        rw [List.getElem?_set_self hj, List.getElem?_set_self (by omega)]
      · have hne : k ≠ j := by
          intro ek
          subst ek
          obtain ⟨h1, e1⟩ := List.getElem?_eq_some_iff.1 hw
          obtain ⟨h2, e2⟩ := List.getElem?_eq_some_iff.1 hij
          exact e ((hnd.getElem_inj_iff).1 (e1.trans e2.symm))
        rw [List.getElem?_set_ne hne, List.getElem?_set_ne e]
        exact h

/-- C194: writable flattened views.  Whatever is written to the flattened array, and whether or not numpy could flatten
without a copy, the element of the array that belongs to element `i` of the flattened array has the value that
was last written there, or its old one. -/
theorem C194_view {α : Type} (a : List α) (p : List Nat) (hp : p.Perm (List.range a.length)) (view contig : Bool) (mode : List Char)
    (hw : 'w' ∈ mode) (ws : List (Nat × α)) (i j : Nat) (hij : p[i]? = some j) :
    (flatView a p view contig mode ws)[j]? = (writeAll (p.filterMap fun j => a[j]?) ws)[i]? := by
  have hnd : p.Nodup := hp.nodup_iff.2 List.nodup_range
  have hlt : ∀ j ∈ p, j < a.length := fun j hj => by simpa using hp.mem_iff.1 hj
  have hflat : p.filterMap (fun j => a[j]?) = p.pmap (fun j h => a[j]) hlt := by
    have : ∀ (q : List Nat) (hq : ∀ j ∈ q, j < a.length), q.filterMap (fun j => a[j]?) = q.pmap (fun j h => a[j]) hq := by
      intro q
      induction q with
      | nil => intro _; rfl
      | cons x q ih =>
        intro hq
        rw [List.filterMap_cons_some (b := a[x]'(hq x List.mem_cons_self)) (by simp [hq x List.mem_cons_self]), ih fun j hj => hq j (List.mem_cons_of_mem _ hj)]
        rfl
    exact this p hlt
  have hlen : (p.filterMap fun j => a[j]?).length = p.length := by rw [hflat]; simp
  have hget : a[j]? = (p.filterMap fun j => a[j]?)[i]? := by
    obtain ⟨h1, h2⟩ := List.getElem?_eq_some_iff.1 hij
    have : j < a.length := hlt j (List.mem_of_getElem? hij)
    rw [List.getElem?_eq_getElem this, hflat, List.getElem?_eq_getElem (by simpa using h1), List.getElem_pmap]
    subst h2
    rfl
  unfold flatView
  split
  · exact writes_agree p hnd i j hij ws a _ hlen hlt hget
  · rw [if_pos (by simpa using hw)]
    exact writeAll_zip p _ a hnd (by rw [writeAll_length, hlen]) hlt i j hij

example : flatView [10, 11, 12, 13] [0, 2, 1, 3] false false ['r', 'w', 'c'] [(1, 5), (3, 6)] = [10, 11, 5, 6] ∧
    flatView [10, 11, 12, 13] [0, 2, 1, 3] true true ['r', 'w', 'c'] [(1, 5), (3, 6)] = [10, 11, 5, 6] := by decide

/-- C194 fails for views that are not for writing: if numpy flattens without a copy, what is written to the flattened
array is written to the array all the same; otherwise it is not. -/
theorem C194_readonly_refuted {α : Type} (x y : α) : flatView [x] [0] true true ['r', 'c'] [(0, y)] = [y] ∧
    flatView [x] [0] false true ['r', 'c'] [(0, y)] = [x] := by
  constructor <;> rfl

end Pixell
