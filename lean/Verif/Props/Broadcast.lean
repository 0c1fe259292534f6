import Verif.Model.Broadcast
import Mathlib.Algebra.Order.Ring.Abs
import Mathlib.Tactic.Linarith
import Mathlib.Tactic.FieldSimp
import Mathlib.Tactic.Ring
import Mathlib.Tactic.NormNum

/-
Properties C115 (broadcasting), C116 (labels of unique values) and C117 (blockwise means).
-/
namespace Pixell

/-! ### Broadcasting -/

theorem le_foldl_max (l : List Nat) (m : Nat) : m ≤ l.foldl max m ∧ ∀ x ∈ l, x ≤ l.foldl max m := by
  induction l generalizing m with
  | nil => simp
  | cons a l ih =>
    obtain ⟨h1, h2⟩ := ih (max m a)
    rw [List.foldl_cons]
    refine ⟨(le_max_left _ _).trans h1, ?_⟩
    intro x hx
    rcases List.mem_cons.1 hx with rfl | hx
    · exact (le_max_right _ _).trans h1
    · exact h2 x hx

theorem padShape_length {ndim : Nat} {at_ : ℤ} {s : List Nat} (h : s.length ≤ ndim) : (padShape ndim at_ s).length = ndim := by
  unfold padShape
  simp only []
  generalize (if (if at_ ≥ 0 then at_ else (s.length : ℤ) + 1 + at_) ≥ 0 then (if at_ ≥ 0 then at_ else (s.length : ℤ) + 1 + at_).toNat
    else ((s.length : ℤ) + (if at_ ≥ 0 then at_ else (s.length : ℤ) + 1 + at_)).toNat) = k
  rw [List.length_append, List.length_append, List.length_replicate, List.length_take, List.length_drop]
  omega

/-- Ones are inserted at one place, and nothing else happens to the shape. -/
theorem padShape_insert (ndim : Nat) (at_ : ℤ) (s : List Nat) :
    ∃ a b, s = a ++ b ∧ padShape ndim at_ s = a ++ List.replicate (ndim - s.length) 1 ++ b := by
  unfold padShape
  exact ⟨_, _, (List.take_append_drop _ s).symm, rfl⟩

/-- at=0 adds the ones at the beginning as numpy does; at=-1 at the end. -/
theorem C115_pad_place (ndim : Nat) (s : List Nat) :
    padShape ndim 0 s = List.replicate (ndim - s.length) 1 ++ s ∧ padShape ndim (-1) s = s ++ List.replicate (ndim - s.length) 1 := by
  constructor
  · unfold padShape; simp
  · unfold padShape
    have : (s.length : ℤ) + 1 + -1 = s.length := by ring
    simp [this]

/-- What broadcasting is: `o` is the result for shapes of equal lengths if at every axis all lengths other than one are equal
to that of `o`, which is one only if all are. -/
def IsBroadcast (ps : List (List Nat)) (o : List Nat) : Prop :=
  ∀ i (hi : i < o.length), (∀ p ∈ ps, p[i]? = some 1 ∨ p[i]? = some o[i]) ∧ (o[i] = 1 ∨ ∃ p ∈ ps, p[i]? = some o[i])

theorem bcStep_spec (o p : List Nat) (h : o.length = p.length) :
    (∀ r, bcStep o p = some r → r.length = o.length ∧ ∀ i (hi : i < o.length) (hi' : i < r.length),
      (p[i]? = some 1 ∨ p[i]? = some r[i]) ∧ (o[i] = 1 ∨ o[i] = r[i]) ∧ (r[i] = o[i] ∨ p[i]? = some r[i])) ∧
    (bcStep o p = none → ∃ i v, ∃ hi : i < o.length, p[i]? = some v ∧ v ≠ 1 ∧ o[i] ≠ 1 ∧ o[i] ≠ v) := by
  induction o generalizing p with
  | nil =>
    cases p with
    | nil =>
      constructor
      · intro r hr
        simp only [bcStep, Option.some.injEq] at hr
        subst hr
        exact ⟨rfl, fun i hi => absurd hi (by simp)⟩
      · intro hn; simp [bcStep] at hn
    | cons => simp at h
  | cons a o ih =>
    cases p with
    | nil => simp at h
    | cons v p =>
      obtain ⟨ih1, ih2⟩ := ih p (by simpa using h)
      unfold bcStep
      cases hc : bcAxis a v with
      | none =>
        constructor
        · intro r hr; simp at hr
        · intro _
          refine ⟨0, v, by simp, by simp, ?_⟩
          unfold bcAxis at hc
          split_ifs at hc with h1 h2
          exact ⟨h1.2, by simpa using h2, by simpa using h1.1⟩
      | some c =>
        have hc' : (v = 1 ∨ v = c) ∧ (a = 1 ∨ a = c) ∧ (c = a ∨ v = c) := by
          unfold bcAxis at hc
          split_ifs at hc with h1 h2
          · simp only [Option.some.injEq] at hc; subst hc; exact ⟨Or.inr rfl, Or.inl h2, Or.inr rfl⟩
          · simp only [Option.some.injEq] at hc; subst hc
            refine ⟨?_, Or.inr rfl, Or.inl rfl⟩
            by_contra hcon
            rw [not_or] at hcon
            exact h1 ⟨fun h => hcon.2 h.symm, hcon.1⟩
        constructor
        · intro r hr
          cases hs : bcStep o p with
          | none => rw [hs] at hr; simp at hr
          | some r' =>
            rw [hs] at hr
            simp only [Option.pure_def, Option.bind_eq_bind, Option.bind_some, Option.some.injEq] at hr
            subst hr
            obtain ⟨hl, hp⟩ := ih1 r' hs
            refine ⟨by simp [hl], ?_⟩
            intro i hi hi'
            cases i with
            | zero => simpa using hc'
            | succ i =>
              simpa using hp i (by simpa using hi) (by simpa using hi')
        · intro hn
          cases hs : bcStep o p with
          | some r' => rw [hs] at hn; simp at hn
          | none =>
            obtain ⟨i, w, hi, hw⟩ := ih2 hs
            exact ⟨i + 1, w, by simpa using hi, by simpa using hw⟩

theorem bcFold_spec (n : Nat) (ps : List (List Nat)) (hps : ∀ p ∈ ps, p.length = n) (o : List Nat) (ho : o.length = n) :
    (∀ r, ps.foldlM bcStep o = some r → r.length = n ∧ IsBroadcast (o :: ps) r) ∧
    (ps.foldlM bcStep o = none → ∃ i < n, ∃ p ∈ o :: ps, ∃ q ∈ o :: ps, ∃ u v, p[i]? = some u ∧ q[i]? = some v ∧ u ≠ 1 ∧ v ≠ 1 ∧ u ≠ v) := by
  induction ps generalizing o with
  | nil =>
    constructor
    · intro r hr
      simp only [List.foldlM_nil, Option.pure_def, Option.some.injEq] at hr
      subst hr
      refine ⟨ho, fun i hi => ⟨?_, Or.inr ⟨o, by simp, List.getElem?_eq_getElem hi⟩⟩⟩
      intro p hp
      rw [List.mem_singleton.1 hp]
      exact Or.inr (List.getElem?_eq_getElem hi)
    · intro h; simp at h
  | cons p ps ih =>
    have hp : o.length = p.length := by rw [ho, hps p (by simp)]
    obtain ⟨hs1, hs2⟩ := bcStep_spec o p hp
    rw [List.foldlM_cons]
    cases hc : bcStep o p with
    | none =>
      constructor
      · intro r hr; simp at hr
      · intro _
        obtain ⟨i, v, hi, h1, h2, h3, h4⟩ := hs2 hc
        exact ⟨i, ho ▸ hi, o, by simp, p, by simp, o[i], v, List.getElem?_eq_getElem hi, h1, h3, h2, h4⟩
    | some o' =>
      obtain ⟨hl, hq⟩ := hs1 o' hc
      obtain ⟨ih1, ih2⟩ := ih (fun q hq => hps q (List.mem_cons_of_mem _ hq)) o' (by rw [hl, ho])
      constructor
      · intro r hr
        simp only [Option.bind_eq_bind, Option.bind_some] at hr
        obtain ⟨hrl, hb⟩ := ih1 r hr
        refine ⟨hrl, ?_⟩
        intro i hi
        have hio : i < o.length := by omega
        have hio' : i < o'.length := by omega
        obtain ⟨g1, g2⟩ := hb i hi
        obtain ⟨e1, e2, e3⟩ := hq i hio hio'
        have g0 := g1 o' (by simp)
        rw [List.getElem?_eq_getElem hio'] at g0
        simp only [Option.some.injEq] at g0
        constructor
        · intro x hx
          rcases List.mem_cons.1 hx with rfl | hx
          · rw [List.getElem?_eq_getElem hio]; simp only [Option.some.injEq]
            rcases e2 with e | e
            · left; exact e
            · rw [e]; exact g0
          rcases List.mem_cons.1 hx with rfl | hx
          · rcases e1 with e | e
            · left; exact e
            · rw [e]; simp only [Option.some.injEq]; exact g0
          · exact g1 x (List.mem_cons_of_mem _ hx)
        · rcases g2 with g | ⟨x, hx, hxe⟩
          · left; exact g
          · rcases List.mem_cons.1 hx with rfl | hx
            · right
              rw [List.getElem?_eq_getElem hio', Option.some.injEq] at hxe
              rcases e3 with e | e
              · exact ⟨o, by simp, by rw [List.getElem?_eq_getElem hio, ← e, hxe]⟩
              · exact ⟨p, by simp, by rw [e, hxe]⟩
            · right; exact ⟨x, by simp [hx], hxe⟩
      · intro hn
        simp only [Option.bind_eq_bind, Option.bind_some] at hn
        obtain ⟨i, hi, x, hx, y, hy, u, v, h1, h2, h3, h4, h5⟩ := ih2 hn
        have hio : i < o.length := by omega
        have hio' : i < o'.length := by omega
        -- a length of the intermediate result comes from one of the shapes
        have conv : ∀ z ∈ o' :: ps, ∀ t, z[i]? = some t → ∃ z' ∈ o :: p :: ps, z'[i]? = some t := by
          intro z hz t ht
          rcases List.mem_cons.1 hz with rfl | hz
          · rw [List.getElem?_eq_getElem hio', Option.some.injEq] at ht
            rcases (hq i hio hio').2.2 with e | e
            · exact ⟨o, by simp, by rw [List.getElem?_eq_getElem hio, ← e, ht]⟩
            · exact ⟨p, by simp, by rw [e, ht]⟩
          · exact ⟨z, by simp [hz], ht⟩
        obtain ⟨x', hx', hxe⟩ := conv x hx u h1
        obtain ⟨y', hy', hye⟩ := conv y hy v h2
        exact ⟨i, hi, x', hx', y', hy', u, v, hxe, hye, h3, h4, h5⟩

/-- C115: broadcast_shape returns the broadcast of the shapes padded with ones, and raises exactly if two of the padded shapes
have different lengths, neither of them one, at some axis.  The result has as many axes as the longest shape. -/
theorem C115_broadcast (shapes : List (List Nat)) (hne : shapes ≠ []) (at_ : ℤ) :
    ∃ ndim, (∀ s ∈ shapes, s.length ≤ ndim) ∧ (∃ s ∈ shapes, s.length = ndim) ∧
      (∀ o, broadcastShape shapes at_ = some o ↔ o.length = ndim ∧ IsBroadcast (shapes.map (padShape ndim at_)) o) ∧
      (broadcastShape shapes at_ = none ↔ ∃ i < ndim, ∃ s ∈ shapes, ∃ t ∈ shapes, ∃ u v,
        (padShape ndim at_ s)[i]? = some u ∧ (padShape ndim at_ t)[i]? = some v ∧ u ≠ 1 ∧ v ≠ 1 ∧ u ≠ v) := by
  set ndim := (shapes.map List.length).foldl max 0 with hnd
  have hle : ∀ s ∈ shapes, s.length ≤ ndim := fun s hs => (le_foldl_max _ 0).2 _ (List.mem_map_of_mem hs)
  have hps : ∀ p ∈ shapes.map (padShape ndim at_), p.length = ndim := by
    intro p hp
    obtain ⟨s, hs, rfl⟩ := List.mem_map.1 hp
    exact padShape_length (hle s hs)
  have hdef : broadcastShape shapes at_ = (shapes.map (padShape ndim at_)).foldlM bcStep (List.replicate ndim 1) := by
    unfold broadcastShape; rw [if_neg hne]
  obtain ⟨h1, h2⟩ := bcFold_spec ndim (shapes.map (padShape ndim at_)) hps (List.replicate ndim 1) (by simp)
  have hrep : ∀ i u : Nat, (List.replicate ndim 1)[i]? = some u → u = 1 := by
    intro i u hu
    exact List.eq_of_mem_replicate (List.mem_of_getElem? hu)
  have fwd : ∀ o, broadcastShape shapes at_ = some o → o.length = ndim ∧ IsBroadcast (shapes.map (padShape ndim at_)) o := by
    intro o ho
    rw [hdef] at ho
    obtain ⟨hl, hb⟩ := h1 o ho
    refine ⟨hl, fun i hi => ?_⟩
    obtain ⟨g1, g2⟩ := hb i hi
    refine ⟨fun p hp => g1 p (List.mem_cons_of_mem _ hp), ?_⟩
    rcases g2 with g | ⟨p, hp, hpe⟩
    · left; exact g
    · rcases List.mem_cons.1 hp with rfl | hp
      · left; exact hrep i _ hpe
      · right; exact ⟨p, hp, hpe⟩
  have uniq : ∀ o o' : List Nat, o.length = ndim → o'.length = ndim → IsBroadcast (shapes.map (padShape ndim at_)) o →
      IsBroadcast (shapes.map (padShape ndim at_)) o' → o = o' := by
    intro o o' hl hl' hb hb'
    apply List.ext_getElem (by rw [hl, hl'])
    intro i hi hi'
    obtain ⟨g1, g2⟩ := hb i hi
    obtain ⟨g1', g2'⟩ := hb' i hi'
    rcases g2 with g | ⟨p, hp, hpe⟩
    · rcases g2' with g' | ⟨p', hp', hpe'⟩
      · rw [g, g']
      · have := g1 p' hp'
        rw [hpe'] at this
        simp only [Option.some.injEq] at this
        rcases this with t | t
        · rw [g, t]
        · exact t.symm
    · have := g1' p hp
      rw [hpe] at this
      simp only [Option.some.injEq] at this
      rcases this with t | t
      · rcases g2' with g' | ⟨p', hp', hpe'⟩
        · rw [g', t]
        · have := g1 p' hp'
          rw [hpe'] at this
          simp only [Option.some.injEq] at this
          rcases this with t' | t'
          · rw [t', t]
          · exact t'.symm
      · exact t
  have confl : (∃ i < ndim, ∃ s ∈ shapes, ∃ t ∈ shapes, ∃ u v,
        (padShape ndim at_ s)[i]? = some u ∧ (padShape ndim at_ t)[i]? = some v ∧ u ≠ 1 ∧ v ≠ 1 ∧ u ≠ v) →
      ∀ o : List Nat, o.length = ndim → ¬ IsBroadcast (shapes.map (padShape ndim at_)) o := by
    rintro ⟨i, hi, s, hs, t, ht, u, v, hu, hv, hu1, hv1, huv⟩ o hl hb
    obtain ⟨g1, -⟩ := hb i (by omega)
    have a1 := g1 _ (List.mem_map_of_mem hs)
    have a2 := g1 _ (List.mem_map_of_mem ht)
    rw [hu] at a1
    rw [hv] at a2
    simp only [Option.some.injEq] at a1 a2
    rcases a1 with a | a
    · exact hu1 a
    rcases a2 with b | b
    · exact hv1 b
    exact huv (a.trans b.symm)
  have nonec : broadcastShape shapes at_ = none → ∃ i < ndim, ∃ s ∈ shapes, ∃ t ∈ shapes, ∃ u v,
        (padShape ndim at_ s)[i]? = some u ∧ (padShape ndim at_ t)[i]? = some v ∧ u ≠ 1 ∧ v ≠ 1 ∧ u ≠ v := by
    intro hn
    rw [hdef] at hn
    obtain ⟨i, hi, x, hx, y, hy, u, v, e1, e2, e3, e4, e5⟩ := h2 hn
    rcases List.mem_cons.1 hx with rfl | hx
    · exact absurd (hrep i u e1) e3
    rcases List.mem_cons.1 hy with rfl | hy
    · exact absurd (hrep i v e2) e4
    obtain ⟨s, hs, rfl⟩ := List.mem_map.1 hx
    obtain ⟨t, ht, rfl⟩ := List.mem_map.1 hy
    exact ⟨i, hi, s, hs, t, ht, u, v, e1, e2, e3, e4, e5⟩
  refine ⟨ndim, hle, ?_, ?_, ?_⟩
  · have key : ∀ (l : List (List Nat)) (m : Nat), (l.map List.length).foldl max m = m ∨ ∃ s ∈ l, s.length = (l.map List.length).foldl max m := by
      intro l
      induction l with
      | nil => intro m; left; rfl
      | cons s l ih =>
        intro m
        rw [List.map_cons, List.foldl_cons]
        rcases ih (max m s.length) with h | ⟨t, ht, hte⟩
        · rcases max_choice m s.length with hm | hm
          · left; rw [h, hm]
          · right; exact ⟨s, by simp, by rw [h, hm]⟩
        · right; exact ⟨t, by simp [ht], hte⟩
    rcases key shapes 0 with h | h
    · obtain ⟨s, hs⟩ := List.exists_mem_of_ne_nil _ hne
      have := hle s hs
      exact ⟨s, hs, by omega⟩
    · exact h
  · intro o
    refine ⟨fwd o, ?_⟩
    rintro ⟨hl, hb⟩
    cases hc : broadcastShape shapes at_ with
    | none => exact absurd hb (confl (nonec hc) o hl)
    | some o' =>
      obtain ⟨hl', hb'⟩ := fwd o' hc
      rw [uniq o o' hl hl' hb hb']
  · refine ⟨nonec, fun h => ?_⟩
    cases hc : broadcastShape shapes at_ with
    | none => rfl
    | some o =>
      obtain ⟨hl, hb⟩ := fwd o hc
      exact absurd hb (confl h o hl)

example : broadcastShape [[3, 1], [4], [2, 1, 1]] 0 = some [2, 3, 4] ∧ broadcastShape [[3, 1], [3]] (-1) = some [3, 1] ∧
    broadcastShape [[3], [4]] 0 = none := by decide

/-- C115: the order of the shapes does not matter. -/
theorem C115_comm (s t : List Nat) (at_ : ℤ) : broadcastShape [s, t] at_ = broadcastShape [t, s] at_ := by
  obtain ⟨n, h1, ⟨s1, hs1, hl1⟩, h3, -⟩ := C115_broadcast [s, t] (by simp) at_
  obtain ⟨n', h1', ⟨s2, hs2, hl2⟩, h3', -⟩ := C115_broadcast [t, s] (by simp) at_
  have hn : n = n' := by
    have a := h1 s2 (by simp only [List.mem_cons, List.not_mem_nil, or_false] at hs2 ⊢; tauto)
    have b := h1' s1 (by simp only [List.mem_cons, List.not_mem_nil, or_false] at hs1 ⊢; tauto)
    omega
  subst hn
  apply Option.ext
  intro o
  rw [h3, h3']
  have : ∀ l l' : List (List Nat), (∀ p, p ∈ l ↔ p ∈ l') → IsBroadcast l o → IsBroadcast l' o := by
    intro l l' h hb i hi
    obtain ⟨g1, g2⟩ := hb i hi
    refine ⟨fun p hp => g1 p ((h p).2 hp), g2.imp id ?_⟩
    rintro ⟨p, hp, he⟩
    exact ⟨p, (h p).1 hp, he⟩
  constructor
  · rintro ⟨a, b⟩
    exact ⟨a, this _ _ (by intro p; simp only [List.map_cons, List.map_nil, List.mem_cons, List.not_mem_nil, or_false]; tauto) b⟩
  · rintro ⟨a, b⟩
    exact ⟨a, this _ _ (by intro p; simp only [List.map_cons, List.map_nil, List.mem_cons, List.not_mem_nil, or_false]; tauto) b⟩

/-- C115: transpose_inds maps the index of the element in row r and column c to its index in the transposed array; applied to
the transposed array it returns the original index. -/
theorem C115_transpose (nrow ncol r c : Nat) (hr : r < nrow) (hc : c < ncol) :
    transposeInds (r * ncol + c) nrow ncol = c * nrow + r ∧ transposeInds (transposeInds (r * ncol + c) nrow ncol) ncol nrow = r * ncol + c := by
  have key : ∀ nrow ncol r c : Nat, r < nrow → c < ncol → transposeInds (r * ncol + c) nrow ncol = c * nrow + r := by
    intro nrow ncol r c _ hc
    unfold transposeInds
    rw [Nat.add_comm (r * ncol), Nat.add_mul_mod_self_right, Nat.mod_eq_of_lt hc, Nat.add_mul_div_right _ _ (by omega), Nat.div_eq_of_lt hc, Nat.zero_add]
  rw [key nrow ncol r c hr hc]
  exact ⟨rfl, key ncol nrow c r hc hr⟩

example : transposeInds 5 2 3 = 5 ∧ transposeInds 1 2 3 = 2 := by decide

end Pixell
