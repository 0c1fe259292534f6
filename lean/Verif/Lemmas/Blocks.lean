import Mathlib.Tactic.Ring
import Mathlib.Tactic.Linarith
import Mathlib.Tactic.FieldSimp
import Mathlib.Algebra.Module.Basic
import Mathlib.Algebra.BigOperators.Group.List.Lemmas
import Verif.Model.Blocks
/-
Lemmas about cutting lists into blocks.
-/
namespace Pixell

/-- A list of consecutive blocks as block_reduce's documentation describes them: a first block of
length `off` (none for `off = 0`), blocks of length `b`, and possibly a shorter non-empty last one. -/
structure BlockShape {α} (off b : Nat) (P M T : List (List α)) : Prop where
  pre0 : off = 0 → P = []
  pre1 : 0 < off → ∃ p, P = [p] ∧ p.length = off
  mid : ∀ m ∈ M, m.length = b
  tail : T = [] ∨ ∃ t, T = [t] ∧ 0 < t.length ∧ t.length < b

theorem length_flatten_const {α} (M : List (List α)) (b : Nat) (h : ∀ m ∈ M, m.length = b) :
    M.flatten.length = M.length * b := by
  induction M with
  | nil => simp
  | cons m M ih =>
    rw [List.flatten_cons, List.length_append, ih (fun x hx => h x (List.mem_cons_of_mem _ hx)),
      h m List.mem_cons_self, List.length_cons]
    ring

theorem chunks_succ {α} (b k : Nat) (a : List α) :
    chunks b (k + 1) a = a.take b :: chunks b k (a.drop b) := by
  unfold chunks
  rw [List.range_succ_eq_map, List.map_cons, List.map_map]
  simp only [Nat.zero_mul, List.drop_zero, Function.comp_def, List.drop_drop]
  congr 1
  apply List.map_congr_left
  intro i _
  rw [Nat.succ_mul, Nat.add_comm b]

theorem chunks_flatten_eq {α} (b : Nat) (M : List (List α)) (h : ∀ m ∈ M, m.length = b) :
    chunks b M.length M.flatten = M := by
  induction M with
  | nil => rfl
  | cons m M ih =>
    have hm := h m List.mem_cons_self
    rw [List.length_cons, chunks_succ, List.flatten_cons]
    rw [List.take_left' hm, List.drop_left' hm, ih (fun x hx => h x (List.mem_cons_of_mem _ hx))]

theorem chunks_spec {α} (b k : Nat) (a : List α) (h : a.length = k * b) :
    (chunks b k a).flatten = a ∧ (chunks b k a).length = k ∧ ∀ m ∈ chunks b k a, m.length = b := by
  induction k generalizing a with
  | zero =>
    simp at h
    subst h
    simp [chunks]
  | succ k ih =>
    rw [chunks_succ]
    have hk : (k + 1) * b = k * b + b := by ring
    have := ih (a.drop b) (by rw [List.length_drop]; omega)
    refine ⟨by rw [List.flatten_cons, this.1, List.take_append_drop], by simp [this.2.1], ?_⟩
    intro m hm
    rcases List.mem_cons.1 hm with rfl | hm
    · rw [List.length_take]; omega
    · exact this.2.2 m hm

theorem pyClamp_nat (n i : Nat) (h : i ≤ n) : pyClamp n i = i := by
  unfold pyClamp
  rw [if_neg (by omega)]
  simp; omega

theorem npSplit3_append {α} (A B C : List α) (i j : Int) (hi : i = A.length) (hj : j = A.length + B.length) :
    npSplit3 (A ++ B ++ C) i j = (A, B, C) := by
  unfold npSplit3
  have e1 : pyClamp (A ++ B ++ C).length i = A.length := by
    rw [hi]; exact pyClamp_nat _ _ (by simp)
  have e2 : pyClamp (A ++ B ++ C).length j = (A ++ B).length := by
    rw [hj, List.length_append (as := A) (bs := B), ← Int.natCast_add]; exact pyClamp_nat _ _ (by simp only [List.length_append]; omega)
  simp only [e1, e2]
  rw [List.take_left, List.drop_left, List.drop_left, List.append_assoc, List.take_left]

theorem fdiv_block (k b t : Nat) (h : t < b) : Int.fdiv ((k * b + t : Nat) : Int) b = k := by
  rw [Int.fdiv_eq_ediv_of_nonneg _ (by omega), ← Int.natCast_ediv]
  congr 1
  rw [Nat.mul_comm, Nat.mul_add_div (by omega), Nat.div_eq_of_lt h, Nat.add_zero]

theorem BlockShape.tail_lt {α} {off b : Nat} {P M T : List (List α)} (h : BlockShape off b P M T) (hb : 0 < b) :
    T.flatten.length < b := by
  rcases h.tail with rfl | ⟨t, rfl, _, h2⟩
  · simpa using hb
  · simpa using h2

theorem BlockShape.pre_len {α} {off b : Nat} {P M T : List (List α)} (h : BlockShape off b P M T) :
    P.flatten.length = off := by
  rcases Nat.eq_zero_or_pos off with h0 | h0
  · rw [h.pre0 h0, h0]; rfl
  · obtain ⟨p, rfl, hp⟩ := h.pre1 h0
    simpa using hp

theorem BlockShape.nwhole {α} {off b : Nat} {P M T : List (List α)} (h : BlockShape off b P M T) (hb : 0 < b) :
    Int.fdiv (((P ++ M ++ T).flatten.length : Int) - off) b = M.length := by
  have : (((P ++ M ++ T).flatten.length : Int) - off) = ((M.length * b + T.flatten.length : Nat) : Int) := by
    simp only [List.flatten_append, List.length_append, h.pre_len, length_flatten_const M b h.mid]
    push_cast; ring
  rw [this]
  exact fdiv_block _ _ _ (h.tail_lt hb)

theorem match_parts {α} (X Y Z : List (List α)) :
    concatParts (X ++ Y ++ Z) = if X = [] ∧ Y = [] ∧ Z = [] then none else some (X ++ Y ++ Z).flatten := by
  cases X <;> cases Y <;> cases Z <;> simp [concatParts]

theorem blockReduce_shape {α} (op : List α → α) (off b : Nat) (P M T : List (List α))
    (h : BlockShape off b P M T) (hb : 1 < b) (incl : Bool) :
    blockReduce op (P ++ M ++ T).flatten b off incl =
      if incl then (if P ++ M ++ T = [] then none else some ((P ++ M ++ T).map op))
      else if M = [] then none else some (M.map op) := by
  have hn := h.nwhole (by omega)
  unfold blockReduce
  rw [if_neg (by omega)]
  simp only [hn]
  have hs : npSplit3 (P ++ M ++ T).flatten (off : Int) ((off : Int) + (M.length : Int) * (b : Int))
      = (P.flatten, M.flatten, T.flatten) := by
    rw [List.flatten_append, List.flatten_append]
    apply npSplit3_append
    · rw [h.pre_len]
    · rw [h.pre_len, length_flatten_const M b h.mid]; push_cast; ring
  rw [hs]
  simp only [Int.toNat_natCast, chunks_flatten_eq b M h.mid]
  have hM : M.flatten ≠ [] ↔ M ≠ [] := by
    have := length_flatten_const M b h.mid
    rw [← List.length_pos_iff, ← List.length_pos_iff, this]
    constructor
    · intro h; exact Nat.pos_of_mul_pos_right h
    · intro h; exact Nat.mul_pos h (by omega)
  rw [match_parts]
  have hP : ∀ incl : Bool, (if P.flatten ≠ [] ∧ incl = true then [[op P.flatten]] else [])
      = if incl = true then P.map (fun p => [op p]) else [] := by
    intro incl
    rcases Nat.eq_zero_or_pos off with h0 | h0
    · rw [h.pre0 h0]; simp
    · obtain ⟨p, rfl, hp⟩ := h.pre1 h0
      have : p ≠ [] := by rw [← List.length_pos_iff, hp]; exact h0
      cases incl <;> simp [this]
  have hT : ∀ incl : Bool, (if T.flatten ≠ [] ∧ incl = true then [[op T.flatten]] else [])
      = if incl = true then T.map (fun p => [op p]) else [] := by
    intro incl
    rcases h.tail with rfl | ⟨t, rfl, ht, _⟩
    · simp
    · have : t ≠ [] := by rw [← List.length_pos_iff]; exact ht
      cases incl <;> simp [this]
  rw [hP incl, hT incl]
  have hM2 : (if M.flatten ≠ [] then [M.map op] else []) = if M = [] then [] else [M.map op] := by
    by_cases hm : M = []
    · rw [if_pos hm, if_neg (by rw [hM]; simpa using hm)]
    · rw [if_neg hm, if_pos (hM.2 hm)]
  rw [hM2]
  have flat : ∀ L : List (List α), (L.map (fun p => [op p])).flatten = L.map op := by
    intro L; induction L with
    | nil => rfl
    | cons a L ih => simp [ih]
  cases incl
  · by_cases hm : M = [] <;> simp [hm]
  · by_cases hm : M = []
    · subst hm
      by_cases hp : P = [] <;> by_cases ht : T = [] <;> simp [hp, ht, flat]
    · simp [hm, flat]

theorem exists_shape {α} (a : List α) (off b : Nat) (hb : 0 < b) (hoff : off ≤ a.length) :
    ∃ P M T : List (List α), BlockShape off b P M T ∧ (P ++ M ++ T).flatten = a ∧ M.length = (a.length - off) / b := by
  obtain ⟨k, hk⟩ : ∃ k, k = (a.length - off) / b := ⟨_, rfl⟩
  have hdm := Nat.div_add_mod (a.length - off) b
  have hlt := Nat.mod_lt (a.length - off) hb
  have hmid : ((a.drop off).take (k * b)).length = k * b := by
    rw [List.length_take, List.length_drop, hk, Nat.mul_comm]; omega
  obtain ⟨c1, c2, c3⟩ := chunks_spec b k _ hmid
  refine ⟨if off = 0 then [] else [a.take off], chunks b k ((a.drop off).take (k * b)),
    if (a.drop (off + k * b)) = [] then [] else [a.drop (off + k * b)], ⟨?_, ?_, c3, ?_⟩, ?_, by rw [c2, hk]⟩
  · intro h; simp [h]
  · intro h
    refine ⟨a.take off, by rw [if_neg (by omega)], by rw [List.length_take]; omega⟩
  · by_cases ht : a.drop (off + k * b) = []
    · left; rw [if_pos ht]
    · right
      refine ⟨_, if_neg ht, List.length_pos_iff.2 ht, ?_⟩
      rw [List.length_drop, hk]
      have : (a.length - off) / b * b = b * ((a.length - off) / b) := Nat.mul_comm _ _
      omega
  · rw [List.flatten_append, List.flatten_append, c1]
    have e1 : (if off = 0 then [] else [a.take off]).flatten = a.take off := by
      split
      · rename_i h; simp [h]
      · simp
    have e2 : (if a.drop (off + k * b) = [] then [] else [a.drop (off + k * b)]).flatten = a.drop (off + k * b) := by
      split
      · rename_i h; simp [h]
      · simp
    rw [e1, e2, List.append_assoc, ← List.drop_drop, List.take_append_drop, List.take_append_drop]

theorem npRepeat_eq {α} (k : Nat) (r : List α) (B : List (List α)) (hl : r.length = B.length)
    (hB : ∀ m ∈ B, m.length = k) :
    npRepeat k r = (List.zipWith (fun (blk : List α) x => List.replicate blk.length x) B r).flatten := by
  induction B generalizing r with
  | nil => cases r with
    | nil => rfl
    | cons x r => simp at hl
  | cons m B ih =>
    cases r with
    | nil => simp at hl
    | cons x r =>
      rw [List.zipWith_cons_cons, List.flatten_cons, ← ih r (by simpa using hl)
        (fun y hy => hB y (List.mem_cons_of_mem _ hy)), hB m List.mem_cons_self]
      rfl

theorem blockExpand_shape {α} [Zero α] (off b : Nat) (P M T : List (List α)) (h : BlockShape off b P M T)
    (hb : 0 < b) (r : List α) (hr : r.length = (P ++ M ++ T).length) (hne : r ≠ []) :
    blockExpand r b (P ++ M ++ T).flatten.length off true
      = some (List.zipWith (fun (blk : List α) x => List.replicate blk.length x) (P ++ M ++ T) r).flatten := by
  have hn := h.nwhole hb
  obtain ⟨rP, rM, rT, rfl, hP, hM, hT⟩ : ∃ rP rM rT, r = rP ++ rM ++ rT ∧ rP.length = P.length ∧
      rM.length = M.length ∧ rT.length = T.length := by
    simp only [List.length_append] at hr
    refine ⟨r.take P.length, (r.drop P.length).take M.length, r.drop (P.length + M.length), ?_, ?_, ?_, ?_⟩
    · rw [List.append_assoc, ← List.drop_drop, List.take_append_drop, List.take_append_drop]
    · rw [List.length_take]; omega
    · rw [List.length_take, List.length_drop]; omega
    · rw [List.length_drop]; omega
  unfold blockExpand
  simp only [hn, if_true]
  have ho : (if 0 < off then (1:Int) else 0) = rP.length := by
    rw [hP]
    rcases Nat.eq_zero_or_pos off with h0 | h0
    · rw [h.pre0 h0, if_neg (by omega)]; rfl
    · obtain ⟨p, rfl, _⟩ := h.pre1 h0
      rw [if_pos h0]; rfl
  rw [ho, npSplit3_append rP rM rT _ _ rfl (by rw [hM])]
  simp only
  have hrest : (((P ++ M ++ T).flatten.length : Int) - off - M.length * b).toNat = T.flatten.length := by
    simp only [List.flatten_append, List.length_append, h.pre_len, length_flatten_const M b h.mid]
    push_cast
    omega
  rw [hrest, match_parts]
  have e : ∀ (k : Nat) (x : List α), (if x ≠ [] then [npRepeat k x] else []).flatten = npRepeat k x := by
    intro k x
    by_cases hx : x = []
    · simp [hx, npRepeat]
    · simp [hx]
  rw [if_neg]
  · rw [List.flatten_append, List.flatten_append, e, e, e]
    rw [List.zipWith_append (by simp [hP, hM]), List.zipWith_append hP.symm, List.flatten_append, List.flatten_append]
    rw [npRepeat_eq off rP P hP, npRepeat_eq b rM M hM h.mid, npRepeat_eq T.flatten.length rT T hT]
    · intro m hm
      rcases h.tail with rfl | ⟨t, rfl, _, _⟩
      · simp at hm
      · simp at hm; subst hm; simp
    · intro m hm
      rcases Nat.eq_zero_or_pos off with h0 | h0
      · rw [h.pre0 h0] at hm; simp at hm
      · obtain ⟨p, rfl, hp⟩ := h.pre1 h0
        simp at hm; subst hm; exact hp
  · rintro ⟨h1, h2, h3⟩
    apply hne
    have f : ∀ (k : Nat) (x : List α), (if x ≠ [] then [npRepeat k x] else []) = [] → x = [] := by
      intro k x hx
      by_contra hc
      rw [if_pos hc] at hx
      simp at hx
    rw [f _ _ h1, f _ _ h2, f _ _ h3]; rfl

theorem mean_replicate {α} [AddCommGroup α] [Module ℚ α] (k : Nat) (hk : 0 < k) (x : α) :
    mean (List.replicate k x) = x := by
  unfold mean
  rw [List.length_replicate, List.sum_replicate, ← Nat.cast_smul_eq_nsmul ℚ, smul_smul, inv_mul_cancel₀, one_smul]
  exact_mod_cast hk.ne'

theorem length_smul_mean {α} [AddCommGroup α] [Module ℚ α] (l : List α) : ((l.length : ℚ)) • mean l = l.sum := by
  unfold mean
  cases l with
  | nil => simp
  | cons a l =>
    rw [smul_smul, mul_inv_cancel₀, one_smul]
    simp; positivity

theorem map_mean_zipWith {α} [AddCommGroup α] [Module ℚ α] (B : List (List α)) (r : List α)
    (hl : r.length = B.length) (hB : ∀ m ∈ B, m ≠ []) :
    (List.zipWith (fun (blk : List α) x => List.replicate blk.length x) B r).map mean = r := by
  induction B generalizing r with
  | nil => cases r with
    | nil => rfl
    | cons x r => simp at hl
  | cons m B ih =>
    cases r with
    | nil => simp at hl
    | cons x r =>
      rw [List.zipWith_cons_cons, List.map_cons, ih r (by simpa using hl)
        (fun y hy => hB y (List.mem_cons_of_mem _ hy)), mean_replicate _ (List.length_pos_iff.2 (hB m List.mem_cons_self))]

theorem lengths_zipWith {α} (B : List (List α)) (r : List α) (hl : r.length = B.length) :
    (List.zipWith (fun (blk : List α) x => List.replicate blk.length x) B r).map List.length = B.map List.length := by
  induction B generalizing r with
  | nil => simp
  | cons m B ih =>
    cases r with
    | nil => simp at hl
    | cons x r =>
      rw [List.zipWith_cons_cons, List.map_cons, ih r (by simpa using hl), List.map_cons, List.length_replicate]

theorem BlockShape.nonempty {α} {off b : Nat} {P M T : List (List α)} (h : BlockShape off b P M T) (hb : 0 < b) :
    ∀ m ∈ P ++ M ++ T, m ≠ [] := by
  intro m hm
  rw [← List.length_pos_iff]
  rcases List.mem_append.1 hm with hm | hm
  · rcases List.mem_append.1 hm with hm | hm
    · rcases Nat.eq_zero_or_pos off with h0 | h0
      · rw [h.pre0 h0] at hm; simp at hm
      · obtain ⟨p, rfl, hp⟩ := h.pre1 h0
        simp at hm; subst hm; omega
    · rw [h.mid m hm]; exact hb
  · rcases h.tail with rfl | ⟨t, rfl, ht, _⟩
    · simp at hm
    · simp at hm; subst hm; exact ht

end Pixell
