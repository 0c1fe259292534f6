import Verif.Model.MpiArr
import Verif.Lemmas.Index
import Mathlib.Tactic.Ring
import Mathlib.Tactic.Linarith

/-
C136: arrays passed between tasks arrive as they are, in the order of the tasks.
-/
namespace Pixell

/-- The array is stored with the last axis fastest and has as many elements as its shape says. -/
def PlainArr {α : Type} (a : MArr α) : Prop := a.order = .c ∧ a.mem.length = a.shape.prod

/-- C136, send and recv: any sequence of plain arrays, whatever is sent after them, arrives as it is and in order. -/
theorem C136_send {α : Type} (as : List (MArr α)) (h : ∀ a ∈ as, PlainArr a) (rest : List (ArrMsg α)) :
    (∀ a ∈ as, (sendArr a).2 = true) ∧ recvMany as.length ((as.flatMap fun a => (sendArr a).1) ++ rest) = some as := by
  have hs : ∀ a ∈ as, sendArr a = ([.info a.shape, .data a.mem], true) := by
    intro a ha
    obtain ⟨ho, -⟩ := h a ha
    unfold sendArr MArr.buffer
    rw [ho]
  refine ⟨fun a ha => by rw [hs a ha], ?_⟩
  induction as with
  | nil => rfl
  | cons a t ih =>
    obtain ⟨ho, hl⟩ := h a (by simp)
    rw [List.length_cons, List.flatMap_cons, hs a (by simp)]
    show ((if a.mem.length = a.shape.prod then some (⟨a.shape, MemOrder.c, a.mem⟩, (t.flatMap fun a => (sendArr a).1) ++ rest) else none)
      : Option (MArr α × List (ArrMsg α))).bind (fun p => (recvMany t.length p.2).bind fun l => some (p.1 :: l)) = _
    rw [if_pos hl]
    show (recvMany t.length ((t.flatMap fun a => (sendArr a).1) ++ rest)).bind _ = _
    rw [ih (fun b hb => h b (by simp [hb])) (fun b hb => hs b (by simp [hb]))]
    obtain ⟨s, o, m⟩ := a
    simp only at ho
    subst ho
    rfl

example : recvMany 2 ((sendArr (⟨[2, 2], .c, [1, 2, 3, 4]⟩ : MArr ℕ)).1 ++ (sendArr (⟨[0], .c, []⟩ : MArr ℕ)).1)
    = some [⟨[2, 2], .c, [1, 2, 3, 4]⟩, ⟨[0], .c, []⟩] :=
  (C136_send [⟨[2, 2], .c, [1, 2, 3, 4]⟩, ⟨[0], .c, []⟩] (by simp [PlainArr]) []).2

/-- C136 refuted for arrays with the first axis fastest in memory, such as a transposed matrix: the elements arrive in other places. -/
theorem C136_send_refuted : ∃ a b : MArr ℕ, recvMany 1 (sendArr a).1 = some [b] ∧ (sendArr a).2 = true ∧ a.shape = [2, 2]
    ∧ a.mem.length = a.shape.prod ∧ a.get [0, 1] = some 2 ∧ b.get [0, 1] = some 3 :=
  ⟨⟨[2, 2], .f, [1, 3, 2, 4]⟩, ⟨[2, 2], .c, [1, 3, 2, 4]⟩, rfl, rfl, rfl, rfl, rfl, rfl⟩

/-- C136 refuted for arrays with gaps, such as every other column: the sender raises, and the receiver, which has been told to expect the
array, waits for ever; an array that is sent afterwards does not arrive either. -/
theorem C136_gaps_refuted {α : Type} (shape : List ℕ) (mem : List α) :
    (sendArr ⟨shape, .gaps, mem⟩).2 = false ∧ recvArr (sendArr (⟨shape, .gaps, mem⟩ : MArr α)).1 = none ∧
    ∀ b : MArr α, PlainArr b → recvArr ((sendArr (⟨shape, .gaps, mem⟩ : MArr α)).1 ++ (sendArr b).1) = none := by
  refine ⟨rfl, rfl, fun b hb => ?_⟩
  unfold sendArr MArr.buffer
  rw [hb.1]
  rfl

/-- C136 refuted for receiving from any task: with two tasks that have each sent an array, the data may be looked for in the messages of
the other one, where the shape comes first, and the call fails. -/
theorem C136_any_refuted {α : Type} (a b : MArr α) (ha : PlainArr a) (hb : PlainArr b) :
    ∃ i j, recvAny (fun k => if k = 1 then (sendArr a).1 else if k = 2 then (sendArr b).1 else []) i j = none
      ∧ i ∈ [1, 2] ∧ j ∈ [1, 2] := by
  refine ⟨1, 2, ?_, by simp, by simp⟩
  have e : ∀ c : MArr α, PlainArr c → (sendArr c).1 = [.info c.shape, .data c.mem] := by
    intro c hc
    unfold sendArr MArr.buffer
    rw [hc.1]
  unfold recvAny
  simp only [if_true, e a ha, e b hb]
  rfl

theorem flatten_get_same {α : Type} (ls : List (List α)) (L : ℕ) (h : ∀ l ∈ ls, l.length = L) (k r : ℕ) (hr : r < L) :
    ls.flatten[k * L + r]? = ls[k]?.bind (fun l => l[r]?) := by
  induction ls generalizing k with
  | nil => simp
  | cons l t ih =>
    have hl := h l (by simp)
    rw [List.flatten_cons]
    cases k with
    | zero => rw [zero_mul, zero_add, List.getElem?_append_left (by omega)]; rfl
    | succ k =>
      rw [List.getElem?_append_right (by rw [hl]; nlinarith), List.getElem?_cons_succ, ← ih (fun m hm => h m (by simp [hm])) k, hl]
      congr 1
      rw [Nat.succ_mul]
      omega

/-- C136, allgather: with plain arrays of one shape every task gets the array of task k at k. -/
theorem C136_allgather {α : Type} (as : List (MArr α)) (hne : as ≠ []) (shape : List ℕ) (h : ∀ a ∈ as, PlainArr a ∧ a.shape = shape) :
    ∃ r, allgatherArr as = some r ∧ r.shape = as.length :: shape
      ∧ ∀ k idx, k < as.length → InShape shape idx → r.get (k :: idx) = as[k]?.bind (fun a => a.get idx) := by
  have hb : as.mapM MArr.buffer = some (as.map MArr.mem) := by
    clear hne
    induction as with
    | nil => rfl
    | cons a t ih =>
      rw [List.mapM_cons, ih (fun b hb => h b (by simp [hb]))]
      unfold MArr.buffer
      rw [(h a (by simp)).1.1]
      rfl
  obtain ⟨a, t, rfl⟩ := List.exists_cons_of_ne_nil hne
  refine ⟨⟨(a :: t).length :: a.shape, .c, ((a :: t).map MArr.mem).flatten⟩, ?_, by rw [(h a (by simp)).2], ?_⟩
  · unfold allgatherArr
    rw [hb]
    rfl
  · intro k idx hk hi
    have hlen : ∀ l ∈ (a :: t).map MArr.mem, l.length = shape.prod := by
      intro l hl
      obtain ⟨b, hbm, rfl⟩ := List.mem_map.1 hl
      rw [(h b hbm).1.2, (h b hbm).2]
    show ((a :: t).map MArr.mem).flatten[ravel ((a :: t).length :: a.shape) (k :: idx)]? = _
    rw [show ravel ((a :: t).length :: a.shape) (k :: idx) = k * shape.prod + ravel shape idx by rw [← (h a (by simp)).2]; rfl,
      flatten_get_same _ _ hlen k _ (ravel_lt hi), List.getElem?_map]
    rw [List.getElem?_eq_getElem hk]
    have hm := List.getElem_mem hk
    obtain ⟨⟨ho, -⟩, hs⟩ := h _ hm
    show (some _).bind _ = (some _).bind _
    simp only [Option.bind_some]
    unfold MArr.get
    rw [ho, hs]

example : ∃ r, allgatherArr [⟨[2], .c, [1, 2]⟩, (⟨[2], .c, [3, 4]⟩ : MArr ℕ)] = some r ∧ r.get [1, 0] = some 3 := ⟨_, rfl, rfl⟩

/-- C136 refuted for allgather of arrays with the first axis fastest. -/
theorem C136_allgather_refuted : ∃ a r : MArr ℕ, allgatherArr [a] = some r ∧ a.shape = [2, 2] ∧ a.mem.length = a.shape.prod
    ∧ a.get [0, 1] = some 2 ∧ r.get [0, 0, 1] = some 3 :=
  ⟨⟨[2, 2], .f, [1, 3, 2, 4]⟩, ⟨[1, 2, 2], .c, [1, 3, 2, 4]⟩, rfl, rfl, rfl, rfl, rfl⟩

theorem flatten_get_at {α : Type} (ls : List (List α)) (s : ℕ) (l : List α) (hs : ls[s]? = some l) (r : ℕ) (hr : r < l.length) :
    ls.flatten[((ls.take s).map List.length).sum + r]? = l[r]? := by
  induction ls generalizing s with
  | nil => simp at hs
  | cons m t ih =>
    rw [List.flatten_cons]
    cases s with
    | zero =>
      obtain rfl : m = l := by simpa using hs
      rw [List.take_zero, List.map_nil, List.sum_nil, zero_add, List.getElem?_append_left hr]
    | succ s =>
      rw [List.take_succ_cons, List.map_cons, List.sum_cons, List.getElem?_append_right (by omega), add_assoc, Nat.add_sub_cancel_left]
      exact ih s (by simpa using hs)

theorem filterMap_range_get {α : Type} (f : ℕ → Option α) (q : ℕ) (h : ∀ j < q, (f j).isSome) :
    ((List.range q).filterMap f).length = q ∧ ∀ j < q, ((List.range q).filterMap f)[j]? = f j := by
  induction q with
  | zero => exact ⟨rfl, fun j hj => absurd hj (by omega)⟩
  | succ q ih =>
    obtain ⟨h1, h2⟩ := ih fun j hj => h j (by omega)
    obtain ⟨x, hx⟩ := Option.isSome_iff_exists.1 (h q (by omega))
    have e : (List.range (q + 1)).filterMap f = (List.range q).filterMap f ++ [x] := by
      rw [List.range_succ, List.filterMap_append, List.filterMap_cons, hx]
      rfl
    rw [e]
    refine ⟨by rw [List.length_append, h1]; rfl, fun j hj => ?_⟩
    rcases Nat.lt_or_ge j q with hq | hq
    · rw [List.getElem?_append_left (by omega), h2 j hq]
    · obtain rfl : j = q := by omega
      rw [List.getElem?_append_right (by omega), h1, Nat.sub_self, hx]
      rfl

theorem gatherBuffer_get {α : Type} (t : GatherIn α) (hm : t.mem.length = t.size) (hq : t.q ≠ 1 ∨ t.p ≤ 1) :
    (gatherBuffer t).length = t.n * (t.p * t.q) ∧ ∀ i k j, i < t.p → k < t.n → j < t.q →
      (gatherBuffer t)[(k * t.p + i) * t.q + j]? = t.mem[(i * t.n + k) * t.q + j]? := by
  have hsize : t.size = t.n * (t.p * t.q) := by unfold GatherIn.size; ring
  unfold gatherBuffer
  by_cases h1 : t.q = 1
  · rw [if_pos h1]
    refine ⟨by rw [hm, hsize], ?_⟩
    intro i k j hi hk hj
    rw [h1] at hj ⊢
    have hp : t.p = 1 := by
      rcases hq with hq | hq
      · exact absurd h1 hq
      · omega
    rw [hp] at hi ⊢
    obtain rfl : i = 0 := by omega
    congr 1
    ring
  · rw [if_neg h1]
    have hsome : ∀ i k, i < t.p → k < t.n → ∀ j < t.q, (t.mem[(i * t.n + k) * t.q + j]?).isSome := by
      intro i k hi hk j hj
      rw [List.getElem?_eq_getElem (by
        rw [hm]
        unfold GatherIn.size
        have a1 : i * t.n + k < t.p * t.n := by nlinarith
        have a2 : (i * t.n + k + 1) * t.q ≤ t.p * t.n * t.q := Nat.mul_le_mul_right _ a1
        rw [Nat.succ_mul] at a2
        rw [← mul_assoc]
        omega)]
      rfl
    have hrow : ∀ k, k < t.n → ∀ i, i < t.p → _ := fun k hk i hi => filterMap_range_get
      (fun j => t.mem[(i * t.n + k) * t.q + j]?) t.q (hsome i k hi hk)
    have hblock : ∀ k < t.n, ((List.range t.p).flatMap fun i => (List.range t.q).filterMap fun j => t.mem[(i * t.n + k) * t.q + j]?).length
        = t.p * t.q ∧ ∀ i j, i < t.p → j < t.q → ((List.range t.p).flatMap fun i => (List.range t.q).filterMap fun j =>
          t.mem[(i * t.n + k) * t.q + j]?)[i * t.q + j]? = t.mem[(i * t.n + k) * t.q + j]? := by
      intro k hk
      rw [List.flatMap_def]
      have hlen : ∀ l ∈ (List.range t.p).map (fun i => (List.range t.q).filterMap fun j => t.mem[(i * t.n + k) * t.q + j]?), l.length = t.q := by
        intro l hl
        obtain ⟨i, hi, rfl⟩ := List.mem_map.1 hl
        exact (hrow k hk i (List.mem_range.1 hi)).1
      constructor
      · rw [List.length_flatten, List.map_map]
        rw [show (List.range t.p).map (List.length ∘ fun i => (List.range t.q).filterMap fun j => t.mem[(i * t.n + k) * t.q + j]?)
          = (List.range t.p).map (fun _ => t.q) from List.map_congr_left fun i hi => (hrow k hk i (List.mem_range.1 hi)).1]
        rw [List.map_const', List.length_range, List.sum_replicate]
        simp
      · intro i j hi hj
        rw [flatten_get_same _ _ hlen i j hj, List.getElem?_map, List.getElem?_range hi]
        exact (hrow k hk i hi).2 j hj
    rw [List.flatMap_def]
    have hlen : ∀ l ∈ (List.range t.n).map (fun k => (List.range t.p).flatMap fun i => (List.range t.q).filterMap fun j =>
        t.mem[(i * t.n + k) * t.q + j]?), l.length = t.p * t.q := by
      intro l hl
      obtain ⟨k, hk, rfl⟩ := List.mem_map.1 hl
      exact (hblock k (List.mem_range.1 hk)).1
    constructor
    · rw [List.length_flatten, List.map_map]
      rw [show (List.range t.n).map (List.length ∘ fun k => (List.range t.p).flatMap fun i => (List.range t.q).filterMap fun j =>
          t.mem[(i * t.n + k) * t.q + j]?)
        = (List.range t.n).map (fun _ => t.p * t.q) from List.map_congr_left fun k hk => (hblock k (List.mem_range.1 hk)).1]
      rw [List.map_const', List.length_range, List.sum_replicate]
      simp
    · intro i k j hi hk hj
      have hij : i * t.q + j < t.p * t.q := by
        have := Nat.mul_le_mul_right t.q hi
        rw [Nat.succ_mul] at this
        omega
      rw [show (k * t.p + i) * t.q + j = k * (t.p * t.q) + (i * t.q + j) by ring,
        flatten_get_same _ _ hlen k _ hij, List.getElem?_map, List.getElem?_range hk]
      exact (hblock k hk).2 i j hi hj

/-- C136, allgatherv.  If the axis is not the last one, or the only one longer than one, every task gets the arrays one after the other
along the axis: entry k of task s is at k after all entries of the tasks before. Empty arrays with no entries along the axis may have any
shape. -/
theorem C136_gatherv_partial {α : Type} (ts : List (GatherIn α)) (p q : ℕ) (hq : q ≠ 1 ∨ p ≤ 1)
    (hts : ∀ t ∈ ts, t.mem.length = t.size ∧ (t.n = 0 ∨ t.p = p ∧ t.q = q)) (hne : ∃ t ∈ ts, t.size ≠ 0) :
    ∃ r, allgathervArr ts = some (some r) ∧ r.1 = (ts.map (fun t => t.n)).sum ∧ r.2.1 = p ∧ r.2.2.1 = q
      ∧ ∀ s t, ts[s]? = some t → ∀ i k j, i < p → k < t.n → j < q →
        gatherGet r i (((ts.take s).map (fun t => t.n)).sum + k) j = t.mem[(i * t.n + k) * q + j]? := by
  have hpq : ∀ t ∈ ts, t.size ≠ 0 → t.p = p ∧ t.q = q := by
    intro t ht hs
    rcases (hts t ht).2 with h | h
    · exact absurd (by unfold GatherIn.size; rw [h]; simp) hs
    · exact h
  have hlen : ∀ t ∈ ts, (gatherBuffer t).length = t.n * (p * q) := by
    intro t ht
    rcases (hts t ht).2 with h | ⟨h1, h2⟩
    · have hz : t.mem = [] := by
        rw [← List.length_eq_zero_iff, (hts t ht).1]
        unfold GatherIn.size
        rw [h]
        simp
      unfold gatherBuffer
      rw [h, hz]
      split_ifs <;> simp
    · rw [(gatherBuffer_get t (hts t ht).1 (by rw [h1, h2]; exact hq)).1, h1, h2]
  have hsome : allgathervArr ts = some (some ((ts.map (fun t => t.n)).sum, p, q, (ts.map gatherBuffer).flatten)) := by
    unfold allgathervArr
    match hf : ts.filter (fun t => t.size ≠ 0) with
    | [] =>
      obtain ⟨t, ht, hs⟩ := hne
      have : t ∈ ts.filter (fun t => t.size ≠ 0) := List.mem_filter.2 ⟨ht, by simpa using hs⟩
      rw [hf] at this
      simp at this
    | t0 :: l =>
      have h0 : t0 ∈ ts.filter (fun t => t.size ≠ 0) := by rw [hf]; simp
      obtain ⟨h0m, h0s⟩ := List.mem_filter.1 h0
      obtain ⟨e1, e2⟩ := hpq t0 h0m (by simpa using h0s)
      rw [hf]
      show (if _ then _ else _) = _
      rw [e1, e2, if_pos]
      rw [List.all_eq_true]
      intro t ht
      rcases (hts t ht).2 with h | ⟨h1, h2⟩
      · have hz : t.size = 0 := by unfold GatherIn.size; rw [h]; simp
        rw [hz, h]
        simp
      · have hz : t.n * (p * q) = t.size := by unfold GatherIn.size; rw [h1, h2]; ring
        rw [hz, h1, h2]
        simp
  refine ⟨_, hsome, rfl, rfl, rfl, ?_⟩
  intro s t hst i k j hi hk hj
  have ht : t ∈ ts := List.mem_of_getElem? hst
  obtain ⟨h1, h2⟩ : t.p = p ∧ t.q = q := by
    rcases (hts t ht).2 with h | h
    · omega
    · exact h
  have hb := (gatherBuffer_get t (hts t ht).1 (by rw [h1, h2]; exact hq)).2 i k j (by omega) hk (by omega)
  rw [h1, h2] at hb
  rw [← hb]
  unfold gatherGet
  dsimp only
  have hsum : (((ts.map gatherBuffer).take s).map List.length).sum = ((ts.take s).map (fun t => t.n)).sum * (p * q) := by
    rw [← List.map_take, List.map_map]
    have : ∀ l : List (GatherIn α), (∀ t ∈ l, t ∈ ts) → (l.map (List.length ∘ gatherBuffer)).sum = (l.map (fun t => t.n)).sum * (p * q) := by
      intro l
      induction l with
      | nil => intro _; simp
      | cons a u ih =>
        intro hl
        rw [List.map_cons, List.sum_cons, List.map_cons, List.sum_cons, ih fun t ht => hl t (by simp [ht])]
        show (gatherBuffer a).length + _ = _
        rw [hlen a (hl a (by simp))]
        ring
    exact this _ fun t ht => List.mem_of_mem_take ht
  have hr : (k * p + i) * q + j < (gatherBuffer t).length := by
    rw [hlen t ht]
    have a1 : k * p + i < t.n * p := by
      have := Nat.mul_le_mul_right p hk
      rw [Nat.succ_mul] at this
      omega
    have a2 := Nat.mul_le_mul_right q a1
    rw [Nat.succ_mul] at a2
    rw [← mul_assoc]
    omega
  rw [← flatten_get_at (ts.map gatherBuffer) s (gatherBuffer t) (by rw [List.getElem?_map, hst]; rfl) _ hr, hsum]
  congr 1
  ring

/-- Non-vacuity: the example of the documentation. -/
example : ∃ r, allgathervArr [⟨1, 1, 2, [1, 2]⟩, (⟨1, 2, 2, [3, 4, 5, 6]⟩ : GatherIn ℕ), ⟨1, 0, 1, []⟩] = some (some r) ∧ r.1 = 3
    ∧ gatherGet r 0 2 1 = some 6 := ⟨_, rfl, rfl, rfl⟩

/-- C136, allgatherv of nothing: if all arrays are empty each task keeps its own. -/
theorem C136_gatherv_empty {α : Type} (ts : List (GatherIn α)) (h : ∀ t ∈ ts, t.size = 0) : allgathervArr ts = some none := by
  unfold allgathervArr
  rw [List.filter_eq_nil_iff.2 (by
    intro t ht
    simpa using h t ht)]

example : allgathervArr [(⟨1, 0, 2, []⟩ : GatherIn ℕ)] = some none := C136_gatherv_empty _ (by decide)

/-- C136 refuted for the last of several axes, even with a single task: [[0,1],[2,3]] gathered along the columns is transposed. -/
theorem C136_gatherv_refuted : ∃ r, allgathervArr [(⟨2, 2, 1, [0, 1, 2, 3]⟩ : GatherIn ℕ)] = some (some r)
    ∧ gatherGet r 0 1 0 = some 2 := ⟨_, rfl, rfl⟩

/-- C136 refuted for arrays that are empty along another axis: the task with such an array raises as soon as another task has data, and the
other tasks wait for it. -/
theorem C136_gatherv_hang_refuted {α : Type} (n q : ℕ) (hn : 0 < n) (t : GatherIn α) (ht : t.size ≠ 0) :
    allgathervArr [⟨0, n, q, []⟩, t] = none := by
  have e : ([⟨0, n, q, []⟩, t] : List (GatherIn α)).filter (fun t => t.size ≠ 0) = [t] := by
    rw [List.filter_cons, List.filter_cons]
    simp [GatherIn.size] at ht ⊢
    exact ht
  unfold allgathervArr
  rw [e]
  dsimp only
  have hpos : t.n * (t.p * t.q) ≠ 0 := by
    unfold GatherIn.size at ht
    rw [show t.n * (t.p * t.q) = t.p * (t.n * t.q) by ring]
    exact ht
  have hpq : t.p * t.q ≠ 0 := fun h => hpos (by rw [h]; rfl)
  rw [if_neg]
  simp only [List.all_cons, Bool.and_eq_true, beq_iff_eq, not_and]
  intro h
  exfalso
  have h1 := h.1
  have hz : GatherIn.size (⟨0, n, q, []⟩ : GatherIn α) = 0 := by unfold GatherIn.size; simp
  rw [hz] at h1
  rcases Nat.mul_eq_zero.1 h1 with h2 | h2
  · omega
  · exact hpq h2

example : allgathervArr [⟨0, 3, 1, []⟩, (⟨4, 2, 1, [1, 2, 3, 4, 5, 6, 7, 8]⟩ : GatherIn ℕ)] = none := rfl

/-- C136 refuted for the communicator that stands in for a single task: gathering raises for every array that is not empty. -/
theorem C136_fake_refuted {α : Type} (t : GatherIn α) (h : t.size ≠ 0) : allgathervFake t = none := if_neg h

end Pixell
