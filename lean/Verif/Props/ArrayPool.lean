import Verif.Model.ArrayPool
import Verif.Props.Mempool

/-
Property C178: arrays in named pools of memory.
-/
namespace Pixell

/-! ### Specification: histories -/

/-- An array that somebody still uses: the pool it was made in (`none` after the pool was emptied or deleted), the number of bytes
asked for, its place, and what it should contain. -/
structure LiveArr where
  owner : Option String
  n : ℕ
  buf : Arena
  data : List ℕ

/-- The pool of this name gives up its arrays: they stay, but the pool does not know them any more. -/
def LiveArr.leave (name : String) (e : LiveArr) : LiveArr := { e with owner := if e.owner = some name then none else e.owner }

/-- The block at `raw` overlaps no arena of the pools with names in `others`, and none of the arrays left over from emptied pools. -/
def FreshFor (mp : MultiPool) (live : List LiveArr) (others : String → Prop) (raw : ℤ) (len : ℕ) : Prop :=
  (∀ s, others s → FreshBlock (mp.pool s).arenas raw len) ∧
  ∀ e ∈ live, e.owner = none → ∀ x, e.buf.Has x → ¬ (raw ≤ x ∧ x < raw + len)

/-- All histories of a set of pools, with the arrays that are in use: those made since the last reset of their pool. The system gives
out memory that is not in use. -/
inductive MpReach (align : ℕ) : MultiPool → List LiveArr → Prop
  | new (mem : ℤ → ℕ) : MpReach align ⟨fun _ => none, mem⟩ []
  | want {mp live} (h : MpReach align mp live) (names : List String) : MpReach align (mp.want names).1 live
  | reset {mp live} (h : MpReach align mp live) (name : String) (raw : ℤ)
      (hf : (mp.pool name).needsNew = true → FreshFor mp live (· ≠ name) raw ((mp.pool name).capacity + align - 1)) :
      MpReach align (mp.reset align raw name) (live.filter fun e => e.owner ≠ some name)
  | keep {mp live} (h : MpReach align mp live) (name : String) (n : ℕ) (raw1 raw2 : ℤ)
      (hf : (mp.pool name).noRoom n = true → FreshFor mp live (fun _ => True) raw2 (n + align - 1)) :
      MpReach align (mp.empty align raw1 raw2 name n false).1
        (⟨some name, n, (mp.empty align raw1 raw2 name n false).2,
          readMem mp.mem (mp.empty align raw1 raw2 name n false).2⟩ :: live)
  | write {mp l1 e l2} (h : MpReach align mp (l1 ++ e :: l2)) (data : List ℕ) (hd : data.length = e.n) :
      MpReach align { mp with mem := writeMem mp.mem e.buf data } (l1 ++ { e with data := data } :: l2)
  | free {mp live} (h : MpReach align mp live) (name : String) : MpReach align (mp.free name) (live.map (LiveArr.leave name))
  | del {mp live mp'} (h : MpReach align mp live) (name : String) (hd : mp.del name = some mp') :
      MpReach align mp' (live.map (LiveArr.leave name))

/-! ### The invariant -/

/-- The arrays in use of one pool. -/
def ownArrays (live : List LiveArr) (name : String) : List (Nat × Arena) :=
  (live.filter fun e => e.owner = some name).map fun e => (e.n, e.buf)

/-- The invariant. -/
structure MpInv (align : ℕ) (mp : MultiPool) (live : List LiveArr) : Prop where
  pools : ∀ s, PoolReach align (mp.pool s) (ownArrays live s)
  apart : ∀ s t, s ≠ t → ∀ a ∈ (mp.pool s).arenas, ∀ b ∈ (mp.pool t).arenas, ∀ x, a.Has x → ¬ b.Has x
  loose : ∀ e ∈ live, e.owner = none → ∀ s, ∀ a ∈ (mp.pool s).arenas, ∀ x, e.buf.Has x → ¬ a.Has x
  disj : live.Pairwise fun d e => ∀ x, d.buf.Has x → ¬ e.buf.Has x
  size : ∀ e ∈ live, e.buf.size = e.n
  aligned : ∀ e ∈ live, (align : ℤ) ∣ e.buf.ptr
  data : ∀ e ∈ live, readMem mp.mem e.buf = e.data

theorem put_pool (mp : MultiPool) (name s : String) (p : Pool) : (mp.put name p).pool s = if s = name then p else mp.pool s := by
  unfold MultiPool.pool MultiPool.put
  by_cases h : s = name <;> simp [h]

theorem put_same (mp : MultiPool) (name s : String) : (mp.put name (mp.pool name)).pool s = mp.pool s := by
  rw [put_pool]
  split
  · subst_vars; rfl
  · rfl

theorem want_same (names : List String) : ∀ (mp : MultiPool) (l : List Pool),
    (∀ s, (names.foldl (fun r name => (r.1.put name (r.1.pool name), r.2 ++ [r.1.pool name])) (mp, l)).1.pool s = mp.pool s) ∧
    (names.foldl (fun r name => (r.1.put name (r.1.pool name), r.2 ++ [r.1.pool name])) (mp, l)).1.mem = mp.mem ∧
    (names.foldl (fun r name => (r.1.put name (r.1.pool name), r.2 ++ [r.1.pool name])) (mp, l)).2 = l ++ names.map mp.pool := by
  induction names with
  | nil => intro mp l; simp
  | cons a names ih =>
    intro mp l
    rw [List.foldl_cons]
    obtain ⟨h1, h2, h3⟩ := ih (mp.put a (mp.pool a)) (l ++ [mp.pool a])
    refine ⟨fun s => by rw [h1, put_same], h2, ?_⟩
    rw [h3]
    have : (mp.put a (mp.pool a)).pool = mp.pool := funext fun s => put_same mp a s
    rw [this]; simp

theorem alloc_arenas {align : ℕ} (ha : 1 ≤ align) (raw : ℤ) (n : ℕ) (p : Pool) :
    ∀ a ∈ (p.alloc align raw n).1.arenas, a ∈ p.arenas ∨
      (p.noRoom n = true ∧ ∀ x, a.Has x → raw ≤ x ∧ x < raw + (n + align - 1 : ℕ)) := by
  intro a h
  unfold Pool.alloc at h
  by_cases c : p.noRoom n = true
  · simp only [c, if_true, List.mem_append, List.mem_singleton] at h
    rcases h with h | rfl
    · exact Or.inl h
    · right
      refine ⟨c, fun x hx => ?_⟩
      obtain ⟨-, h2, h3, h4⟩ := alignedAlloc_spec align ha raw n
      unfold Arena.Has at hx
      rw [h2] at hx
      omega
  · simp only [c, if_false, Bool.false_eq_true] at h
    exact Or.inl h

theorem reset_arenas {align : ℕ} (ha : 1 ≤ align) (raw : ℤ) (p : Pool) :
    ∀ a ∈ (p.reset align raw).arenas, a ∈ p.arenas ∨
      (p.needsNew = true ∧ ∀ x, a.Has x → raw ≤ x ∧ x < raw + (p.capacity + align - 1 : ℕ)) := by
  intro a h
  unfold Pool.reset at h
  by_cases c0 : p.capacity = 0
  · simp [c0] at h
  · rw [if_neg c0] at h
    by_cases c : p.needsNew = true
    · simp only [c, if_true, List.mem_singleton] at h
      subst h
      right
      refine ⟨c, fun x hx => ?_⟩
      obtain ⟨-, h2, h3, h4⟩ := alignedAlloc_spec align ha raw p.capacity
      unfold Arena.Has at hx
      rw [h2] at hx
      omega
    · simp only [c, if_false, Bool.false_eq_true] at h
      exact Or.inl h

theorem readMem_write (mem : ℤ → ℕ) (a : Arena) (data : List ℕ) (h : data.length = a.size) : readMem (writeMem mem a data) a = data := by
  unfold readMem writeMem
  apply List.ext_getElem
  · simp [h]
  · intro i h1 h2
    simp only [List.length_map, List.length_range] at h1
    simp only [List.getElem_map, List.getElem_range]
    rw [if_pos (by omega)]
    have : (a.ptr + (i : ℤ) - a.ptr).toNat = i := by omega
    rw [this]
    simp [h2]

theorem readMem_other (mem : ℤ → ℕ) (a b : Arena) (data : List ℕ) (h : ∀ x, a.Has x → ¬ b.Has x) :
    readMem (writeMem mem a data) b = readMem mem b := by
  unfold readMem writeMem
  apply List.map_congr_left
  intro i hi
  have hi : i < b.size := by simpa using hi
  rw [if_neg]
  intro hc
  exact h _ hc ⟨by omega, by omega⟩

theorem ownArrays_leave_self (live : List LiveArr) (name : String) : ownArrays (live.map (LiveArr.leave name)) name = [] := by
  unfold ownArrays
  rw [List.map_eq_nil_iff, List.filter_eq_nil_iff]
  intro e he
  obtain ⟨d, _, rfl⟩ := List.mem_map.1 he
  unfold LiveArr.leave
  by_cases c : d.owner = some name <;> simp [c]

theorem ownArrays_leave_other (live : List LiveArr) {name s : String} (h : s ≠ name) :
    ownArrays (live.map (LiveArr.leave name)) s = ownArrays live s := by
  unfold ownArrays
  induction live with
  | nil => rfl
  | cons e live ih =>
    rw [List.map_cons, List.filter_cons, List.filter_cons]
    have e1 : (decide ((LiveArr.leave name e).owner = some s)) = decide (e.owner = some s) := by
      unfold LiveArr.leave
      by_cases c : e.owner = some name
      · simp [c, Ne.symm h]
      · simp [c]
    rw [e1]
    by_cases c : e.owner = some s
    · simp only [c, decide_true, if_true, List.map_cons, ih]
      rfl
    · simp only [c, decide_false, Bool.false_eq_true, if_false, ih]

/-- Arrays of a pool lie in its arenas. -/
theorem MpInv.inside {align : ℕ} (ha : 1 ≤ align) {mp : MultiPool} {live : List LiveArr} (h : MpInv align mp live) {e : LiveArr}
    (he : e ∈ live) {s : String} (hs : e.owner = some s) : ∃ a ∈ (mp.pool s).arenas, ∀ x, e.buf.Has x → a.Has x := by
  have hm : (e.n, e.buf) ∈ ownArrays live s := by
    unfold ownArrays
    exact List.mem_map.2 ⟨e, List.mem_filter.2 ⟨he, by simpa using hs⟩, rfl⟩
  exact ((C52_mempool ha (h.pools s)).1 _ hm).2.2

theorem leave_inv {align : ℕ} (ha : 1 ≤ align) {mp mp' : MultiPool} {live : List LiveArr} {name : String} (h : MpInv align mp live)
    (hp : ∀ s, mp'.pool s = if s = name then Pool.free else mp.pool s) (hm : mp'.mem = mp.mem) :
    MpInv align mp' (live.map (LiveArr.leave name)) := by
  constructor
  · intro s
    rw [hp]
    by_cases c : s = name
    · rw [if_pos c, c, ownArrays_leave_self]; exact .new
    · rw [if_neg c, ownArrays_leave_other _ c]; exact h.pools s
  · intro s t hst a h1 b h2 x hx
    rw [hp] at h1 h2
    by_cases c1 : s = name
    · rw [if_pos c1] at h1; simp [Pool.free] at h1
    · by_cases c2 : t = name
      · rw [if_pos c2] at h2; simp [Pool.free] at h2
      · rw [if_neg c1] at h1
        rw [if_neg c2] at h2
        exact h.apart s t hst a h1 b h2 x hx
  · intro e he ho s a h1 x hx hax
    obtain ⟨d, hd, rfl⟩ := List.mem_map.1 he
    rw [hp] at h1
    by_cases c1 : s = name
    · rw [if_pos c1] at h1; simp [Pool.free] at h1
    · rw [if_neg c1] at h1
      by_cases c2 : d.owner = some name
      · obtain ⟨b, hb, hin⟩ := h.inside ha hd c2
        exact h.apart s name c1 a h1 b hb x hax (hin x hx)
      · have : d.owner = none := by simpa [LiveArr.leave, c2] using ho
        exact h.loose d hd this s a h1 x hx hax
  · rw [List.pairwise_map]; exact h.disj
  · intro e he; obtain ⟨d, hd, rfl⟩ := List.mem_map.1 he; exact h.size d hd
  · intro e he; obtain ⟨d, hd, rfl⟩ := List.mem_map.1 he; exact h.aligned d hd
  · intro e he; obtain ⟨d, hd, rfl⟩ := List.mem_map.1 he; rw [hm]; exact h.data d hd

theorem MpReach.inv {align : ℕ} (ha : 1 ≤ align) {mp : MultiPool} {live : List LiveArr} (h : MpReach align mp live) : MpInv align mp live := by
  induction h with
  | new mem =>
    refine ⟨fun s => ?_, ?_, by simp, by simp, by simp, by simp, by simp⟩
    · exact .new
    · intro s t _ a h1
      simp [MultiPool.pool, Pool.free] at h1
  | @want mp live _ names ih =>
    obtain ⟨h1, h2, -⟩ := want_same names mp []
    have hp : ∀ s, (mp.want names).1.pool s = mp.pool s := h1
    have hm : (mp.want names).1.mem = mp.mem := h2
    exact ⟨fun s => by rw [hp]; exact ih.pools s, fun s t hst => by rw [hp, hp]; exact ih.apart s t hst,
      fun e he ho s => by rw [hp]; exact ih.loose e he ho s, ih.disj, ih.size, ih.aligned, fun e he => by rw [hm]; exact ih.data e he⟩
  | @reset mp live _ name raw hf ih =>
    have hp : ∀ s, (mp.reset align raw name).pool s = if s = name then (mp.pool name).reset align raw else mp.pool s :=
      fun s => put_pool mp name s _
    have sub : ∀ e ∈ live.filter (fun e => e.owner ≠ some name), e ∈ live ∧ e.owner ≠ some name := by
      intro e he; simpa using he
    have cross : ∀ t, t ≠ name → ∀ a ∈ ((mp.pool name).reset align raw).arenas, ∀ b ∈ (mp.pool t).arenas, ∀ x, a.Has x → ¬ b.Has x := by
      intro t ht a h1 b h2 x hx hb
      rcases reset_arenas ha raw _ a h1 with h3 | ⟨h3, h4⟩
      · exact ih.apart name t (Ne.symm ht) a h3 b h2 x hx hb
      · exact (hf h3).1 t ht b h2 x hb (h4 x hx)
    constructor
    · intro s
      rw [hp]
      by_cases c : s = name
      · rw [if_pos c]
        have : ownArrays (live.filter fun e => e.owner ≠ some name) s = [] := by
          unfold ownArrays
          rw [List.map_eq_nil_iff, List.filter_eq_nil_iff]
          intro e he
          have := (sub e he).2
          simpa [c] using this
        rw [this]
        exact .reset (ih.pools name) raw
      · rw [if_neg c]
        have : ownArrays (live.filter fun e => e.owner ≠ some name) s = ownArrays live s := by
          unfold ownArrays
          rw [List.filter_filter]
          congr 1
          apply List.filter_congr
          intro e _
          by_cases c2 : e.owner = some s
          · simp [c2, c]
          · simp [c2]
        rw [this]; exact ih.pools s
    · intro s t hst a h1 b h2 x hx hb
      rw [hp] at h1 h2
      by_cases c1 : s = name
      · rw [if_pos c1] at h1
        rw [if_neg (fun e => hst (c1.trans e.symm))] at h2
        exact cross t (fun e => hst (c1.trans e.symm)) a h1 b h2 x hx hb
      · rw [if_neg c1] at h1
        by_cases c2 : t = name
        · rw [if_pos c2] at h2
          exact cross s c1 b h2 a h1 x hb hx
        · rw [if_neg c2] at h2
          exact ih.apart s t hst a h1 b h2 x hx hb
    · intro e he ho s a h1 x hx hax
      rw [hp] at h1
      by_cases c1 : s = name
      · rw [if_pos c1] at h1
        rcases reset_arenas ha raw _ a h1 with h3 | ⟨h3, h4⟩
        · exact ih.loose e (sub e he).1 ho name a h3 x hx hax
        · exact (hf h3).2 e (sub e he).1 ho x hx (h4 x hax)
      · rw [if_neg c1] at h1
        exact ih.loose e (sub e he).1 ho s a h1 x hx hax
    · exact ih.disj.filter _
    · exact fun e he => ih.size e (sub e he).1
    · exact fun e he => ih.aligned e (sub e he).1
    · exact fun e he => ih.data e (sub e he).1
  | @keep mp live _ name n raw1 raw2 hf ih =>
    set r := (mp.pool name).alloc align raw2 n with hr
    have hbuf : (mp.empty align raw1 raw2 name n false).2 = r.2 := rfl
    have hp : ∀ s, (mp.empty align raw1 raw2 name n false).1.pool s = if s = name then r.1 else mp.pool s :=
      fun s => put_pool mp name s _
    rw [hbuf]
    have hown : ∀ s, ownArrays (⟨some name, n, r.2, readMem mp.mem r.2⟩ :: live) s =
        if s = name then (n, r.2) :: ownArrays live s else ownArrays live s := by
      intro s
      unfold ownArrays
      rw [List.filter_cons]
      by_cases c : s = name
      · simp [c]
      · simp [c, Ne.symm c]
    have hnew : PoolReach align r.1 ((n, r.2) :: ownArrays live name) := .alloc (ih.pools name) n raw2 (fun hn => (hf hn).1 name trivial)
    have c52 := C52_mempool ha hnew
    have cross : ∀ t, t ≠ name → ∀ a ∈ r.1.arenas, ∀ b ∈ (mp.pool t).arenas, ∀ x, a.Has x → ¬ b.Has x := by
      intro t ht a h1 b h2 x hx hb
      rcases alloc_arenas ha raw2 n _ a h1 with h3 | ⟨h3, h4⟩
      · exact ih.apart name t (Ne.symm ht) a h3 b h2 x hx hb
      · exact (hf h3).1 t trivial b h2 x hb (h4 x hx)
    have looseNew : ∀ e ∈ live, e.owner = none → ∀ a ∈ r.1.arenas, ∀ x, e.buf.Has x → ¬ a.Has x := by
      intro e he ho a h1 x hx hax
      rcases alloc_arenas ha raw2 n _ a h1 with h3 | ⟨h3, h4⟩
      · exact ih.loose e he ho name a h3 x hx hax
      · exact (hf h3).2 e he ho x hx (h4 x hax)
    have hinside := (c52.1 (n, r.2) (by simp)).2.2
    constructor
    · intro s
      rw [hp, hown]
      by_cases c : s = name
      · rw [if_pos c, if_pos c, c]; exact hnew
      · rw [if_neg c, if_neg c]; exact ih.pools s
    · intro s t hst a h1 b h2 x hx hb
      rw [hp] at h1 h2
      by_cases c1 : s = name
      · rw [if_pos c1] at h1
        rw [if_neg (fun e => hst (c1.trans e.symm))] at h2
        exact cross t (fun e => hst (c1.trans e.symm)) a h1 b h2 x hx hb
      · rw [if_neg c1] at h1
        by_cases c2 : t = name
        · rw [if_pos c2] at h2
          exact cross s c1 b h2 a h1 x hb hx
        · rw [if_neg c2] at h2
          exact ih.apart s t hst a h1 b h2 x hx hb
    · intro e he ho s a h1 x hx hax
      rcases List.mem_cons.1 he with rfl | he
      · simp at ho
      · rw [hp] at h1
        by_cases c1 : s = name
        · rw [if_pos c1] at h1
          exact looseNew e he ho a h1 x hx hax
        · rw [if_neg c1] at h1
          exact ih.loose e he ho s a h1 x hx hax
    · rw [List.pairwise_cons]
      refine ⟨fun e he x hx hex => ?_, ih.disj⟩
      obtain ⟨a, ha1, ha2⟩ := hinside
      rcases ho : e.owner with _ | s
      · exact looseNew e he ho a ha1 x hex (ha2 x hx)
      · by_cases c : s = name
        · have hm : (e.n, e.buf) ∈ ownArrays live name := by
            unfold ownArrays
            exact List.mem_map.2 ⟨e, List.mem_filter.2 ⟨he, by simp [ho, c]⟩, rfl⟩
          exact (List.pairwise_cons.1 c52.2).1 _ hm x hx hex
        · obtain ⟨b, hb1, hb2⟩ := ih.inside ha he ho
          exact cross s c a ha1 b hb1 x (ha2 x hx) (hb2 x hex)
    · intro e he
      rcases List.mem_cons.1 he with rfl | he
      · exact (c52.1 (n, r.2) (by simp)).1
      · exact ih.size e he
    · intro e he
      rcases List.mem_cons.1 he with rfl | he
      · exact (c52.1 (n, r.2) (by simp)).2.1
      · exact ih.aligned e he
    · intro e he
      have hm : (mp.empty align raw1 raw2 name n false).1.mem = mp.mem := rfl
      rw [hm]
      rcases List.mem_cons.1 he with rfl | he
      · rfl
      · exact ih.data e he
  | @write mp l1 e l2 _ data hd ih =>
    have hown : ∀ s, ownArrays (l1 ++ { e with data := data } :: l2) s = ownArrays (l1 ++ e :: l2) s := by
      intro s
      unfold ownArrays
      rw [List.filter_append, List.filter_append, List.filter_cons, List.filter_cons, List.map_append, List.map_append]
      by_cases c : e.owner = some s <;> simp [c]
    have hpw := List.pairwise_append.1 ih.disj
    have hpc := List.pairwise_cons.1 hpw.2.1
    have hes := ih.size e (by simp)
    have mem' : ∀ d, d ∈ l1 ++ { e with data := data } :: l2 → d = { e with data := data } ∨
        (d ∈ l1 ++ e :: l2 ∧ ∀ x, e.buf.Has x → ¬ d.buf.Has x) := by
      intro d hd
      simp only [List.mem_append, List.mem_cons] at hd ⊢
      rcases hd with hd | rfl | hd
      · exact Or.inr ⟨Or.inl hd, fun x h1 h2 => hpw.2.2 d hd e (by simp) x h2 h1⟩
      · exact Or.inl rfl
      · exact Or.inr ⟨Or.inr (Or.inr hd), fun x h1 h2 => hpc.1 d hd x h1 h2⟩
    constructor
    · intro s; rw [hown]; exact ih.pools s
    · exact ih.apart
    · intro d hd ho s a h1 x hx
      rcases mem' d hd with rfl | ⟨hd, -⟩
      · exact ih.loose e (by simp) ho s a h1 x hx
      · exact ih.loose d hd ho s a h1 x hx
    · rw [List.pairwise_append, List.pairwise_cons]
      refine ⟨hpw.1, ⟨hpc.1, hpc.2⟩, ?_⟩
      intro a h1 b h2
      rcases List.mem_cons.1 h2 with rfl | h2
      · exact hpw.2.2 a h1 e (by simp)
      · exact hpw.2.2 a h1 b (by simp [h2])
    · intro d hd
      rcases mem' d hd with rfl | ⟨hd, -⟩
      · exact hes
      · exact ih.size d hd
    · intro d hd
      rcases mem' d hd with rfl | ⟨hd, -⟩
      · exact ih.aligned e (by simp)
      · exact ih.aligned d hd
    · intro d hd'
      rcases mem' d hd' with rfl | ⟨hd', hdis⟩
      · exact readMem_write _ _ _ (by rw [hd]; exact hes.symm)
      · simp only
        rw [readMem_other _ _ _ _ hdis]
        exact ih.data d hd'
  | @free mp live _ name ih => exact leave_inv ha ih (fun s => put_pool mp name s _) rfl
  | @del mp live mp' _ name hd ih =>
    unfold MultiPool.del at hd
    split at hd
    · exact absurd hd (by simp)
    · obtain rfl := Option.some.inj hd
      refine leave_inv ha ih (fun s => ?_) rfl
      unfold MultiPool.pool
      by_cases c : s = name <;> simp [c]

/-! ### The property -/

/-- C178: for every history of named pools, all arrays in use (made since the last reset of their pool, also those of pools emptied or
deleted since), of all pools together, have the size asked for, are aligned, and share no byte. -/
theorem C178_disjoint {align : ℕ} (ha : 1 ≤ align) {mp : MultiPool} {live : List LiveArr} (h : MpReach align mp live) :
    (∀ e ∈ live, e.buf.size = e.n ∧ (align : ℤ) ∣ e.buf.ptr) ∧ live.Pairwise fun d e => ∀ x, d.buf.Has x → ¬ e.buf.Has x :=
  ⟨fun e he => ⟨(h.inv ha).size e he, (h.inv ha).aligned e he⟩, (h.inv ha).disj⟩

/-- Two pools with one array each, one of them written to, and then deleted. -/
theorem example_mp : ∃ mp live, MpReach 2 mp live ∧ live.map (fun e => (e.owner, e.n, e.data)) =
    [(some "b", 2, [7, 7]), (none, 3, [1, 2, 3])] := by
  have h0 : MpReach 2 ⟨fun _ => none, fun _ => 7⟩ [] := .new _
  have h1 := MpReach.keep h0 "a" 3 0 0 (fun _ => ⟨fun s _ a ha => by simp [MultiPool.pool, Pool.free] at ha, by simp⟩)
  have h2 := MpReach.write (l1 := []) h1 [1, 2, 3] rfl
  have h3 := MpReach.keep h2 "b" 2 0 10 (by
    refine fun _ => ⟨fun s _ a ha x hx => ?_, by simp⟩
    have e : ({ (MultiPool.empty 2 0 0 "a" 3 false ⟨fun _ => none, fun _ => 7⟩).1 with
        mem := writeMem (MultiPool.empty 2 0 0 "a" 3 false ⟨fun _ => none, fun _ => 7⟩).1.mem
          (MultiPool.empty 2 0 0 "a" 3 false ⟨fun _ => none, fun _ => 7⟩).2 [1, 2, 3] } : MultiPool).pool s =
        if s = "a" then (Pool.free.alloc 2 0 3).1 else Pool.free := put_pool ⟨fun _ => none, fun _ => 7⟩ "a" s _
    rw [e] at ha
    by_cases c : s = "a"
    · rw [if_pos c] at ha
      have : a = ⟨0, 3⟩ := by
        have e2 : (Pool.free.alloc 2 0 3).1.arenas = [⟨0, 3⟩] := by decide +kernel
        rw [e2] at ha; simpa using ha
      subst this
      obtain ⟨-, h2⟩ := hx
      simp only at h2
      omega
    · rw [if_neg c] at ha
      simp [Pool.free] at ha)
  have h4 := MpReach.del h3 "a" rfl
  refine ⟨_, _, h4, ?_⟩
  decide +kernel

example : ∃ (mp : MultiPool) (live : List LiveArr), live.length = 2 ∧ (∀ e ∈ live, readMem mp.mem e.buf = e.data) ∧
    live.Pairwise (fun d e => ∀ x, d.buf.Has x → ¬ e.buf.Has x) := by
  obtain ⟨mp, live, h, hl⟩ := example_mp
  exact ⟨mp, live, by simpa using congrArg List.length hl, (h.inv (by omega)).data, (C178_disjoint (by omega) h).2⟩

/-- C178: and every array contains what was last written to it, whatever was made, written, reset or deleted since. -/
theorem C178_contents {align : ℕ} (ha : 1 ≤ align) {mp : MultiPool} {live : List LiveArr} (h : MpReach align mp live) :
    ∀ e ∈ live, readMem mp.mem e.buf = e.data := (h.inv ha).data

/-- C178: array(arr) and zeros with at least one axis, at any point of any history: they are a reset, a new array and an assignment, the
result has the bytes of arr, or zeros, and the arrays of all other pools keep theirs. -/
theorem C178_array {align : ℕ} (ha : 1 ≤ align) {mp : MultiPool} {live : List LiveArr} (h : MpReach align mp live) (name : String)
    {shape : List ℕ} (hs : shape ≠ []) (data : List ℕ) (raw1 raw2 : ℤ)
    (hf1 : (mp.pool name).needsNew = true → FreshFor mp live (· ≠ name) raw1 ((mp.pool name).capacity + align - 1))
    (hf2 : (mp.reset align raw1 name |>.pool name).noRoom data.length = true →
      FreshFor (mp.reset align raw1 name) (live.filter fun e => e.owner ≠ some name) (fun _ => True) raw2 (data.length + align - 1)) :
    ∃ mp' buf, mp.array align raw1 raw2 name shape data = some (mp', buf) ∧ readMem mp'.mem buf = data ∧
      MpReach align mp' (⟨some name, data.length, buf, data⟩ :: live.filter fun e => e.owner ≠ some name) ∧
      ∀ e ∈ live, e.owner ≠ some name → readMem mp'.mem e.buf = e.data := by
  have h1 := MpReach.reset h name raw1 hf1
  have h2 := MpReach.keep h1 name data.length raw1 raw2 hf2
  have h3 := MpReach.write (l1 := []) h2 data rfl
  set mp1 := mp.reset align raw1 name with hmp1
  have e1 : (mp.empty align raw1 raw2 name data.length true).2 = (mp1.empty align raw1 raw2 name data.length false).2 := by
    unfold MultiPool.empty Pool.newArray
    simp only [if_true, Bool.false_eq_true, if_false]
    rw [hmp1, MultiPool.reset, put_pool, if_pos rfl]
  have e2 : (mp.empty align raw1 raw2 name data.length true).1 = (mp1.empty align raw1 raw2 name data.length false).1 := by
    unfold MultiPool.empty Pool.newArray
    simp only [if_true, Bool.false_eq_true, if_false]
    rw [hmp1, MultiPool.reset, put_pool, if_pos rfl]
    unfold MultiPool.put
    simp only [MultiPool.mk.injEq, and_true]
    funext s
    by_cases c : s = name <;> simp [c]
  have hc := C178_contents ha h3
  refine ⟨{ (mp1.empty align raw1 raw2 name data.length false).1 with
      mem := writeMem (mp1.empty align raw1 raw2 name data.length false).1.mem (mp1.empty align raw1 raw2 name data.length false).2 data },
    (mp1.empty align raw1 raw2 name data.length false).2, ?_, ?_, ?_, ?_⟩
  · unfold MultiPool.array
    rw [if_neg hs, e1, e2]
  · exact hc _ List.mem_cons_self
  · exact h3
  · intro e he ho
    exact hc e (by simp [he, ho])

/-- C178: zeros without a reset: the new array contains zeros, and all arrays of all pools, also of this one, keep their contents. -/
theorem C178_zeros {align : ℕ} (ha : 1 ≤ align) {mp : MultiPool} {live : List LiveArr} (h : MpReach align mp live) (name : String)
    {shape : List ℕ} (hs : shape ≠ []) (itemsize : ℕ) (raw1 raw2 : ℤ)
    (hf : (mp.pool name).noRoom (shape.prod * itemsize) = true →
      FreshFor mp live (fun _ => True) raw2 (shape.prod * itemsize + align - 1)) :
    ∃ mp' buf, mp.zeros align raw1 raw2 name shape itemsize false = some (mp', buf) ∧
      readMem mp'.mem buf = List.replicate (shape.prod * itemsize) 0 ∧ ∀ e ∈ live, readMem mp'.mem e.buf = e.data := by
  have h2 := MpReach.keep h name (shape.prod * itemsize) raw1 raw2 hf
  have h3 := MpReach.write (l1 := []) h2 (List.replicate (shape.prod * itemsize) 0) (by simp)
  have hc := C178_contents ha h3
  refine ⟨_, _, ?_, hc _ List.mem_cons_self, fun e he => hc e (List.mem_cons_of_mem _ he)⟩
  unfold MultiPool.zeros
  rw [if_neg hs]
  rfl

/-- C178: zeros with a reset, which is the default, is array of zeros. -/
theorem C178_zeros_reset {align : ℕ} (mp : MultiPool) (name : String) (shape : List ℕ) (itemsize : ℕ) (raw1 raw2 : ℤ) :
    mp.zeros align raw1 raw2 name shape itemsize true =
      mp.array align raw1 raw2 name shape (List.replicate (shape.prod * itemsize) 0) := by
  unfold MultiPool.zeros MultiPool.array arrayBytes
  rw [List.length_replicate]

/-- C178: arrays without axes cannot be made from values. -/
theorem C178_scalar_refuted {align : ℕ} (mp : MultiPool) (name : String) (data : List ℕ) (itemsize : ℕ) (reset : Bool) (raw1 raw2 : ℤ) :
    mp.array align raw1 raw2 name [] data = none ∧ mp.zeros align raw1 raw2 name [] itemsize reset = none := by
  simp [MultiPool.array, MultiPool.zeros]

/-- C178: asked for twice with the default arguments, a pool that is as large as it has ever been gives the same memory twice, without
asking the system: the second array replaces the first. -/
theorem C178_reuse {align : ℕ} {p : Pool} {c n : ℕ} (h : JustReset align c p) (hn : n ≤ c)
    (raw1 raw2 raw3 raw4 : ℤ) :
    ((p.newArray align raw1 raw2 n true).1.newArray align raw3 raw4 n true).2 = (p.newArray align raw1 raw2 n true).2 := by
  obtain ⟨⟨a, h1, h2⟩, h3, h4, h5, h6, h7⟩ := h
  have hr : ∀ (q : Pool) (raw : ℤ), q.arenas = [a] → q.capacity = c → q.reset align raw = ⟨[a], c, 0, 0⟩ := by
    intro q raw e1 e2
    unfold Pool.reset
    rw [if_neg (by omega)]
    have : q.needsNew = false := by simp [Pool.needsNew, e1, e2, h2]
    rw [this, e1, e2]
    simp
  have hal : ∀ raw : ℤ, (⟨[a], c, 0, 0⟩ : Pool).alloc align raw n = (⟨[a], c, 0, 0 + roundUp n align⟩, a.slice 0 (0 + n)) := by
    intro raw
    unfold Pool.alloc
    have : (⟨[a], c, 0, 0⟩ : Pool).noRoom n = false := by simp [Pool.noRoom, h2]; omega
    simp [this]
  unfold Pool.newArray
  simp only [if_true]
  rw [hr p raw1 h1 h3, hal, hr _ raw3 rfl rfl, hal]

/-- C178: size() raises as soon as there is a pool. -/
theorem C178_size_refuted (p : Pool) (ps : List Pool) : poolsSize (p :: ps) = none := by simp [poolsSize]

/-- C178: the pool of a name is found as an attribute if the name is not one of the methods. -/
theorem C178_attr_partial (mp : MultiPool) (name : String) (p : Pool) (h : mp.pools name = some p) (hn : name ∉ multipoolOwn) :
    mp.attr name = .pool p := by simp [MultiPool.attr, h, hn]

/-- C178: a pool called "size", like the other names of methods, is made and found as an item but not as an attribute; and an unknown
name gives a KeyError, so that hasattr and getattr with a default raise. -/
theorem C178_attr_refuted (mp : MultiPool) : (mp.put "size" Pool.free).pool "size" = Pool.free ∧ (mp.put "size" Pool.free).attr "size" = .own ∧
    ∀ name, name ∉ multipoolOwn → mp.pools name = none → mp.attr name = .keyError := by
  refine ⟨by rw [put_pool, if_pos rfl], by simp [MultiPool.attr, multipoolOwn], fun name h1 h2 => by simp [MultiPool.attr, h1, h2]⟩

end Pixell
