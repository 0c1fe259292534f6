import Mathlib.Tactic.Linarith
import Mathlib.Tactic.Ring
import Mathlib.Tactic.Push
import Mathlib.Algebra.BigOperators.Group.List.Basic
import Mathlib.Algebra.BigOperators.Ring.List
import Mathlib.Algebra.Order.Group.Unbundled.Int
import Verif.Model.Mempool

/-
Properties C52 and C53: memory pools.
-/
namespace Pixell

/-- A raw block of `len` bytes at `raw` that overlaps none of the arenas in use. -/
def FreshBlock (arenas : List Arena) (raw : Int) (len : Nat) : Prop :=
  ∀ a ∈ arenas, ∀ x, a.Has x → ¬ (raw ≤ x ∧ x < raw + len)

/-- The states a pool can reach, with the buffers handed out since the last reset or free and the sizes asked for. -/
inductive PoolReach (align : Nat) : Pool → List (Nat × Arena) → Prop
  | new : PoolReach align Pool.free []
  | alloc {p bs} (h : PoolReach align p bs) (n : Nat) (raw : Int)
      (hf : p.noRoom n = true → FreshBlock p.arenas raw (n + align - 1)) :
      PoolReach align (p.alloc align raw n).1 ((n, (p.alloc align raw n).2) :: bs)
  | reset {p bs} (h : PoolReach align p bs) (raw : Int) :
      PoolReach align (p.reset align raw) []
  | free {p bs} (h : PoolReach align p bs) : PoolReach align Pool.free []

theorem roundUp_spec (n : Nat) {align : Nat} (ha : 1 ≤ align) :
    align ∣ roundUp n align ∧ n ≤ roundUp n align ∧ roundUp n align < n + align := by
  unfold roundUp
  refine ⟨Dvd.intro_left _ rfl, ?_, ?_⟩
  · have := Nat.div_add_mod (n + align - 1) align
    have := Nat.mod_lt (n + align - 1) (show align > 0 by omega)
    rw [Nat.mul_comm ((n + align - 1) / align)]
    omega
  · have := Nat.div_mul_le_self (n + align - 1) align
    omega

theorem roundUp_le_of_dvd {n c align : Nat} (ha : 1 ≤ align) (hc : align ∣ c) (h : n ≤ c) : roundUp n align ≤ c := by
  obtain ⟨k, rfl⟩ := hc
  have h1 := roundUp_spec n ha
  obtain ⟨j, hj⟩ := h1.1
  rw [hj] at h1 ⊢
  have : align * j < align * (k + 1) := by rw [Nat.mul_succ]; omega
  have := Nat.lt_of_mul_lt_mul_left this
  exact Nat.mul_le_mul_left _ (by omega)

theorem roundUp_zero {align : Nat} (ha : 1 ≤ align) : roundUp 0 align = 0 := by
  have := roundUp_le_of_dvd ha (Nat.dvd_zero align) (Nat.zero_le 0)
  omega

/-- An aligned allocation is aligned, has the requested size, and lies inside the raw block. -/
theorem alignedAlloc_spec (align : Nat) (ha : 1 ≤ align) (raw : Int) (n : Nat) :
    (align : Int) ∣ (alignedAlloc align raw n).ptr ∧ (alignedAlloc align raw n).size = n ∧
    raw ≤ (alignedAlloc align raw n).ptr ∧
    (alignedAlloc align raw n).ptr + n ≤ raw + (n + align - 1 : Nat) := by
  have h0 : 0 ≤ (-raw).fmod align := Int.fmod_nonneg_of_pos _ (by omega)
  have h1 : (-raw).fmod align < align := Int.fmod_lt_of_pos _ (by omega)
  have h2 := Int.mul_fdiv_add_fmod (-raw) align
  obtain ⟨k, hk⟩ : ∃ k : Nat, (-raw).fmod align = k := ⟨_, (Int.toNat_of_nonneg h0).symm⟩
  unfold alignedAlloc Arena.slice
  simp only [hk, Int.toNat_natCast]
  rw [hk] at h1 h2
  have e1 : min k (n + align - 1) = k := by omega
  have e2 : min (k + n) (n + align - 1) = k + n := by omega
  rw [e1, e2]
  refine ⟨⟨-(-raw).fdiv align, ?_⟩, by omega, by omega, by omega⟩
  rw [mul_neg]; omega

/-- The invariant of a pool. -/
structure PoolInv (align : Nat) (p : Pool) (bs : List (Nat × Arena)) : Prop where
  aligned : ∀ a ∈ p.arenas, (align : Int) ∣ a.ptr
  disj : p.arenas.Pairwise fun a b => ∀ x, a.Has x → ¬ b.Has x
  pos : align ∣ p.pos
  cap : align ∣ p.capacity
  sz : align ∣ p.size
  empty : p.arenas = [] → bs = []
  size : ∀ b ∈ bs, b.2.size = b.1
  baligned : ∀ b ∈ bs, (align : Int) ∣ b.2.ptr
  inside : ∀ b ∈ bs, (∃ a ∈ p.arenas.dropLast, ∀ x, b.2.Has x → a.Has x) ∨
    ∃ a ∈ p.arenas.getLast?, ∀ x, b.2.Has x → a.Has x ∧ x < a.ptr + p.pos
  bdisj : bs.Pairwise fun a b => ∀ x, a.2.Has x → ¬ b.2.Has x

theorem PoolReach.inv {align : Nat} (ha : 1 ≤ align) {p : Pool} {bs : List (Nat × Arena)} (h : PoolReach align p bs) :
    PoolInv align p bs := by
  induction h with
  | new => exact ⟨by simp [Pool.free], by simp [Pool.free], by simp [Pool.free], by simp [Pool.free], by simp [Pool.free],
      by simp, by simp, by simp, by simp, by simp⟩
  | free _ => exact ⟨by simp [Pool.free], by simp [Pool.free], by simp [Pool.free], by simp [Pool.free], by simp [Pool.free],
      by simp, by simp, by simp, by simp, by simp⟩
  | @reset p bs h raw ih =>
    unfold Pool.reset
    split_ifs with h1 h2
    · exact ⟨by simp, by simp, by simp, by simp [h1], by simp, by simp, by simp, by simp, by simp, by simp⟩
    · refine ⟨?_, by simp, by simp, ih.cap, by simp, by simp, by simp, by simp, by simp, by simp⟩
      intro a h
      simp only [List.mem_singleton] at h
      subst h
      exact (alignedAlloc_spec align ha raw _).1
    · exact ⟨ih.aligned, ih.disj, by simp, ih.cap, by simp, by simp, by simp, by simp, by simp, by simp⟩
  | @alloc p bs h n raw hf ih =>
    have hr := roundUp_spec n ha
    unfold Pool.alloc
    simp only
    split_ifs with hn
    · -- a new arena
      obtain ⟨s1, s2, s3, s4⟩ := alignedAlloc_spec align ha raw n
      set a := alignedAlloc align raw n with hadef
      have hslice : a.slice 0 n = a := by
        have e : ∀ b : Arena, b.size = n → b.slice 0 n = b := by
          rintro ⟨q, m⟩ rfl
          simp [Arena.slice]
        exact e a s2
      have hfr : ∀ b ∈ p.arenas, ∀ x, b.Has x → ¬ a.Has x := by
        intro b hb x hx hax
        apply hf hn b hb x hx
        have hax' : a.ptr ≤ x ∧ x < a.ptr + a.size := hax
        rw [s2] at hax'
        constructor <;> omega
      have cap : align ∣ max p.capacity (p.size + roundUp n align) := by
        rcases max_choice p.capacity (p.size + roundUp n align) with e | e <;> rw [e]
        · exact ih.cap
        · exact Nat.dvd_add ih.sz hr.1
      refine ⟨?_, ?_, hr.1, cap, Nat.dvd_add ih.sz hr.1, by simp, ?_, ?_, ?_, ?_⟩
      · intro b hb
        rcases List.mem_append.1 hb with hb | hb
        · exact ih.aligned b hb
        · rw [List.mem_singleton.1 hb]; exact s1
      · rw [List.pairwise_append]
        refine ⟨ih.disj, by simp, ?_⟩
        intro b hb c hc
        rw [List.mem_singleton.1 hc]
        exact hfr b hb
      · intro b hb
        rcases List.mem_cons.1 hb with rfl | hb
        · simp only; rw [hslice, s2]
        · exact ih.size b hb
      · intro b hb
        rcases List.mem_cons.1 hb with rfl | hb
        · simp only; rw [hslice]; exact s1
        · exact ih.baligned b hb
      · intro b hb
        rcases List.mem_cons.1 hb with rfl | hb
        · right
          refine ⟨a, by simp, ?_⟩
          simp only; rw [hslice]
          intro x hx
          refine ⟨hx, ?_⟩
          have := hx.2
          rw [s2] at this
          have : (n : Int) ≤ roundUp n align := by exact_mod_cast hr.2.1
          omega
        · left
          rw [List.dropLast_concat]
          rcases ih.inside b hb with ⟨c, hc, hi⟩ | ⟨c, hc, hi⟩
          · exact ⟨c, List.dropLast_subset _ hc, hi⟩
          · exact ⟨c, List.mem_of_getLast? hc, fun x hx => (hi x hx).1⟩
      · rw [List.pairwise_cons]
        refine ⟨?_, ih.bdisj⟩
        intro b hb x hx hbx
        simp only [hslice] at hx
        rcases ih.inside b hb with ⟨c, hc, hi⟩ | ⟨c, hc, hi⟩
        · exact hfr c (List.dropLast_subset _ hc) x (hi x hbx) hx
        · exact hfr c (List.mem_of_getLast? hc) x (hi x hbx).1 hx
    · -- room in the last arena
      unfold Pool.noRoom at hn
      obtain ⟨a, hlast⟩ : ∃ a, p.arenas.getLast? = some a := by
        cases hg : p.arenas.getLast? with
        | none => rw [hg] at hn; simp at hn
        | some a => exact ⟨a, rfl⟩
      rw [hlast] at hn
      simp only [Option.all_some, decide_eq_true_eq, Nat.not_lt] at hn
      have hD : p.arenas.getLastD ⟨0, 0⟩ = a := by
        rw [List.getLastD_eq_getLast?, hlast]; rfl
      rw [hD]
      have hsl : a.slice p.pos (p.pos + n) = ⟨a.ptr + p.pos, n⟩ := by
        unfold Arena.slice
        rw [min_eq_left (by omega : p.pos ≤ a.size), min_eq_left hn]
        congr 1; omega
      rw [hsl]
      have hamem : a ∈ p.arenas := List.mem_of_getLast? hlast
      have hhas : ∀ x, (⟨a.ptr + p.pos, n⟩ : Arena).Has x → a.Has x ∧ a.ptr + p.pos ≤ x := by
        intro x hx
        have h1 : a.ptr + p.pos ≤ x := hx.1
        have h2 : x < a.ptr + p.pos + n := hx.2
        exact ⟨⟨by omega, by omega⟩, h1⟩
      have cap : align ∣ max p.capacity p.size := by
        rcases max_choice p.capacity p.size with e | e <;> rw [e]
        · exact ih.cap
        · exact ih.sz
      refine ⟨ih.aligned, ih.disj, Nat.dvd_add ih.pos hr.1, cap, ih.sz, ?_, ?_, ?_, ?_, ?_⟩
      · intro h0; simp only at h0; rw [h0] at hamem; simp at hamem
      · intro b hb
        rcases List.mem_cons.1 hb with rfl | hb
        · rfl
        · exact ih.size b hb
      · intro b hb
        rcases List.mem_cons.1 hb with rfl | hb
        · exact Int.dvd_add (ih.aligned a hamem) (by exact_mod_cast ih.pos)
        · exact ih.baligned b hb
      · intro b hb
        rcases List.mem_cons.1 hb with rfl | hb
        · right
          refine ⟨a, hlast, ?_⟩
          intro x hx
          refine ⟨(hhas x hx).1, ?_⟩
          have h2 : x < a.ptr + p.pos + n := hx.2
          have : (n : Int) ≤ roundUp n align := by exact_mod_cast hr.2.1
          push_cast; omega
        · rcases ih.inside b hb with hh | ⟨c, hc, hi⟩
          · exact Or.inl hh
          · refine Or.inr ⟨c, hc, fun x hx => ⟨(hi x hx).1, ?_⟩⟩
            have := (hi x hx).2
            push_cast; omega
      · rw [List.pairwise_cons]
        refine ⟨?_, ih.bdisj⟩
        intro b hb x hx hbx
        obtain ⟨h1, h2⟩ := hhas x hx
        rcases ih.inside b hb with ⟨c, hc, hi⟩ | ⟨c, hc, hi⟩
        · have hd := ih.disj
          have hsp : p.arenas = p.arenas.dropLast ++ [a] := by
            have hne : p.arenas ≠ [] := List.ne_nil_of_mem hamem
            have := List.dropLast_concat_getLast hne
            rw [List.getLast?_eq_some_getLast hne] at hlast
            rw [Option.some.inj hlast] at this
            exact this.symm
          rw [hsp, List.pairwise_append] at hd
          exact hd.2.2 c hc a (by simp) x (hi x hbx) h1
        · rw [hlast] at hc
          cases hc
          have := (hi x hbx).2
          omega

/-- C52: after any history of allocations, resets and frees, provided the system allocator never returns memory
overlapping the arenas in use, all buffers handed out since the last reset or free have the requested size, are aligned,
lie inside a live arena, and are pairwise disjoint. -/
theorem C52_mempool {align : Nat} (ha : 1 ≤ align) {p : Pool} {bs : List (Nat × Arena)} (h : PoolReach align p bs) :
    (∀ b ∈ bs, b.2.size = b.1 ∧ (align : Int) ∣ b.2.ptr ∧ ∃ a ∈ p.arenas, ∀ x, b.2.Has x → a.Has x) ∧
    bs.Pairwise fun a b => ∀ x, a.2.Has x → ¬ b.2.Has x := by
  have hi := h.inv ha
  refine ⟨fun b hb => ⟨hi.size b hb, hi.baligned b hb, ?_⟩, hi.bdisj⟩
  rcases hi.inside b hb with ⟨c, hc, hi⟩ | ⟨c, hc, hi⟩
  · exact ⟨c, List.dropLast_subset _ hc, hi⟩
  · exact ⟨c, List.mem_of_getLast? hc, fun x hx => (hi x hx).1⟩

/-- C52: the arenas in use are themselves pairwise disjoint and aligned. -/
theorem C52_arenas {align : Nat} (ha : 1 ≤ align) {p : Pool} {bs : List (Nat × Arena)} (h : PoolReach align p bs) :
    (∀ a ∈ p.arenas, (align : Int) ∣ a.ptr) ∧ p.arenas.Pairwise fun a b => ∀ x, a.Has x → ¬ b.Has x :=
  ⟨(h.inv ha).aligned, (h.inv ha).disj⟩

example : (((Pool.free.alloc 16 1000 10).1.alloc 16 2001 20).1.reset 16 3001).alloc 16 0 10 =
    (⟨[⟨3008, 48⟩], 48, 0, 16⟩, ⟨3008, 10⟩) := by decide

example : ∃ p bs, PoolReach 16 p bs ∧ bs.length = 2 ∧ p.arenas.length = 2 := by
  refine ⟨_, _, .alloc (.alloc .new 10 1000 (by intro _ a ha; simp [Pool.free] at ha)) 20 2001 ?_, rfl, rfl⟩
  intro _ a ha x hx
  have : a = ⟨1008, 10⟩ := by
    simpa [Pool.alloc, Pool.free, Pool.noRoom, alignedAlloc, Arena.slice] using ha
  subst this
  have h1 := hx.2
  simp at h1
  omega

/-- The memory a workload needs: the sum of the sizes rounded up. -/
def loadSize (align : Nat) (ns : List Nat) : Nat := (ns.map fun n => roundUp n align).sum

/-- The state of the pool after `k` rounds of the same allocations, each followed by a reset. -/
def afterRounds (align : Nat) (orc : List Arena → Nat → Int) (ns : List Nat) (p : Pool) : Nat → Pool
  | 0 => p
  | k + 1 => (oneRound align orc ns (afterRounds align orc ns p k)).1

/-- From some round on the allocator is not asked any more. -/
def ReachesSteady (align : Nat) (orc : List Arena → Nat → Int) (ns : List Nat) (p : Pool) : Prop :=
  ∃ K, ∀ k ≥ K, (oneRound align orc ns (afterRounds align orc ns p k)).2 = 0

/-- A pool just after a reset, with the capacity `c > 0`. -/
structure JustReset (align c : Nat) (p : Pool) : Prop where
  arena : ∃ a, p.arenas = [a] ∧ a.size = c
  cap : p.capacity = c
  size : p.size = 0
  pos : p.pos = 0
  dvd : align ∣ c
  cpos : 0 < c

theorem noRoom_single {p : Pool} {a : Arena} (h : p.arenas.getLast? = some a) (n : Nat) :
    p.noRoom n = decide (a.size < p.pos + n) := by
  unfold Pool.noRoom; rw [h]; rfl

/-- Allocations that fit in the single arena ask for nothing. -/
theorem run_fits {align : Nat} (ha : 1 ≤ align) (orc : List Arena → Nat → Int) (a : Arena) :
    ∀ (ns : List Nat) (p : Pool), p.arenas = [a] → p.size = 0 → p.pos + loadSize align ns ≤ a.size →
    (runLoad align orc p ns).2 = 0 ∧ (runLoad align orc p ns).1.arenas = [a] ∧
    (runLoad align orc p ns).1.capacity = p.capacity ∧ (runLoad align orc p ns).1.size = 0 := by
  intro ns
  induction ns with
  | nil => intro p h1 h2 _; exact ⟨rfl, h1, rfl, h2⟩
  | cons n ns ih =>
    intro p h1 h2 h3
    have hr := roundUp_spec n ha
    simp only [loadSize, List.map_cons, List.sum_cons] at h3
    have hroom : p.noRoom n = false := by
      rw [noRoom_single (a := a) (by rw [h1]; rfl)]
      simp; omega
    have hst : (p.alloc align (orc p.arenas n) n).1 = ⟨[a], p.capacity, 0, p.pos + roundUp n align⟩ := by
      unfold Pool.alloc
      simp [hroom, h1, h2]
    have := ih ⟨[a], p.capacity, 0, p.pos + roundUp n align⟩ rfl rfl (by simp only [loadSize]; omega)
    simp only [runLoad, hst, hroom, Bool.false_eq_true, if_false, Nat.add_zero]
    exact this

/-- Once the last arena is full, every further allocation adds its size. -/
theorem run_over {align : Nat} (ha : 1 ≤ align) (orc : List Arena → Nat → Int) :
    ∀ (ns : List Nat) (p : Pool) (a : Arena), p.arenas.getLast? = some a → a.size ≤ p.pos →
    (runLoad align orc p ns).1.capacity = max p.capacity (p.size + loadSize align ns) ∨
      (ns = [] ∧ (runLoad align orc p ns).1.capacity = p.capacity) := by
  intro ns
  induction ns with
  | nil => intro p a _ _; right; exact ⟨rfl, rfl⟩
  | cons n ns ih =>
    intro p a h1 h2
    left
    have hr := roundUp_spec n ha
    by_cases hroom : p.noRoom n = true
    · have hst : (p.alloc align (orc p.arenas n) n).1 = ⟨p.arenas ++ [alignedAlloc align (orc p.arenas n) n],
          max p.capacity (p.size + roundUp n align), p.size + roundUp n align, roundUp n align⟩ := by
        unfold Pool.alloc
        simp [hroom]
      have := ih _ (alignedAlloc align (orc p.arenas n) n) (show (Pool.mk (p.arenas ++ [alignedAlloc align (orc p.arenas n) n])
          (max p.capacity (p.size + roundUp n align)) (p.size + roundUp n align) (roundUp n align)).arenas.getLast? = _ by simp)
          (by rw [(alignedAlloc_spec align ha _ n).2.1]; exact hr.2.1)
      simp only [runLoad, hst, loadSize, List.map_cons, List.sum_cons]
      rcases this with e | ⟨e1, e2⟩
      · rw [e]; simp only [loadSize]; omega
      · rw [e2]; subst e1; simp
    · have hn0 : n = 0 := by
        rw [noRoom_single h1] at hroom
        simp at hroom; omega
      subst hn0
      rw [roundUp_zero ha] at hr
      have hst : (p.alloc align (orc p.arenas 0) 0).1 = ⟨p.arenas, max p.capacity p.size, p.size, p.pos⟩ := by
        unfold Pool.alloc
        simp [hroom, roundUp_zero ha]
      have := ih ⟨p.arenas, max p.capacity p.size, p.size, p.pos⟩ a h1 h2
      simp only [runLoad, hst, loadSize, List.map_cons, List.sum_cons, roundUp_zero ha, Nat.zero_add]
      rcases this with e | ⟨e1, e2⟩
      · rw [e]; simp only [loadSize]; omega
      · rw [e2]; subst e1; simp

/-- Allocations never drop arenas. -/
theorem run_length {align : Nat} (orc : List Arena → Nat → Int) :
    ∀ (ns : List Nat) (p : Pool), p.arenas.length ≤ (runLoad align orc p ns).1.arenas.length := by
  intro ns
  induction ns with
  | nil => intro p; exact le_rfl
  | cons n ns ih =>
    intro p
    refine le_trans ?_ (ih _)
    unfold Pool.alloc
    simp only
    split_ifs <;> simp

/-- Allocations that do not all fit: the allocator is asked, a second arena appears, and the new capacity is the larger of
the old and what did not fit, which is less than the whole as soon as something nonempty did. -/
theorem run_overflow {align : Nat} (ha : 1 ≤ align) (orc : List Arena → Nat → Int) (a : Arena) (hd : align ∣ a.size) :
    ∀ (ns : List Nat) (p : Pool), p.arenas = [a] → p.size = 0 → align ∣ p.pos → p.pos ≤ a.size →
    a.size < p.pos + loadSize align ns →
    0 < (runLoad align orc p ns).2 ∧ 2 ≤ (runLoad align orc p ns).1.arenas.length ∧
    ∃ rest, rest ≤ loadSize align ns ∧ align ∣ rest ∧ (runLoad align orc p ns).1.capacity = max p.capacity rest ∧
      (rest = loadSize align ns ↔ ∀ n, ns.find? (fun n => decide (0 < n)) = some n → a.size < p.pos + n) := by
  intro ns
  induction ns with
  | nil => intro p _ _ _ h4 h5; simp [loadSize] at h5; omega
  | cons n ns ih =>
    intro p h1 h2 h3 h4 h5
    have hr := roundUp_spec n ha
    have hdT : align ∣ loadSize align (n :: ns) := by
      unfold loadSize
      apply List.dvd_sum
      intro x hx
      obtain ⟨m, _, rfl⟩ := List.mem_map.1 hx
      exact (roundUp_spec m ha).1
    have hT : loadSize align (n :: ns) = roundUp n align + loadSize align ns := by simp [loadSize]
    by_cases hroom : p.noRoom n = true
    · have hst : (p.alloc align (orc p.arenas n) n).1 = ⟨p.arenas ++ [alignedAlloc align (orc p.arenas n) n],
          max p.capacity (p.size + roundUp n align), p.size + roundUp n align, roundUp n align⟩ := by
        unfold Pool.alloc
        simp [hroom]
      have hover := run_over ha orc ns _ (alignedAlloc align (orc p.arenas n) n)
          (show (Pool.mk (p.arenas ++ [alignedAlloc align (orc p.arenas n) n])
          (max p.capacity (p.size + roundUp n align)) (p.size + roundUp n align) (roundUp n align)).arenas.getLast? = _ by simp)
          (by rw [(alignedAlloc_spec align ha _ n).2.1]; exact hr.2.1)
      have hlen := run_length (align := align) orc ns (Pool.mk (p.arenas ++ [alignedAlloc align (orc p.arenas n) n])
          (max p.capacity (p.size + roundUp n align)) (p.size + roundUp n align) (roundUp n align))
      rw [noRoom_single (a := a) (by rw [h1]; rfl)] at hroom
      have hroom' := of_decide_eq_true hroom
      have hn : 0 < n := by omega
      refine ⟨by simp [runLoad, noRoom_single (a := a) (show p.arenas.getLast? = some a by rw [h1]; rfl), hroom'], ?_,
        loadSize align (n :: ns), le_rfl, hdT, ?_, ?_⟩
      · simp only [runLoad, hst]
        simp [h1] at hlen
        rw [h1]; simpa using hlen
      · simp only [runLoad, hst]
        rcases hover with e | ⟨e1, e2⟩
        · rw [e, hT, h2]; simp only; omega
        · rw [e2, hT, e1, h2]; simp [loadSize]
      · simp [hn]; exact hroom'
    · have hroom' := hroom
      rw [noRoom_single (a := a) (by rw [h1]; rfl)] at hroom'
      have hfit : p.pos + n ≤ a.size := by simpa using hroom'
      have hfit2 : roundUp n align ≤ a.size - p.pos := roundUp_le_of_dvd ha (Nat.dvd_sub hd h3) (by omega)
      have hst : (p.alloc align (orc p.arenas n) n).1 = ⟨[a], p.capacity, 0, p.pos + roundUp n align⟩ := by
        unfold Pool.alloc
        simp [hroom, h1, h2]
      obtain ⟨i1, i2, rest, i3, i4, i5, i6⟩ := ih ⟨[a], p.capacity, 0, p.pos + roundUp n align⟩ rfl rfl
        (Nat.dvd_add h3 hr.1) (by simp only; omega) (by simp only; omega)
      simp only [runLoad, hst]
      refine ⟨by omega, i2, rest, by omega, i4, i5, ?_⟩
      by_cases hn : 0 < n
      · constructor
        · intro h; omega
        · intro h
          have := h n (by simp [hn])
          omega
      · have hn0 : n = 0 := by omega
        subst hn0
        rw [hT, roundUp_zero ha, Nat.zero_add, i6, roundUp_zero ha]
        simp

/-- The state after a reset of any reachable pool with nonzero capacity. -/
theorem reset_justReset {align : Nat} (ha : 1 ≤ align) (p : Pool) (raw : Int) (hd : align ∣ p.capacity)
    (hc : p.capacity ≠ 0) : JustReset align p.capacity (p.reset align raw) := by
  unfold Pool.reset
  rw [if_neg hc]
  split_ifs with h
  · exact ⟨⟨_, rfl, (alignedAlloc_spec align ha raw _).2.1⟩, rfl, rfl, rfl, hd, by omega⟩
  · refine ⟨?_, rfl, rfl, rfl, hd, by omega⟩
    unfold Pool.needsNew at h
    have h1 : p.arenas.length = 1 ∧ (p.arenas.headD ⟨0, 0⟩).size = p.capacity := by
      simpa [hc] using h
    obtain ⟨a, ha'⟩ := List.length_eq_one_iff.1 h1.1
    exact ⟨a, ha', by rw [ha'] at h1; simpa using h1.2⟩

/-- A workload that fits the capacity asks for nothing, and leaves the pool as it was. -/
theorem round_fits {align : Nat} (ha : 1 ≤ align) (orc : List Arena → Nat → Int) (ns : List Nat) {c : Nat} {p : Pool}
    (h : JustReset align c p) (hc : loadSize align ns ≤ c) :
    (oneRound align orc ns p).2 = 0 ∧ JustReset align c (oneRound align orc ns p).1 := by
  obtain ⟨a, h1, h2⟩ := h.arena
  obtain ⟨r1, r2, r3, r4⟩ := run_fits ha orc a ns p h1 h.size (by rw [h.pos, h2]; omega)
  have hcap : (runLoad align orc p ns).1.capacity = c := by rw [r3, h.cap]
  have hnew : (runLoad align orc p ns).1.needsNew = false := by
    unfold Pool.needsNew
    rw [r2, hcap]
    simp [h2]
  unfold oneRound
  refine ⟨by simp [r1, hnew], ?_⟩
  have := reset_justReset ha (runLoad align orc p ns).1 (orc (runLoad align orc p ns).1.arenas (runLoad align orc p ns).1.capacity)
    (by rw [hcap]; exact h.dvd) (by rw [hcap]; have := h.cpos; omega)
  rw [hcap] at this
  simp only [hcap]
  exact this

/-- A workload that does not fit asks, and the new capacity is the whole workload if not even its first nonempty allocation
fitted, and less than the workload otherwise. -/
theorem round_overflow {align : Nat} (ha : 1 ≤ align) (orc : List Arena → Nat → Int) (ns : List Nat) {c : Nat} {p : Pool}
    (h : JustReset align c p) (hc : c < loadSize align ns) :
    0 < (oneRound align orc ns p).2 ∧ ∃ c', JustReset align c' (oneRound align orc ns p).1 ∧ c ≤ c' ∧
      c' ≤ loadSize align ns ∧
      (c' = loadSize align ns ↔ ∀ n, ns.find? (fun n => decide (0 < n)) = some n → c < n) := by
  obtain ⟨a, h1, h2⟩ := h.arena
  obtain ⟨r1, r2, rest, r3, r4, r5, r6⟩ := run_overflow ha orc a (by rw [h2]; exact h.dvd) ns p h1 h.size
    (by rw [h.pos]; simp) (by rw [h.pos]; omega) (by rw [h.pos, h2]; omega)
  rw [h.cap] at r5
  rw [h.pos, h2] at r6
  simp only [Nat.zero_add] at r6
  have hdvd : align ∣ max c rest := by
    rcases max_choice c rest with e | e <;> rw [e]
    · exact h.dvd
    · exact r4
  have hj := reset_justReset ha (runLoad align orc p ns).1 (orc (runLoad align orc p ns).1.arenas (runLoad align orc p ns).1.capacity)
    (by rw [r5]; exact hdvd) (by rw [r5]; have := h.cpos; omega)
  unfold oneRound
  refine ⟨by simp only; omega, max c rest, ?_, by omega, by omega, ?_⟩
  · rw [r5] at hj
    simp only [r5]
    exact hj
  · rw [← r6]; omega

/-- C53, exactly: a pool that was reset to the capacity `c` reaches the steady state of a repeated workload if and only if
the workload fits, or not even its first nonempty allocation does. -/
theorem C53_exact {align : Nat} (ha : 1 ≤ align) (orc : List Arena → Nat → Int) (ns : List Nat) {c : Nat} {p : Pool}
    (h : JustReset align c p) :
    ReachesSteady align orc ns p ↔
      loadSize align ns ≤ c ∨ ∀ n, ns.find? (fun n => decide (0 < n)) = some n → c < n := by
  have good : ∀ (p' : Pool) (c' : Nat), JustReset align c' p' → loadSize align ns ≤ c' → ∀ k,
      JustReset align c' (afterRounds align orc ns p' k) := by
    intro p' c' h' hc k
    induction k with
    | zero => exact h'
    | succ k ih => exact (round_fits ha orc ns ih hc).2
  constructor
  · rintro ⟨K, hK⟩
    by_contra hcon
    push Not at hcon
    obtain ⟨hc, n, hn, hnc⟩ := hcon
    have : ∀ k, ∃ c', JustReset align c' (afterRounds align orc ns p k) ∧ c ≤ c' ∧ c' < loadSize align ns := by
      intro k
      induction k with
      | zero => exact ⟨c, h, le_rfl, hc⟩
      | succ k ih =>
        obtain ⟨c', i1, i2, i3⟩ := ih
        obtain ⟨_, c'', j1, j2, j3, j4⟩ := round_overflow ha orc ns i1 i3
        refine ⟨c'', j1, by omega, lt_of_le_of_ne j3 ?_⟩
        intro e
        have := j4.1 e n hn
        omega
    obtain ⟨c', i1, i2, i3⟩ := this K
    have := (round_overflow ha orc ns i1 i3).1
    have := hK K le_rfl
    omega
  · intro hor
    by_cases hc : loadSize align ns ≤ c
    · exact ⟨0, fun k _ => (round_fits ha orc ns (good p c h hc k) hc).1⟩
    · have hf := hor.resolve_left hc
      obtain ⟨_, c', j1, j2, j3, j4⟩ := round_overflow ha orc ns h (by omega)
      have e := j4.2 hf
      refine ⟨1, fun k hk => ?_⟩
      obtain ⟨k, rfl⟩ : ∃ j, k = j + 1 := ⟨k - 1, by omega⟩
      have hshift : ∀ j, afterRounds align orc ns p (j + 1) = afterRounds align orc ns (oneRound align orc ns p).1 j := by
        intro j
        induction j with
        | zero => rfl
        | succ j ih => rw [afterRounds, ih, afterRounds]
      rw [hshift]
      exact (round_fits ha orc ns (good _ c' j1 (by omega) k) (by omega)).1

/-- C53 for a new (or freed) pool: after the first round of any nonempty workload no more memory is requested. -/
theorem C53_new_partial {align : Nat} (ha : 1 ≤ align) (orc : List Arena → Nat → Int) (ns : List Nat)
    (h0 : 0 < loadSize align ns) : ∀ k ≥ 1, (oneRound align orc ns (afterRounds align orc ns Pool.free k)).2 = 0 := by
  have hdT : align ∣ loadSize align ns := by
    unfold loadSize
    apply List.dvd_sum
    intro x hx
    obtain ⟨m, _, rfl⟩ := List.mem_map.1 hx
    exact (roundUp_spec m ha).1
  have hcap : (runLoad align orc Pool.free ns).1.capacity = loadSize align ns := by
    cases ns with
    | nil => simp [loadSize] at h0
    | cons n ns =>
      have hst : (Pool.free.alloc align (orc Pool.free.arenas n) n).1 = ⟨[alignedAlloc align (orc [] n) n],
          roundUp n align, roundUp n align, roundUp n align⟩ := by
        simp [Pool.alloc, Pool.free, Pool.noRoom]
      have := run_over ha orc ns ⟨[alignedAlloc align (orc [] n) n], roundUp n align, roundUp n align, roundUp n align⟩
        (alignedAlloc align (orc [] n) n) rfl (by rw [(alignedAlloc_spec align ha _ n).2.1]; exact (roundUp_spec n ha).2.1)
      simp only [runLoad, hst]
      rcases this with e | ⟨e1, e2⟩
      · rw [e]; simp [loadSize]
      · rw [e2]; subst e1; simp [loadSize]
  have hj := reset_justReset ha (runLoad align orc Pool.free ns).1
    (orc (runLoad align orc Pool.free ns).1.arenas (runLoad align orc Pool.free ns).1.capacity)
    (by rw [hcap]; exact hdT) (by rw [hcap]; omega)
  rw [hcap] at hj
  have h1 : JustReset align (loadSize align ns) (afterRounds align orc ns Pool.free 1) := by
    simp only [afterRounds, oneRound, hcap]
    exact hj
  have : ∀ k, JustReset align (loadSize align ns) (afterRounds align orc ns Pool.free (k + 1)) := by
    intro k
    induction k with
    | zero => exact h1
    | succ k ih => exact (round_fits ha orc ns ih le_rfl).2
  intro k hk
  obtain ⟨k, rfl⟩ : ∃ j, k = j + 1 := ⟨k - 1, by omega⟩
  exact (round_fits ha orc ns (this k) le_rfl).1

/-- C53 fails: after the workload (10,20) and a reset, the workload (20,20) requests memory in every round for ever,
whatever addresses the allocator returns. -/
theorem C53_refuted (orc : List Arena → Nat → Int) :
    ¬ ReachesSteady 1 orc [20, 20] (oneRound 1 orc [10, 20] Pool.free).1 := by
  have hj : JustReset 1 30 (oneRound 1 orc [10, 20] Pool.free).1 := by
    have h : (runLoad 1 orc Pool.free [10, 20]).1.capacity = 30 := by
      simp [runLoad, Pool.alloc, Pool.free, Pool.noRoom, roundUp, (alignedAlloc_spec 1 le_rfl _ 10).2.1]
    have := reset_justReset (align := 1) le_rfl (runLoad 1 orc Pool.free [10, 20]).1
      (orc (runLoad 1 orc Pool.free [10, 20]).1.arenas 30) (by simp) (by rw [h]; simp)
    rw [h] at this
    simp only [oneRound, h]
    exact this
  rw [C53_exact le_rfl orc [20, 20] hj]
  simp [loadSize, roundUp]

example : (oneRound 16 (fun l n => 1000 * l.length + n) [10, 20] Pool.free).2 = 3 ∧
    (oneRound 16 (fun l n => 1000 * l.length + n) [10, 20]
      (afterRounds 16 (fun l n => 1000 * l.length + n) [10, 20] Pool.free 5)).2 = 0 := by decide

end Pixell
