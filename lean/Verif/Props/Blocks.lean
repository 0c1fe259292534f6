import Verif.Lemmas.Blocks
/-
C31 (block reduction and expansion), C07 (downgrading and upgrading maps) and C43 (Haar transform).
-/
namespace Pixell

/-! ## C31 -/

/-- C31.  Every array can be cut into consecutive blocks (a first one of length `off`, whole ones, a
shorter rest), and block_reduce applies `op` to exactly these blocks, in order; without `inclusive`
only to the whole ones. -/
theorem C31_reduce {α} (op : List α → α) (a : List α) (off b : Nat) (hb : 1 < b) (hoff : off ≤ a.length)
    (hne : a ≠ []) :
    ∃ P M T : List (List α), BlockShape off b P M T ∧ (P ++ M ++ T).flatten = a ∧
      blockReduce op a b off true = some ((P ++ M ++ T).map op) ∧
      (blockReduce op a b off false = if M = [] then none else some (M.map op)) := by
  obtain ⟨P, M, T, h, rfl, _⟩ := exists_shape a off b (by omega) hoff
  refine ⟨P, M, T, h, rfl, ?_, ?_⟩
  · rw [blockReduce_shape op off b P M T h hb true, if_pos rfl, if_neg]
    intro h'
    rw [h'] at hne; exact hne rfl
  · rw [blockReduce_shape op off b P M T h hb false]
    simp

/-- Blocks of one element are returned as they are. -/
theorem C31_unit {α} (op : List α → α) (a : List α) (off : Nat) (incl : Bool) :
    blockReduce op a 1 off incl = some a := by simp [blockReduce]

/-- The block means, weighted by the block lengths, add up to the total. -/
theorem C31_total {α} [AddCommGroup α] [Module ℚ α] (B : List (List α)) :
    (List.zipWith (fun (blk : List α) (m : α) => (blk.length : ℚ) • m) B (B.map mean)).sum = B.flatten.sum := by
  induction B with
  | nil => simp
  | cons b B ih =>
    rw [List.map_cons, List.zipWith_cons_cons, List.sum_cons, ih, length_smul_mean, List.flatten_cons, List.sum_append]

/-- block_expand repeats each value over its block, and block_reduce (mean) undoes it. -/
theorem C31_expand_reduce {α} [AddCommGroup α] [Module ℚ α] (r : List α) (off b osize : Nat) (hb : 1 < b)
    (hoff : off ≤ osize) (hne : r ≠ [])
    (hr : r.length = (if 0 < off then 1 else 0) + (osize - off) / b + (if 0 < (osize - off) % b then 1 else 0)) :
    ∃ e, blockExpand r b osize off true = some e ∧ e.length = osize ∧ blockReduce mean e b off true = some r ∧
      ∃ B : List (List α), e = (List.zipWith (fun (blk : List α) x => List.replicate blk.length x) B r).flatten ∧
        B.length = r.length := by
  obtain ⟨P, M, T, h, hfl, hM⟩ := exists_shape (List.replicate osize (0 : α)) off b (by omega) (by simpa using hoff)
  have hlen : (P ++ M ++ T).flatten.length = osize := by rw [hfl]; simp
  rw [List.length_replicate] at hM
  have hTlen : T.flatten.length = (osize - off) % b := by
    have h1 : (P ++ M ++ T).flatten.length = off + M.length * b + T.flatten.length := by
      simp only [List.flatten_append, List.length_append, h.pre_len, length_flatten_const M b h.mid]
    have := Nat.div_add_mod (osize - off) b
    rw [hM, Nat.mul_comm] at h1
    omega
  have hrl : r.length = (P ++ M ++ T).length := by
    rw [hr, List.length_append, List.length_append, hM]
    congr 1
    · congr 1
      rcases Nat.eq_zero_or_pos off with h0 | h0
      · rw [h.pre0 h0, if_neg (by omega)]; rfl
      · obtain ⟨p, rfl, _⟩ := h.pre1 h0
        rw [if_pos h0]; rfl
    · rw [← hTlen]
      rcases h.tail with rfl | ⟨t, rfl, ht, _⟩
      · simp
      · simp [ht]
  have he := blockExpand_shape off b P M T h (by omega) r hrl hne
  rw [hlen] at he
  refine ⟨_, he, ?_, ?_, P ++ M ++ T, rfl, hrl.symm⟩
  · rw [List.length_flatten, lengths_zipWith _ _ hrl, ← List.length_flatten, hlen]
  · -- the repeated blocks have the same shape
    obtain ⟨rP, rM, rT, rfl, hP', hM', hT'⟩ : ∃ rP rM rT, r = rP ++ rM ++ rT ∧ rP.length = P.length ∧
        rM.length = M.length ∧ rT.length = T.length := by
      simp only [List.length_append] at hrl
      refine ⟨r.take P.length, (r.drop P.length).take M.length, r.drop (P.length + M.length), ?_, ?_, ?_, ?_⟩
      · rw [List.append_assoc, ← List.drop_drop, List.take_append_drop, List.take_append_drop]
      · rw [List.length_take]; omega
      · rw [List.length_take, List.length_drop]; omega
      · rw [List.length_drop]; omega
    have hmean := map_mean_zipWith (P ++ M ++ T) (rP ++ rM ++ rT) hrl (h.nonempty (by omega))
    rw [List.zipWith_append (by simp [hP', hM']), List.zipWith_append hP'.symm] at hmean ⊢
    have hshape : BlockShape off b (List.zipWith (fun (blk : List α) x => List.replicate blk.length x) P rP)
        (List.zipWith (fun (blk : List α) x => List.replicate blk.length x) M rM)
        (List.zipWith (fun (blk : List α) x => List.replicate blk.length x) T rT) := by
      refine ⟨?_, ?_, ?_, ?_⟩
      · intro h0; rw [h.pre0 h0]; simp
      · intro h0
        obtain ⟨p, rfl, hp⟩ := h.pre1 h0
        obtain ⟨x, rfl⟩ := List.length_eq_one_iff.1 (by simpa using hP')
        exact ⟨_, rfl, by simpa using hp⟩
      · intro m hm
        have := lengths_zipWith M rM hM'
        have hmem := List.mem_map_of_mem (f := List.length) hm
        rw [this] at hmem
        obtain ⟨m', hm', he'⟩ := List.mem_map.1 hmem
        rw [← he', h.mid m' hm']
      · rcases h.tail with rfl | ⟨t, rfl, ht1, ht2⟩
        · left; simp
        · obtain ⟨x, rfl⟩ := List.length_eq_one_iff.1 (by simpa using hT')
          right
          exact ⟨_, rfl, by simpa using ht1, by simpa using ht2⟩
    rw [blockReduce_shape mean off b _ _ _ hshape hb true, if_pos rfl, if_neg, hmean]
    intro h0
    apply hne
    rw [← hmean, h0]; rfl

/-- Reducing, expanding and reducing again gives the first reduction: expansion keeps the block means. -/
theorem C31_idempotent {α} [AddCommGroup α] [Module ℚ α] (a : List α) (off b : Nat) (hb : 1 < b)
    (hoff : off ≤ a.length) (hne : a ≠ []) :
    ∃ r e, blockReduce mean a b off true = some r ∧ blockExpand r b a.length off true = some e ∧
      e.length = a.length ∧ blockReduce mean e b off true = some r := by
  obtain ⟨P, M, T, h, hfl, hM⟩ := exists_shape a off b (by omega) hoff
  have hPMT : P ++ M ++ T ≠ [] := by intro h'; rw [h'] at hfl; exact hne hfl.symm
  have hr : blockReduce mean a b off true = some ((P ++ M ++ T).map mean) := by
    conv_lhs => rw [← hfl]
    rw [blockReduce_shape mean off b P M T h hb true, if_pos rfl, if_neg hPMT]
  have hTlen : T.flatten.length = (a.length - off) % b := by
    have h1 : (P ++ M ++ T).flatten.length = off + M.length * b + T.flatten.length := by
      simp only [List.flatten_append, List.length_append, h.pre_len, length_flatten_const M b h.mid]
    have := Nat.div_add_mod (a.length - off) b
    rw [hM, Nat.mul_comm, hfl] at h1
    omega
  obtain ⟨e, h1, h2, h3, _⟩ := C31_expand_reduce ((P ++ M ++ T).map mean) off b a.length hb hoff
    (by simpa using hPMT) (by
      rw [List.length_map, List.length_append, List.length_append, hM]
      congr 1
      · congr 1
        rcases Nat.eq_zero_or_pos off with h0 | h0
        · rw [h.pre0 h0, if_neg (by omega)]; rfl
        · obtain ⟨p, rfl, _⟩ := h.pre1 h0
          rw [if_pos h0]; rfl
      · rw [← hTlen]
        rcases h.tail with rfl | ⟨t, rfl, ht, _⟩
        · simp
        · simp [ht])
  exact ⟨_, e, hr, h1, h2, h3⟩

/-- If the offset exceeds the axis, elements are counted twice (here the single element appears in
both the first and the last block). -/
theorem C31_large_offset_refuted : blockReduce (mean (α := ℚ)) [3] 8 5 true = some [3, 3] := by
  decide +kernel

/-- resample: downsample_bin undoes upsample_bin. -/
theorem C31_bin_resample {α} [AddCommGroup α] [Module ℚ α] (d : List α) (step : Nat) (hs : 0 < step) :
    downsampleBin (upsampleBin d step) step = d := by
  have e : upsampleBin d step = (d.map (List.replicate step)).flatten := by
    unfold upsampleBin npRepeat
    rw [List.flatMap_def]
  have hl : (upsampleBin d step).length = d.length * step := by
    rw [e, length_flatten_const _ step (by simp)]; simp
  have hc := chunks_flatten_eq step (d.map (List.replicate step)) (by simp)
  unfold downsampleBin
  rw [hl, Nat.mul_div_cancel _ hs, List.take_of_length_le (by rw [hl]), e]
  rw [List.length_map] at hc
  rw [hc, List.map_map]
  conv_rhs => rw [← List.map_id d]
  apply List.map_congr_left
  intro x _
  exact mean_replicate step hs x

/-- The bin averages of downsample_bin keep the total of the covered samples. -/
theorem C31_bin_total {α} [AddCommGroup α] [Module ℚ α] (d : List α) (step : Nat) (_hs : 0 < step) :
    (step : ℚ) • (downsampleBin d step).sum = (d.take (d.length / step * step)).sum := by
  unfold downsampleBin
  obtain ⟨h1, _, h3⟩ := chunks_spec step (d.length / step) (d.take (d.length / step * step)) (by
    rw [List.length_take]; exact Nat.min_eq_left (Nat.div_mul_le_self _ _))
  conv_rhs => rw [← h1]
  generalize chunks step (d.length / step) (d.take (d.length / step * step)) = B at h3
  induction B with
  | nil => simp
  | cons b B ih =>
    rw [List.map_cons, List.sum_cons, smul_add, ih (fun m hm => h3 m (List.mem_cons_of_mem _ hm)),
      List.flatten_cons, List.sum_append, ← length_smul_mean b, h3 b List.mem_cons_self]

example : blockReduce (mean (α := ℚ)) [1, 2, 3, 4, 5, 6] 2 1 true = some [1, 5/2, 9/2, 6] := by decide +kernel
example : blockExpand (α := ℚ) [1, 5/2, 9/2, 6] 2 6 1 true = some [1, 5/2, 5/2, 9/2, 9/2, 6] := by decide +kernel

/-! ## C07 -/

/-- C07.  Without offset each output pixel is the average of its `f` input pixels and only the
incomplete tail is dropped. -/
theorem C07_downgrade {α} [AddCommGroup α] [Module ℚ α] (a : List α) (f : Nat) (hf : 0 < f) (hn : f ≤ a.length) :
    ∃ r, downgradeData a f 0 false = some r ∧ r.length = a.length / f ∧
      ∀ i, (h : i < r.length) → r[i] = ((f : ℚ)⁻¹) • ((a.drop (i * f)).take f).sum := by
  by_cases h1 : f = 1
  · subst h1
    refine ⟨a, by simp [downgradeData, blockReduce], by simp, ?_⟩
    intro i h
    simp only [Nat.cast_one, inv_one, one_smul, Nat.mul_one]
    rw [List.drop_eq_getElem_cons h, List.take_succ_cons]
    simp
  · obtain ⟨P, M, T, h, hfl, hM⟩ := exists_shape a 0 f hf (by omega)
    rw [Nat.sub_zero] at hM
    have hP := h.pre0 rfl
    have hMne : M ≠ [] := by
      intro h0
      rw [h0] at hM
      have := Nat.div_pos hn hf
      simp at hM; omega
    have hr : downgradeData a f 0 false = some (M.map mean) := by
      unfold downgradeData
      conv_lhs => rw [← hfl]
      rw [blockReduce_shape mean 0 f P M T h (by omega) false]
      simp [hMne]
    refine ⟨_, hr, by simp [hM], ?_⟩
    intro i hi
    rw [List.length_map] at hi
    rw [List.getElem_map]
    -- the i-th block is the i-th stretch of a
    have hblk : M[i] = (a.drop (i * f)).take f := by
      have hc := chunks_flatten_eq f M h.mid
      have : M[i] = (M.flatten.drop (i * f)).take f := by
        conv_lhs => rw [List.getElem_of_eq hc.symm hi]
        simp [chunks]
      rw [this, ← hfl, hP, List.nil_append, List.flatten_append, List.drop_append_of_le_length, List.take_append_of_le_length]
      · rw [List.length_drop, length_flatten_const M f h.mid]
        have : (i + 1) * f ≤ M.length * f := Nat.mul_le_mul_right _ hi
        rw [Nat.add_mul] at this; omega
      · rw [length_flatten_const M f h.mid]; exact Nat.mul_le_mul_right _ hi.le
    rw [mean, h.mid _ (List.getElem_mem hi), hblk]

/-- Maps smaller than the factor cannot be downgraded (the call raises). -/
theorem C07_too_small {α} [AddCommGroup α] [Module ℚ α] (a : List α) (f : Nat) (hf : 1 < f) (hn : a.length < f) :
    downgradeData a f 0 false = none := by
  obtain ⟨P, M, T, h, hfl, hM⟩ := exists_shape a 0 f (by omega) (by omega)
  have hM0 : M = [] := by
    apply List.eq_nil_of_length_eq_zero
    rw [hM]; exact Nat.div_eq_of_lt (by omega)
  unfold downgradeData
  conv_lhs => rw [← hfl]
  rw [blockReduce_shape mean 0 f P M T h hf false]
  simp [hM0]

/-- Downgrading undoes upgrading. -/
theorem C07_roundtrip {α} [AddCommGroup α] [Module ℚ α] (m : List α) (f : Nat) (hf : 0 < f) (hm : m ≠ []) :
    ∃ u, upgradeData m f 0 none false = some u ∧ u.length = m.length * f ∧ downgradeData u f 0 false = some m := by
  have hu : upgradeData m f 0 none false = some (npRepeat f m) := by
    unfold upgradeData blockExpand upgradeSize
    simp only [Option.getD_none, Nat.lt_irrefl, false_and, if_false, Nat.sub_zero, Nat.add_zero, Bool.false_eq_true]
    have : Int.fdiv (((m.length * f : Nat) : Int) - (0:Nat)) f = m.length := by
      have := fdiv_block m.length f 0 hf
      simpa using this
    rw [this]
    simp
  have e : npRepeat f m = (m.map (List.replicate f)).flatten := by
    unfold npRepeat; rw [List.flatMap_def]
  refine ⟨_, hu, ?_, ?_⟩
  · rw [e, length_flatten_const _ f (by simp)]; simp
  · by_cases h1 : f = 1
    · subst h1
      simp only [downgradeData, blockReduce, if_true, npRepeat]
      rw [show List.replicate 1 = fun x : α => [x] from rfl, List.flatMap_singleton']
    · have hshape : BlockShape 0 f [] (m.map (List.replicate f)) ([] : List (List α)) :=
        ⟨fun _ => rfl, fun h => by omega, by simp, Or.inl rfl⟩
      have := blockReduce_shape (mean (α := α)) 0 f _ _ _ hshape (by omega) false
      simp only [List.nil_append, List.append_nil] at this
      rw [downgradeData, e, this]
      simp only [Bool.false_eq_true, if_false, List.map_eq_nil_iff, hm, List.map_map]
      congr 1
      conv_rhs => rw [← List.map_id m]
      apply List.map_congr_left
      intro x _
      exact mean_replicate f hf x

/-- With an offset, too, downgrading undoes upgrading: without partial blocks the first `off` output pixels are zero;
with an inclusive first block they repeat the first input pixel. -/
theorem C07_roundtrip_offset {α} [AddCommGroup α] [Module ℚ α] (m : List α) (f off : Nat) (hf : 1 < f) (hm : m ≠ []) :
    (∃ u, upgradeData m f off none false = some u ∧ u.length = m.length * f + off ∧ downgradeData u f off false = some m) ∧
    (0 < off → ∃ u, upgradeData m f off none true = some u ∧ u.length = (m.length - 1) * f + off ∧ downgradeData u f off true = some m) := by
  have hmap : ∀ l : List α, (l.map (List.replicate f)).map mean = l := by
    intro l
    rw [List.map_map]
    conv_rhs => rw [← List.map_id l]
    apply List.map_congr_left
    intro x _
    exact mean_replicate f (by omega) x
  have hrep : ∀ l : List α, npRepeat f l = (l.map (List.replicate f)).flatten := by
    intro l; unfold npRepeat; rw [List.flatMap_def]
  have hlen : ∀ l : List α, (npRepeat f l).length = l.length * f := by
    intro l; rw [hrep, length_flatten_const _ f (by simp)]; simp
  constructor
  · have hu : upgradeData m f off none false = some (List.replicate off 0 ++ npRepeat f m) := by
      unfold upgradeData blockExpand upgradeSize
      simp only [Option.getD_none, and_false, if_false, Nat.sub_zero, Bool.false_eq_true]
      have : Int.fdiv (((m.length * f + off : Nat) : Int) - (off : Nat)) f = m.length := by
        have := fdiv_block m.length f 0 (by omega)
        rw [Nat.add_zero] at this
        rw [← this]; congr 1; push_cast; ring
      rw [this]
      simp
    refine ⟨_, hu, by simp [hlen]; omega, ?_⟩
    have hshape : BlockShape off f (if off = 0 then [] else [List.replicate off (0 : α)]) (m.map (List.replicate f)) [] := by
      refine ⟨fun h => if_pos h, fun h => ⟨_, if_neg (by omega), by simp⟩, by simp, Or.inl rfl⟩
    have := blockReduce_shape (mean (α := α)) off f _ _ _ hshape hf false
    have e : ((if off = 0 then [] else [List.replicate off (0 : α)]) ++ m.map (List.replicate f) ++ []).flatten =
        List.replicate off 0 ++ npRepeat f m := by
      rw [hrep]
      by_cases h0 : off = 0 <;> simp [h0]
    rw [e] at this
    rw [downgradeData, this]
    simp only [Bool.false_eq_true, if_false, List.map_eq_nil_iff, hm, hmap]
  · intro hoff
    obtain ⟨x, l, rfl⟩ := List.exists_cons_of_ne_nil hm
    have hu : upgradeData (x :: l) f off none true = some (List.replicate off x ++ npRepeat f l) := by
      unfold upgradeData blockExpand upgradeSize
      simp only [Option.getD_none, hoff, and_self, if_true, List.length_cons, Nat.add_sub_cancel]
      have : Int.fdiv (((l.length * f + off : Nat) : Int) - (off : Nat)) f = l.length := by
        have := fdiv_block l.length f 0 (by omega)
        rw [Nat.add_zero] at this
        rw [← this]; congr 1; push_cast; ring
      rw [this]
      have hsp : npSplit3 (x :: l) 1 (1 + (l.length : Int)) = ([x], l, []) := by
        have := npSplit3_append [x] l [] 1 (1 + l.length) rfl rfl
        simpa using this
      rw [hsp]
      unfold concatParts
      by_cases hl : l = []
      · subst hl; simp [npRepeat]
      · simp [hl, npRepeat]
    refine ⟨_, hu, by simp [hlen]; omega, ?_⟩
    have hshape : BlockShape off f [List.replicate off x] (l.map (List.replicate f)) [] :=
      ⟨fun h => by omega, fun _ => ⟨_, rfl, by simp⟩, by simp, Or.inl rfl⟩
    have := blockReduce_shape (mean (α := α)) off f _ _ _ hshape hf true
    have e : ([List.replicate off x] ++ l.map (List.replicate f) ++ []).flatten = List.replicate off x ++ npRepeat f l := by
      rw [hrep]; simp
    rw [e] at this
    rw [downgradeData, this, if_pos rfl, if_neg (by simp)]
    simp only [List.append_nil, List.map_append, List.map_cons, List.map_nil, hmap, mean_replicate off hoff x, List.singleton_append]

example : upgradeData (α := ℚ) [1, 2, 3] 2 1 none true = some [1, 2, 2, 3, 3] := by decide +kernel

/-- The total is divided by exactly `f` when `f` divides the length. -/
theorem C07_flux {α} [AddCommGroup α] [Module ℚ α] (a r : List α) (f : Nat) (hf : 0 < f) (hd : f ∣ a.length)
    (h : downgradeData a f 0 false = some r) : (f : ℚ) • r.sum = a.sum := by
  by_cases h1 : f = 1
  · subst h1
    simp [downgradeData, blockReduce] at h
    simp [h]
  · obtain ⟨P, M, T, hs, hfl, hM⟩ := exists_shape a 0 f hf (by omega)
    have hP := hs.pre0 rfl
    have hT : T = [] := by
      rcases hs.tail with h0 | ⟨t, rfl, ht1, ht2⟩
      · exact h0
      · exfalso
        have h2 : (P ++ M ++ [t]).flatten.length = M.length * f + t.length := by
          simp [hP, length_flatten_const M f hs.mid]
        rw [hfl] at h2
        obtain ⟨q, hq⟩ := hd
        rw [h2] at hq
        have : (M.length * f + t.length) % f = t.length := by
          rw [Nat.mul_comm, Nat.mul_add_mod, Nat.mod_eq_of_lt ht2]
        rw [hq, Nat.mul_mod_right] at this
        omega
    subst hT
    subst hP
    simp only [List.nil_append, List.append_nil] at hfl
    have hb := blockReduce_shape (mean (α := α)) 0 f [] M [] hs (by omega) false
    simp only [List.nil_append, List.append_nil, hfl, Bool.false_eq_true, if_false] at hb
    rw [downgradeData, hb] at h
    have hmid := hs.mid
    split at h
    · simp at h
    · simp only [Option.some.injEq] at h
      subst h
      rw [← hfl]
      clear hb hs hM hfl
      rename_i hh
      clear hh
      induction M with
      | nil => simp
      | cons b B ih =>
        rw [List.map_cons, List.sum_cons, smul_add, ih (fun m hm => hmid m (List.mem_cons_of_mem _ hm)),
          List.flatten_cons, List.sum_append, ← length_smul_mean b, hmid b List.mem_cons_self]

/-- Geometry: the left edge of output pixel `i` (counted from the first whole block) is the left edge
of input pixel `off + i*f`, so the output pixel covers exactly the input pixels of its block.  With an
inclusive partial first block the whole blocks start at output pixel 1. -/
theorem C07_geometry (w : Axis) (f off : Nat) (hf : 0 < f) (incl : Bool) (i : ℚ) :
    (downgradeWcs w f off incl).pix2sky (i + (if 0 < off ∧ incl then 1 else 0) - 1/2)
      = w.pix2sky (off + i * f - 1/2) := by
  have hf' : (f : ℚ) ≠ 0 := by exact_mod_cast hf.ne'
  unfold downgradeWcs sliceWcs Axis.pix2sky
  have : 0 < (f : Int) := by omega
  simp only [this, if_true]
  generalize (if 0 < off ∧ incl = true then (1:ℚ) else 0) = e
  push_cast
  field_simp
  ring

/-- The upgraded geometry undoes the downgraded one. -/
theorem C07_geometry_roundtrip (w : Axis) (f off : Nat) (hf : 0 < f) (incl : Bool) :
    upgradeWcs (downgradeWcs w f off incl) f off incl = w := by
  have hf' : (f : ℚ) ≠ 0 := by exact_mod_cast hf.ne'
  obtain ⟨a, b, c⟩ := w
  have : 0 < (f : Int) := by omega
  unfold upgradeWcs downgradeWcs sliceWcs
  simp only [this, if_true]
  generalize (if 0 < off ∧ incl = true then (1:ℚ) else 0) = e
  simp only [Axis.mk.injEq, true_and]
  push_cast
  constructor
  · field_simp
  · field_simp; ring

/-- Geometry-only downgrading agrees with downgrading the map, in size and position. -/
theorem C07_geometry_agrees {α} [AddCommGroup α] [Module ℚ α] (a : List α) (w : Axis) (f : Nat) (hf : 0 < f) (hn : f ≤ a.length) :
    ∃ r, downgradeData a f 0 false = some r ∧ downgradeGeometry a.length w f = (r.length, downgradeWcs w f 0 false) := by
  obtain ⟨r, h1, h2, _⟩ := C07_downgrade a f hf hn
  refine ⟨r, h1, ?_⟩
  rw [h2]
  suffices h : (downgradeGeometry a.length w f).2 = downgradeWcs w f 0 false from Prod.ext rfl h
  have hf' : (f : ℚ) ≠ 0 := by exact_mod_cast hf.ne'
  have : 0 < (f : Int) := by omega
  unfold downgradeGeometry downgradeWcs sliceWcs scaleWcs
  simp only [this, if_true, Axis.mk.injEq, true_and]
  push_cast
  constructor
  · field_simp
  · simp; field_simp

example : downgradeData (α := ℚ) [1, 3, 5, 7, 9] 2 0 false = some [2, 6] := by decide +kernel

/-! ## C43 -/

theorem downgradeOffset_lt (w : Axis) (f : Nat) (hf : 0 < f) (ref : Option ℚ) : downgradeOffset w f ref < f := by
  unfold downgradeOffset
  cases ref with
  | none => exact hf
  | some r =>
    simp only
    have h1 := Int.emod_lt_of_pos (rint (w.sky2pix r)) (show (0:Int) < f by omega)
    have h2 := Int.emod_nonneg (rint (w.sky2pix r)) (show (f:Int) ≠ 0 by omega)
    omega

theorem zipWith_add_sub {α} [AddCommGroup α] (a b : List α) (h : a.length = b.length) :
    List.zipWith (fun x y => x + y) (List.zipWith (fun x y => x - y) a b) b = a := by
  induction a generalizing b with
  | nil => simp
  | cons x a ih =>
    cases b with
    | nil => simp at h
    | cons y b => simp at h ⊢; exact ih b h

/-- One level succeeds on any non-empty map, and gives a non-empty coarse map. -/
theorem haar_level {α} [AddCommGroup α] [Module ℚ α] (a : List α) (off : Nat) (hoff : off < 2) (hne : a ≠ []) :
    ∃ d up, downgradeData a 2 off true = some d ∧ d ≠ [] ∧ upgradeData d 2 off (some a.length) true = some up ∧
      up.length = a.length := by
  have hpos := List.length_pos_iff.2 hne
  obtain ⟨r, e, h1, h2, h3, _⟩ := C31_idempotent a off 2 (by omega) (by omega) hne
  refine ⟨r, e, h1, ?_, h2, h3⟩
  rintro rfl
  have : e = [] ∨ blockExpand ([] : List α) 2 a.length off true = none := by
    right
    simp [blockExpand, npSplit3, concatParts]
  rcases this with h | h
  · rw [h] at h3; simp at h3; omega
  · rw [h] at h2; simp at h2

theorem haarBackward_snoc {α} [AddCommGroup α] (ref : Option ℚ) (ws : List (Map1 α)) (hne : ws ≠ []) (m : Map1 α) :
    haarBackward ref (ws ++ [m]) = (haarBackward ref ws).bind fun om =>
      (upgradeData om 2 (downgradeOffset m.wcs 2 ref) (some m.data.length) true).bind fun up =>
        zipOp (fun x y => x + y) m.data up := by
  cases ws with
  | nil => exact absurd rfl hne
  | cons w ws =>
    simp only [List.cons_append, haarBackward, List.foldlM_append]
    simp only [List.foldlM_cons, List.foldlM_nil]
    cases List.foldlM (m := Option) _ w.data ws with
    | none => rfl
    | some om =>
      simp only [Option.bind_eq_bind, Option.bind_some]
      cases upgradeData om 2 (downgradeOffset m.wcs 2 ref) (some m.data.length) true with
      | none => rfl
      | some up =>
        simp only [Option.bind_some]
        cases zipOp (fun x y => x + y) m.data up <;> rfl

/-- C43.  For every non-empty map, any number of levels, any reference point (or none): the transform
succeeds, has `n+1` components, and transforming back gives the map. -/
theorem C43_roundtrip {α} [AddCommGroup α] [Module ℚ α] (ref : Option ℚ) (n : Nat) (m : Map1 α) (hne : m.data ≠ []) :
    ∃ ws, haarForward ref n m = some ws ∧ ws.length = n + 1 ∧ haarBackward ref ws = some m.data := by
  induction n generalizing m with
  | zero => exact ⟨[m], rfl, rfl, rfl⟩
  | succ n ih =>
    have hoff := downgradeOffset_lt m.wcs 2 (by omega) ref
    obtain ⟨d, up, h1, h2, h3, h4⟩ := haar_level m.data _ hoff hne
    obtain ⟨ws, e1, e2, e3⟩ := ih ⟨d, downgradeWcs m.wcs 2 (downgradeOffset m.wcs 2 ref) true⟩ h2
    have hz : zipOp (fun x y => x - y) m.data up = some (List.zipWith (fun x y => x - y) m.data up) := by
      unfold zipOp; rw [if_pos h4.symm]
    refine ⟨ws ++ [⟨List.zipWith (fun x y => x - y) m.data up, m.wcs⟩], ?_, by simp [e2], ?_⟩
    · simp only [haarForward, h1, h3, hz, e1, Option.bind_eq_bind, Option.bind_some]
      rfl
    · have hl : (List.zipWith (fun x y => x - y) m.data up).length = m.data.length := by
        rw [List.length_zipWith, h4, Nat.min_self]
      rw [haarBackward_snoc ref ws (by rintro rfl; simp at e2), e3]
      simp only [Option.bind_some, hl, h3]
      unfold zipOp
      rw [if_pos (by rw [hl, h4]), zipWith_add_sub _ _ h4.symm]

/-- An empty map makes the transform raise as soon as there is a level. -/
theorem C43_empty {α} [AddCommGroup α] [Module ℚ α] (ref : Option ℚ) (n : Nat) (w : Axis) :
    haarForward (α := α) ref (n + 1) ⟨[], w⟩ = none := by
  have : downgradeData ([] : List α) 2 (downgradeOffset w 2 ref) true = none := by
    simp [downgradeData, blockReduce, npSplit3, concatParts]
  simp only [haarForward, this, Option.bind_eq_bind, Option.bind_none]

example : (haarForward (α := ℚ) (some 0) 2 ⟨[1, 3, 5, 7, 9], ⟨0, 1, 2⟩⟩).map (fun l => l.map Map1.data)
    = some [[1, 6], [0, -2, 2], [0, -1, 1, -1, 1]] := by decide +kernel

end Pixell
