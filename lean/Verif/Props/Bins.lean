import Verif.Lemmas.Bins

/-
C29, C30: binning.
-/
namespace Pixell

/-- Bins that follow each other without gaps and cover `[a,b)`. -/
def BinsCover (bins : List (Nat × Nat)) (a b : Nat) : Prop :=
  (bins.head?.map (·.1)) = some a ∧ (bins.getLast?.map (·.2)) = some b ∧
  (∀ i x y, bins[i]? = some x → bins[i + 1]? = some y → x.2 = y.1) ∧ ∀ x ∈ bins, x.1 ≤ x.2

instance (bins : List (Nat × Nat)) : Decidable (∀ x ∈ bins, x.1 ≤ x.2) := inferInstance

theorem covers_of_edges (e : List Nat) (a b : Nat) (h2 : 2 ≤ e.length) (ha : e.head? = some a) (hb : e.getLast? = some b)
    (hs : Steps (fun x y => x ≤ y) e) : BinsCover (edges2bins e) a b := by
  refine ⟨?_, ?_, ?_, edges2bins_steps hs⟩
  · rw [List.head?_eq_getElem?] at ha ⊢
    rw [edges2bins_get e 0 (by omega)]
    rw [List.getElem?_eq_getElem (by omega)] at ha
    simpa using ha
  · rw [List.getLast?_eq_getElem?] at hb ⊢
    rw [edges2bins_length, edges2bins_get e (e.length - 1 - 1) (by omega)]
    rw [List.getElem?_eq_getElem (by omega)] at hb
    simp only [Option.some.injEq] at hb
    simp only [Option.map_some, Option.some.injEq]
    rw [← hb]
    congr 1; omega
  · intro i x y hx hy
    have hlen : i + 1 < (edges2bins e).length := (List.getElem?_eq_some_iff.1 hy).1
    rw [edges2bins_length] at hlen
    rw [edges2bins_get e i (by omega)] at hx
    rw [edges2bins_get e (i + 1) (by omega)] at hy
    cases hx; cases hy; rfl

theorem covers_tail {x y : Nat × Nat} {bins : List (Nat × Nat)} {a b : Nat} (h : BinsCover (x :: y :: bins) a b) :
    x.1 = a ∧ x.1 ≤ x.2 ∧ BinsCover (y :: bins) x.2 b := by
  obtain ⟨h1, h2, h3, h4⟩ := h
  have hxy := h3 0 x y rfl rfl
  exact ⟨by simpa using h1, h4 x (by simp), by simp [hxy], by simpa using h2,
    fun i u v hu hv => h3 (i + 1) u v (by simpa using hu) (by simpa using hv), fun z hz => h4 z (by simp [hz])⟩

theorem covers_le {bins : List (Nat × Nat)} {a b : Nat} (h : BinsCover bins a b) : a ≤ b ∧ ∀ x ∈ bins, x.2 ≤ b := by
  induction bins generalizing a with
  | nil => simp [BinsCover] at h
  | cons x bins ih =>
    cases bins with
    | nil =>
      obtain ⟨h1, h2, _, h4⟩ := h
      have e1 : x.1 = a := by simpa using h1
      have e2 : x.2 = b := by simpa using h2
      have := h4 x (by simp)
      exact ⟨by omega, by simp [e2]⟩
    | cons y bins =>
      obtain ⟨t1, t2, t3⟩ := covers_tail h
      obtain ⟨i1, i2⟩ := ih t3
      refine ⟨by omega, fun z hz => ?_⟩
      rcases List.mem_cons.1 hz with rfl | hz
      · exact i1
      · exact i2 z hz

/-- Every sample lies in exactly one of the bins that cover `[a,b)`: the positions of all bins in order are
`a, a+1, …, b-1`. -/
theorem covers_positions (bins : List (Nat × Nat)) (a b : Nat) (h : BinsCover bins a b) :
    bins.flatMap (fun x => List.range' x.1 (x.2 - x.1)) = List.range' a (b - a) := by
  induction bins generalizing a with
  | nil => simp [BinsCover] at h
  | cons x bins ih =>
    cases bins with
    | nil =>
      obtain ⟨h1, h2, _, _⟩ := h
      have e1 : x.1 = a := by simpa using h1
      have e2 : x.2 = b := by simpa using h2
      simp [e1, e2]
    | cons y bins =>
      obtain ⟨t1, t2, t3⟩ := covers_tail h
      have hb := (covers_le t3).1
      rw [List.flatMap_cons, ih x.2 t3, t1, show b - a = (x.2 - a) + (b - x.2) by omega, ← List.range'_append]
      congr 2; omega

/-- C29: linbin(n, nbin) gives `nbin` bins covering exactly `[0,n)`, whose sizes differ by at most one. -/
theorem C29_linbin (n nbin : Nat) (h : 0 < nbin) :
    (linbinN n nbin).length = nbin ∧ BinsCover (linbinN n nbin) 0 n ∧
    ∀ b ∈ linbinN n nbin, n / nbin ≤ b.2 - b.1 ∧ b.2 - b.1 ≤ n / nbin + 1 := by
  have hst : Steps (fun x y => x + n / nbin ≤ y ∧ y ≤ x + n / nbin + 1)
      ((List.range (nbin + 1)).map fun k => k * n / nbin) := by
    rw [List.range_eq_range']
    apply Steps_map_range'
    intro k _ _
    have hdm := Nat.div_add_mod n nbin
    have hlt := Nat.mod_lt n h
    rw [show (k + 1) * n = k * n + n by ring]
    constructor
    · rw [← Nat.add_mul_div_left _ _ h]
      exact Nat.div_le_div_right (by omega)
    · rw [show k * n / nbin + n / nbin + 1 = k * n / nbin + (n / nbin + 1) by ring, ← Nat.add_mul_div_left _ _ h]
      exact Nat.div_le_div_right (by rw [Nat.mul_add]; omega)
  refine ⟨by simp [linbinN, edges2bins_length], ?_, ?_⟩
  · apply covers_of_edges
    · simp; omega
    · simp [List.range_succ_eq_map]
    · rw [List.range_succ]
      simp [Nat.mul_div_cancel_left _ h]
    · exact Steps_mono (fun a b hab => le_trans (Nat.le_add_right _ _) hab.1) hst
  · intro b hb
    have := edges2bins_steps hst b hb
    generalize n / nbin = q at *
    omega

example : linbinN 10 4 = [(0, 2), (2, 5), (5, 7), (7, 10)] := by decide

/-- C29: linbin(n, bsize=s) gives consecutive bins of exactly that size, starting at 0 and containing `[0,n)`;
they end at the first multiple of `s` that is not below `n`. -/
theorem C29_linbin_size_partial (n s : Nat) (hs : 0 < s) (hn : 0 < n) :
    ∃ e, BinsCover (linbinSize n s) 0 e ∧ n ≤ e ∧ e < n + s ∧ s ∣ e ∧ ∀ b ∈ linbinSize n s, b.2 - b.1 = s := by
  have hst : Steps (fun x y => y = x + s) ((List.range ((n + s - 1) / s + 1)).map fun k => k * s) := by
    rw [List.range_eq_range']
    apply Steps_map_range'
    intro k _ _
    ring
  have h1 := Nat.div_add_mod (n + s - 1) s
  have h2 := Nat.mod_lt (n + s - 1) hs
  have h3 : 0 < (n + s - 1) / s := Nat.div_pos (by omega) hs
  refine ⟨(n + s - 1) / s * s, ?_, ?_, ?_, ⟨_, Nat.mul_comm _ _⟩, ?_⟩
  · unfold linbinSize
    apply covers_of_edges
    · simp; omega
    · simp [List.range_succ_eq_map]
    · rw [List.range_succ]
      simp
    · exact Steps_mono (fun a b hab => by omega) hst
  · rw [Nat.mul_comm]; omega
  · rw [Nat.mul_comm]; omega
  · intro b hb
    have := edges2bins_steps hst b hb
    omega

/-- C29 fails for linbin with `bsize`: the bins run past the end of the data unless the size divides it. -/
theorem C29_linbin_size_refuted : ¬ ∀ n s, 0 < n → 0 < s → BinsCover (linbinSize n s) 0 n := by
  intro h
  have := (h 10 4 (by omega) (by omega)).2.1
  revert this
  decide

/-- C29: whenever expbin returns, its bins follow each other without gaps from the first candidate edge to `n`,
and without `nmax` each has at least `nmin` samples; with `nmax` none has more than `nmax`.
`tmp` stands for the exponentially spaced candidate edges, the last of which is `n`. -/
theorem C29_expbin_partial (tmp : List Nat) (n nbin nmin nmax fuel : Nat) (bins : List (Nat × Nat))
    (hmin : 0 < nmin) (h0 : tmp.getD 0 0 < n) (hlast : tmp.getD nbin 0 = n)
    (h : expbinFrom tmp n nbin nmin nmax fuel = some bins) :
    BinsCover bins (tmp.getD 0 0) n ∧ (nmax = 0 → ∀ b ∈ bins, b.1 + nmin ≤ b.2) ∧
    (0 < nmax → ∀ b ∈ bins, b.1 < b.2 ∧ b.2 ≤ b.1 + nmax) := by
  unfold expbinFrom at h
  rw [Option.bind_eq_bind, Option.bind_eq_some_iff] at h
  obtain ⟨fixed, hf, h⟩ := h
  have hbins := (Option.some.inj h).symm
  obtain ⟨pre, h1, h2, h3⟩ := expLoop_done tmp nbin nmin fuel 0 [] fixed (by omega) trivial hf
  rw [hlast] at h1
  rw [List.nil_append] at h3
  obtain ⟨rest, h3⟩ := h3
  rw [List.singleton_append] at h3
  have hgl : fixed.getLast? = some n := by rw [h1]; simp
  have hrest : rest ≠ [] := by
    rintro rfl
    rw [← h3] at hgl
    simp only [List.getLast?_singleton, Option.some.injEq] at hgl
    omega
  -- writing `n` over the last edge changes nothing
  have hrw : ∀ l : List Nat, l.getLast? = some n → l.dropLast ++ [n] = l := by
    intro l hl
    rw [List.getLast?_eq_some_iff] at hl
    obtain ⟨ys, rfl⟩ := hl
    simp
  rw [← h3] at hbins h2 hgl
  generalize tmp.getD 0 0 = t0 at *
  have hlen : 2 ≤ (t0 :: rest).length := by
    have := List.length_pos_of_ne_nil hrest
    simp; omega
  by_cases hm : nmax = 0
  · rw [if_pos hm, hrw _ hgl] at hbins
    subst hbins
    exact ⟨covers_of_edges _ _ _ hlen rfl hgl (Steps_mono (fun a b hab => by omega) h2),
      fun _ b hb => edges2bins_steps h2 b hb, fun hc => by omega⟩
  · rw [if_neg hm] at hbins
    simp only [List.headD_cons, List.tail_cons] at hbins
    obtain ⟨s1, s2, s3⟩ := splitLarge_spec nmax (by omega) rest t0 (Steps_mono (fun a b hab => by omega) h2)
    rw [hgl] at s2
    rw [hrw _ s2] at hbins
    subst hbins
    refine ⟨covers_of_edges _ _ _ ?_ rfl s2 (Steps_mono (fun a b hab => by omega) s1), fun hc => absurd hc hm,
      fun _ b hb => edges2bins_steps s1 b hb⟩
    obtain ⟨x, hx⟩ := List.exists_mem_of_ne_nil _ hrest
    have := List.length_pos_of_mem (s3 x hx)
    simp; omega

example : expbinFrom [0, 0, 1, 2, 5, 9, 14, 24, 39, 62, 100] 100 10 8 0 1 =
    some [(0, 9), (9, 24), (24, 39), (39, 62), (62, 100)] := by decide
example : expbinFrom [0, 0, 1, 2, 5, 9, 14, 24, 39, 62, 100] 100 10 8 20 1 =
    some [(0, 9), (9, 24), (24, 39), (39, 50), (50, 62), (62, 81), (81, 100)] := by decide

/-- C29: expbin ends after a single round if the last candidate bin already has `nmin` samples. -/
theorem C29_expbin_terminates_partial (tmp : List Nat) (n nbin nmin nmax : Nat) (hb : 0 < nbin)
    (hmono : ∀ i j, i ≤ j → j ≤ nbin → tmp.getD i 0 ≤ tmp.getD j 0)
    (hgap : tmp.getD (nbin - 1) 0 + nmin ≤ tmp.getD nbin 0) :
    ∃ bins, expbinFrom tmp n nbin nmin nmax 1 = some bins := by
  unfold expbinFrom
  have : ∃ out, expLoop tmp nbin nmin 1 (0, [tmp.getD 0 0]) = some out := by
    rw [expLoop, if_neg (by omega)]
    show ∃ out, expLoop tmp nbin nmin 0 (expPass tmp nmin (List.range' 1 nbin) (0, [tmp.getD 0 0])) = some out
    have hfin := expPass_final tmp nmin (List.range' 1 nbin) (by exact List.pairwise_lt_range') (0, [tmp.getD 0 0]) nbin
      (by rw [List.mem_range'_1]; omega)
    generalize expPass tmp nmin (List.range' 1 nbin) (0, [tmp.getD 0 0]) = st at *
    obtain ⟨i, fx⟩ := st
    rcases Nat.lt_or_ge i nbin with hlt | hge
    · exfalso
      apply hfin hlt
      have := hmono i (nbin - 1) (by omega) (by omega)
      show tmp.getD i 0 + nmin ≤ _
      omega
    · exact ⟨fx, by rw [expLoop, if_pos hge]⟩
  obtain ⟨out, h⟩ := this
  rw [h]
  exact ⟨_, rfl⟩

/-- C29 fails for expbin: with fewer than `nmin` points (8 by default) it never returns, however long it runs and
whatever the candidate edges. -/
theorem C29_expbin_refuted (tmp : List Nat) (n nbin nmin nmax : Nat) (hb : 0 < nbin) (hn : n < nmin)
    (hle : ∀ j, tmp.getD j 0 ≤ n) (fuel : Nat) : expbinFrom tmp n nbin nmin nmax fuel = none := by
  unfold expbinFrom
  rw [expLoop_stuck tmp nbin nmin 0 _ hb]
  · rfl
  · intro j _ _
    have := hle j
    omega

example : expbinFrom [0, 1, 5] 5 2 8 0 1000 = none :=
  C29_expbin_refuted [0, 1, 5] 5 2 8 0 (by omega) (by omega)
    (by intro j; rcases j with _ | _ | _ | j <;> simp) 1000

/-- C29: edges2bins turns `m+1` edges into `m` bins, the `i`-th of which goes from edge `i` to edge `i+1`. -/
theorem C29_edges2bins (e : List Nat) :
    (edges2bins e).length = e.length - 1 ∧
    ∀ i a b, e[i]? = some a → e[i + 1]? = some b → (edges2bins e)[i]? = some (a, b) := by
  refine ⟨edges2bins_length e, fun i a b ha hb => ?_⟩
  obtain ⟨h1, e1⟩ := List.getElem?_eq_some_iff.1 ha
  obtain ⟨h2, e2⟩ := List.getElem?_eq_some_iff.1 hb
  rw [edges2bins_get e i h2, e1, e2]

/-- C29: bins2edges undoes edges2bins for two bins. -/
theorem C29_bins2edges_partial (a b c : Nat) : bins2edges (edges2bins [a, b, c]) = some [a, b, c] := rfl

/-- C29 fails for bins2edges: it takes the last edge from the second bin, so three bins lose their last edge
and a single bin raises. -/
theorem C29_bins2edges_refuted :
    bins2edges (edges2bins [0, 1, 2, 3]) = some [0, 1, 2, 2] ∧ bins2edges (edges2bins [0, 1]) = none :=
  ⟨rfl, rfl⟩

/-- C30: binning what was expanded gives the bin values back, for non-empty bins in increasing order. -/
theorem C30_roundtrip (bins : List (Nat × Nat)) (v : List ℚ) (hlen : v.length = bins.length)
    (hne : ∀ b ∈ bins, b.1 < b.2) (hord : bins.Pairwise fun a b => a.2 ≤ b.1) :
    binData bins (binExpand bins v) = v := by
  have hend : ∀ b ∈ bins, b.2 ≤ (bins.getLastD (0, 0)).2 := by
    intro b hb
    obtain ⟨c, hc⟩ : ∃ c, bins.getLast? = some c := by
      rw [← Option.isSome_iff_exists, List.getLast?_isSome]
      exact List.ne_nil_of_mem hb
    rw [List.getLastD_eq_getLast?, hc]
    simp only [Option.getD_some]
    obtain ⟨ys, rfl⟩ := List.getLast?_eq_some_iff.1 hc
    rw [List.pairwise_append] at hord
    rcases List.mem_append.1 hb with h | h
    · have := hord.2.2 b h c (by simp)
      have := hne c (by simp)
      omega
    · simp at h; rw [h]
  have hbl : (binExpand bins v).length = (bins.getLastD (0, 0)).2 := by
    unfold binExpand
    rw [fill_fold_length, List.length_replicate]
  have hzip : (bins.zip v).Pairwise fun x y => x.1.2 ≤ y.1.1 := by
    have : ((bins.zip v).map Prod.fst).Pairwise fun a b => a.2 ≤ b.1 := by
      rw [List.map_fst_zip (by omega)]; exact hord
    rwa [List.pairwise_map] at this
  apply List.ext_getElem
  · simp [binData, hlen]
  · intro i h1 h2
    have hib : i < bins.length := by omega
    simp only [binData, List.getElem_map]
    have hb := hne bins[i] (List.getElem_mem hib)
    have he := hend bins[i] (List.getElem_mem hib)
    apply meanQ_const
    · intro x hx
      obtain ⟨k, hk, rfl⟩ := List.getElem_of_mem hx
      simp only [List.length_take, List.length_drop, hbl] at hk
      rw [List.getElem_take, List.getElem_drop]
      have hki : bins[i].1 + k < (binExpand bins v).length := by rw [hbl]; omega
      have hhit := fill_fold_hit (bins.zip v) (List.replicate ((bins.getLastD (0, 0)).2) 0) (bins[i].1 + k)
        (by rw [List.length_replicate]; omega) hzip (bins[i], v[i])
        (by rw [List.mem_iff_getElem]; exact ⟨i, by simp; omega, by simp⟩) (by simp only; omega)
      have heq : (binExpand bins v).getD (bins[i].1 + k) 0 = v[i] := hhit
      rw [List.getD_eq_getElem?_getD, List.getElem?_eq_getElem hki] at heq
      exact heq
    · intro hc
      have := congrArg List.length hc
      simp only [List.length_take, List.length_drop, hbl, List.length_nil] at this
      omega

example : binExpand [(0, 2), (2, 5)] [7, 9] = [7, 7, 9, 9, 9] := by decide +kernel
example : binData [(0, 2), (2, 5)] [1, 3, 2, 3, 7] = [2, 4] := by decide +kernel

/-- C30: bin_data loses no sample and counts none twice: over bins covering the data, the bin means weighted
by the bin sizes add up to the sum of the data. -/
theorem C30_total (bins : List (Nat × Nat)) (d : List ℚ) (h : BinsCover bins 0 d.length) :
    ((bins.zip (binData bins d)).map fun bm => ((bm.1.2 - bm.1.1 : Nat) : ℚ) * bm.2).sum = d.sum := by
  have hterm : ∀ b : Nat × Nat, b.2 ≤ d.length → ((b.2 - b.1 : Nat) : ℚ) * meanQ ((d.drop b.1).take (b.2 - b.1)) =
      ((d.drop b.1).take (b.2 - b.1)).sum := by
    intro b hb
    have hl : ((d.drop b.1).take (b.2 - b.1)).length = b.2 - b.1 := by simp; omega
    unfold meanQ
    rw [hl]
    rcases Nat.eq_zero_or_pos (b.2 - b.1) with h0 | hp
    · rw [h0]; simp
    · have : ((b.2 - b.1 : Nat) : ℚ) ≠ 0 := by positivity
      field_simp
  have hpos := covers_positions bins 0 d.length h
  have hle : ∀ b ∈ bins, b.2 ≤ d.length := (covers_le h).2
  have e1 : (bins.zip (binData bins d)).map (fun bm => ((bm.1.2 - bm.1.1 : Nat) : ℚ) * bm.2) =
      bins.map fun b => ((d.drop b.1).take (b.2 - b.1)).sum := by
    apply List.ext_getElem
    · simp [binData]
    · intro i h1 h2
      simp only [List.length_map] at h2
      simp only [List.getElem_map, List.getElem_zip, binData]
      exact hterm _ (hle _ (List.getElem_mem h2))
  rw [e1]
  have e2 : ∀ b ∈ bins, ((d.drop b.1).take (b.2 - b.1)).sum = ((List.range' b.1 (b.2 - b.1)).map fun i => d.getD i 0).sum := by
    intro b hb
    congr 1
    have := hle b hb
    apply List.ext_getElem
    · simp; omega
    · intro i h1 h2
      simp only [List.length_take, List.length_drop] at h1
      simp only [List.getElem_take, List.getElem_drop, List.getElem_map, List.getElem_range', Nat.one_mul]
      rw [List.getD_eq_getElem?_getD, List.getElem?_eq_getElem (by omega)]
      rfl
  rw [List.map_congr_left e2]
  have e3 : (bins.map fun b => ((List.range' b.1 (b.2 - b.1)).map fun i => d.getD i 0).sum).sum =
      ((bins.flatMap fun x => List.range' x.1 (x.2 - x.1)).map fun i => d.getD i 0).sum := by
    rw [List.flatMap, List.map_flatten, List.sum_flatten, List.map_map, List.map_map]
    rfl
  rw [e3, hpos]
  congr 1
  apply List.ext_getElem
  · simp
  · intro i h1 h2
    simp [List.getD_eq_getElem?_getD, h2]

end Pixell
