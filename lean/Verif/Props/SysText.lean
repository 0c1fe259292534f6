import Verif.Model.SysText
import Verif.Props.Coordinates
import Verif.Props.TransMeta

/-
C182: coordinate systems given as texts like cel:10_20:gal/0_0 are centred as they say, and positions of moving objects are
followed.
-/
namespace Pixell
open Real

/-- No separators. -/
def Plain (w : List Char) : Prop := ':' ∉ w ∧ '/' ∉ w ∧ '_' ∉ w

/-- lon_lat or lon_lat:system. -/
def posText (x y : List Char) (s : Option (List Char)) : List Char :=
  x ++ '_' :: (y ++ match s with
    | none => []
    | some s => ':' :: s)

theorem strSplit_word {sep : Char} : ∀ {w : List Char}, sep ∉ w → strSplit sep w = [w]
  | [], _ => rfl
  | c :: w, h => by
    have h1 : c ≠ sep := fun e => h (e ▸ List.mem_cons_self)
    have h2 : sep ∉ w := fun e => h (List.mem_cons_of_mem _ e)
    unfold strSplit
    rw [if_neg h1, strSplit_word h2]

theorem strSplit_join {sep : Char} (r : List Char) : ∀ {w : List Char}, sep ∉ w → strSplit sep (w ++ sep :: r) = w :: strSplit sep r
  | [], _ => by rw [List.nil_append]; conv_lhs => unfold strSplit
                rw [if_pos rfl]
  | c :: w, h => by
    have h1 : c ≠ sep := fun e => h (e ▸ List.mem_cons_self)
    have h2 : sep ∉ w := fun e => h (List.mem_cons_of_mem _ e)
    rw [List.cons_append]
    conv_lhs => unfold strSplit
    rw [if_neg h1, strSplit_join r h2]

theorem strSplit1_join {sep : Char} (r : List Char) : ∀ {w : List Char}, sep ∉ w → strSplit1 sep (w ++ sep :: r) = (w, some r)
  | [], _ => by simp [strSplit1]
  | c :: w, h => by
    have h1 : c ≠ sep := fun e => h (e ▸ List.mem_cons_self)
    have h2 : sep ∉ w := fun e => h (List.mem_cons_of_mem _ e)
    rw [List.cons_append]
    unfold strSplit1
    rw [if_neg h1, strSplit1_join r h2]

theorem strSplit1_word {sep : Char} : ∀ {w : List Char}, sep ∉ w → strSplit1 sep w = (w, none)
  | [], _ => rfl
  | c :: w, h => by
    have h1 : c ≠ sep := fun e => h (e ▸ List.mem_cons_self)
    have h2 : sep ∉ w := fun e => h (List.mem_cons_of_mem _ e)
    unfold strSplit1
    rw [if_neg h1, strSplit1_word h2]

/-- The system a reference point is given in: its own, or that of the one before. -/
def InSys (prev : Sys) (s : Option (List Char)) (S : Sys) : Prop :=
  match s with
  | none => S = prev
  | some w => Plain w ∧ getsys w = some S

theorem refPoint_pos (E : SysEnv) (ts : Option (List ℕ)) (base prev : Sys) {x y : List Char} {s : Option (List Char)} {S : Sys} {X Y : ℝ}
    (hx : Plain x) (hy : Plain y) (hs : InSys prev s S) (hX : E.num x = some X) (hY : E.num y = some Y) :
    refPoint E ts base prev (posText x y s) = (E.to S base (X * (π / 180), Y * (π / 180))).map fun p => (p, posShape ts, S) := by
  have h1 : ':' ∉ x ++ '_' :: y := by simp [hx.1, hy.1]
  have h2 : strSplit '_' (x ++ '_' :: y) = [x, y] := by rw [strSplit_join _ hx.2.2, strSplit_word hy.2.2]
  have h3 : [x, y].mapM E.num = some [X, Y] := by simp [hX, hY]
  cases s with
  | none =>
    unfold refPoint
    have hS : S = prev := hs
    simp only [posText, List.append_nil]
    rw [strSplit_word h1]
    simp only [List.headD_cons, List.getElem?_cons_succ, List.getElem?_nil, Option.bind_some, h2, h3, hS]
  | some w =>
    obtain ⟨hw, hg⟩ := hs
    unfold refPoint
    simp only [posText]
    rw [show x ++ '_' :: (y ++ ':' :: w) = (x ++ '_' :: y) ++ ':' :: w by simp, strSplit_join _ h1, strSplit_word hw.1]
    simp only [List.headD_cons, List.getElem?_cons_succ, List.getElem?_cons_zero, hg, Option.bind_some, h2, h3]

theorem posText_slash {prev S : Sys} {x y : List Char} {s : Option (List Char)} (hx : Plain x) (hy : Plain y) (hs : InSys prev s S) :
    '/' ∉ posText x y s := by
  cases s with
  | none => simp [posText, hx.2.1, hy.2.1]
  | some w => simp [posText, hx.2.1, hy.2.1, hs.1.2.1]

theorem not_sidelobe {b : List Char} {B : Sys} (h : getsys b = some B) : b ≠ "sidelobe".toList := by
  rintro rfl
  revert h
  rw [show getsys "sidelobe".toList = none by decide]
  simp

theorem getsysFull_ref (E : SysEnv) (ts : Option (List ℕ)) {b : List Char} {B : Sys} (hb : Plain b) (hB : getsys b = some B) (r : List Char) :
    getsysFull E ts (b ++ ':' :: r) = (refPoints E ts B B (strSplit '/' r)).bind fun pts =>
      if pts.all fun p => p.2 = (pts.map (·.2)).headD [] then some ⟨B, some (false, pts.map (·.1), (pts.map (·.2)).headD [])⟩ else none := by
  unfold getsysFull
  rw [strSplit1_join _ hb.1]
  have := not_sidelobe hB
  simp only [this, if_false, hB, Option.bind_some, decide_false]

theorem getsysFull_base (E : SysEnv) (ts : Option (List ℕ)) {b : List Char} {B : Sys} (hb : Plain b) (hB : getsys b = some B) :
    getsysFull E ts b = some ⟨B, none⟩ := by
  unfold getsysFull
  rw [strSplit1_word hb.1]
  have := not_sidelobe hB
  simp only [this, if_false, hB, Option.bind_some]

theorem posShape_ok (ts : Option (List ℕ)) (n : ℕ) (h : ts = none ∨ ts = some [] ∨ ts = some [n]) : rotShapeOk (posShape ts) n = true := by
  rcases h with rfl | rfl | rfl
  · simp only [posShape, rotShapeOk, List.reverse_cons, List.reverse_nil, List.nil_append, bcast2]
    split <;> rename_i h
    · split at h <;> simp at h
    · split at h <;> simp at h <;> first | (simp [← h]; done) | (simp [← h]; omega)
  · simp only [posShape, rotShapeOk, List.reverse_cons, List.reverse_nil, List.nil_append, bcast2]
    split <;> rename_i h
    · split at h <;> simp at h
    · split at h <;> simp at h <;> first | (simp [← h]; done) | (simp [← h]; omega)
  · simp [posShape, rotShapeOk, bcast2]

theorem sysTo_self (E : SysEnv) (a : Sys) (p : ℝ × ℝ) : E.to a a p = some p := by simp [SysEnv.to]

/-- **C182_centre.** transform to base:x_y:s/u_v:t puts the position (x,y) of system s where the position (u,v) of system t
is. Systems that are left out are those of the point before, or the base. For all numbers, systems and numbers of
positions, with no time, one time, or one time for each position. -/
theorem C182_centre (E : SysEnv) (ts : Option (List ℕ)) (n : ℕ) (hts : ts = none ∨ ts = some [] ∨ ts = some [n]) {b x y u v : List Char}
    {s t : Option (List Char)} {B S T : Sys} {X Y U V : ℝ} {P Q : ℝ × ℝ} (hb : Plain b) (hx : Plain x) (hy : Plain y) (hu : Plain u) (hv : Plain v)
    (hB : getsys b = some B) (hS : InSys B s S) (hT : InSys S t T) (hX : E.num x = some X) (hY : E.num y = some Y) (hU : E.num u = some U)
    (hV : E.num v = some V) (hP : E.to S B (X * (π / 180), Y * (π / 180)) = some P) (hQ : E.to T B (U * (π / 180), V * (π / 180)) = some Q)
    (q1 : -π < Q.1) (q2 : Q.1 ≤ π) (q3 : -(π / 2) < Q.2) (q4 : Q.2 < π / 2) :
    sysTransform E ts n b (b ++ ':' :: (posText x y s ++ '/' :: posText u v t)) P = some Q := by
  unfold sysTransform
  rw [getsysFull_base E ts hb hB, getsysFull_ref E ts hb hB, strSplit_join _ (posText_slash hx hy hS), strSplit_word (posText_slash hu hv hT)]
  simp only [refPoints, refPoint_pos E ts B B hx hy hS hX hY, hP, Option.map_some, Option.bind_some, refPoint_pos E ts B S hu hv hT hU hV, hQ,
    List.map_cons, List.map_nil, List.headD_cons, List.all_cons, List.all_nil, decide_true, Bool.and_self, if_true]
  unfold sysConv
  simp only [Option.bind_some, sysTo_self, posShape_ok ts n hts, if_true, centerOf, Option.map_some]
  rw [(C97_recenter P.1 P.2 Q.1 Q.2).2.2.1 q1 q2 q3 q4]

/-- **C182_pole.** transform to base:x_y:s puts the position (x,y) of system s at the north pole. -/
theorem C182_pole (E : SysEnv) (ts : Option (List ℕ)) (n : ℕ) (hts : ts = none ∨ ts = some [] ∨ ts = some [n]) {b x y : List Char}
    {s : Option (List Char)} {B S : Sys} {X Y : ℝ} {P : ℝ × ℝ} (hb : Plain b) (hx : Plain x) (hy : Plain y)
    (hB : getsys b = some B) (hS : InSys B s S) (hX : E.num x = some X) (hY : E.num y = some Y)
    (hP : E.to S B (X * (π / 180), Y * (π / 180)) = some P) :
    ∃ R, sysTransform E ts n b (b ++ ':' :: posText x y s) P = some R ∧ R.2 = π / 2 := by
  refine ⟨recenter (P.1, P.2) (.at2 P.1 P.2) false, ?_, (C97_recenter P.1 P.2 0 0).1⟩
  unfold sysTransform
  rw [getsysFull_base E ts hb hB, getsysFull_ref E ts hb hB, strSplit_word (posText_slash hx hy hS)]
  simp only [refPoints, refPoint_pos E ts B B hx hy hS hX hY, hP, Option.map_some, Option.bind_some,
    List.map_cons, List.map_nil, List.headD_cons, List.all_cons, List.all_nil, decide_true, Bool.and_self, if_true]
  unfold sysConv
  simp only [Option.bind_some, sysTo_self, posShape_ok ts n hts, if_true, centerOf, Option.map_some]

/-- **C182_back.** Transforming from any system with reference points to its base and back gives the position back, whenever the
first of the two succeeds. -/
theorem C182_back (E : SysEnv) (ts : Option (List ℕ)) (n : ℕ) {b r : List Char} {B : Sys} (hb : Plain b) (hB : getsys b = some B)
    (p q : ℝ × ℝ) (h1 : -π < p.1) (h2 : p.1 ≤ π) (h3 : -(π / 2) < p.2) (h4 : p.2 < π / 2)
    (hq : sysTransform E ts n (b ++ ':' :: r) b p = some q) : sysTransform E ts n b (b ++ ':' :: r) q = some p := by
  unfold sysTransform at hq ⊢
  rw [getsysFull_base E ts hb hB] at hq ⊢
  rw [getsysFull_ref E ts hb hB] at hq ⊢
  cases hpts : refPoints E ts B B (strSplit '/' r) with
  | none => rw [hpts] at hq; simp at hq
  | some pts =>
    rw [hpts] at hq
    simp only [Option.bind_some] at hq ⊢
    split at hq
    · rename_i hall
      rw [if_pos hall]
      simp only [Option.bind_some, sysConv, sysTo_self] at hq ⊢
      split at hq
      · rename_i hok
        rw [if_pos hok]
        cases hc : centerOf (pts.map (·.1)) with
        | none => rw [hc] at hq; simp at hq
        | some c =>
          rw [hc] at hq
          simp only [Option.map_some, Option.bind_some, Option.some.injEq] at hq ⊢
          rw [← hq]
          exact (C97_decenter p c false h1 h2 h3 h4).2
      · simp at hq
    · simp at hq

theorem getsys_name (s : Sys) : getsys s.name.toList = some s := by cases s <;> decide

/-- An object: a name that is not a list of numbers. -/
theorem refPoint_obj (E : SysEnv) (ts : List ℕ) (base prev : Sys) {w : List Char} (hw : Plain w) (hn : E.num w = none) :
    refPoint E (some ts) base prev w = ((E.ephem w).bind (E.to .icrs base)).map fun p => (p, ts, prev) := by
  unfold refPoint
  rw [strSplit_word hw.1]
  simp only [List.headD_cons, List.getElem?_cons_succ, List.getElem?_nil, Option.bind_some, strSplit_word hw.2.2]
  have : [w].mapM E.num = none := by simp [hn]
  rw [this]

/-- **C182_object_partial.** transform to base:object/u_v puts the object at (u,v), if there is a time for each position. What is
missing: a single time, see `C182_object_refuted`. -/
theorem C182_object_partial (E : SysEnv) (n : ℕ) {b w u v : List Char} {B : Sys} {U V : ℝ} {O P : ℝ × ℝ} (hb : Plain b) (hw : Plain w)
    (hu : Plain u) (hv : Plain v) (hB : getsys b = some B) (hn : E.num w = none) (hO : E.ephem w = some O) (hP : E.to .icrs B O = some P)
    (hU : E.num u = some U) (hV : E.num v = some V) (q1 : -π < U * (π / 180)) (q2 : U * (π / 180) ≤ π) (q3 : -(π / 2) < V * (π / 180))
    (q4 : V * (π / 180) < π / 2) :
    sysTransform E (some [n]) n b (b ++ ':' :: (w ++ '/' :: posText u v none)) P = some (U * (π / 180), V * (π / 180)) := by
  have hT : InSys B none B := rfl
  unfold sysTransform
  rw [getsysFull_base E _ hb hB, getsysFull_ref E _ hb hB, strSplit_join _ hw.2.1, strSplit_word (posText_slash hu hv hT)]
  simp only [refPoints, refPoint_obj E [n] B B hw hn, hO, hP, Option.map_some, Option.bind_some, refPoint_pos E _ B B hu hv hT hU hV, sysTo_self,
    List.map_cons, List.map_nil, List.headD_cons, List.all_cons, List.all_nil, posShape, decide_true, Bool.and_self, if_true]
  unfold sysConv
  simp only [Option.bind_some, sysTo_self, centerOf, Option.map_some]
  have hok : rotShapeOk [n] n = true := posShape_ok (some [n]) n (Or.inr (Or.inr rfl))
  rw [if_pos hok]
  rw [(C97_recenter P.1 P.2 _ _).2.2.1 q1 q2 q3 q4]

/-- **C182_object_refuted.** With a single time, like the default one, a system like cel:Moon/0_0 cannot be used, for any object,
position and base: the two points have arrays of different shapes. -/
theorem C182_object_refuted (E : SysEnv) {b w u v : List Char} {B : Sys} (hb : Plain b) (hw : Plain w) (hu : Plain u) (hv : Plain v)
    (hB : getsys b = some B) (hn : E.num w = none) (U V : ℝ) (hU : E.num u = some U) (hV : E.num v = some V) :
    getsysFull E (some []) (b ++ ':' :: (w ++ '/' :: posText u v none)) = none := by
  have hT : InSys B none B := rfl
  rw [getsysFull_ref E _ hb hB, strSplit_join _ hw.2.1, strSplit_word (posText_slash hu hv hT)]
  cases hO : (E.ephem w).bind (E.to .icrs B) with
  | none => simp [refPoints, refPoint_obj E [] B B hw hn, hO]
  | some P =>
    simp [refPoints, refPoint_obj E [] B B hw hn, hO, refPoint_pos E _ B B hu hv hT hU hV, sysTo_self, posShape]

/-- **C182_times_refuted.** With times in an array of two axes, no position can be transformed to a system with a reference
position, for all lengths of at least two and one. Other systems have no such restriction. -/
theorem C182_times_refuted (E : SysEnv) (r c : ℕ) (hr : 2 ≤ r) (hc : 1 ≤ c) {b x y : List Char} {s : Option (List Char)} {B S : Sys} {X Y : ℝ}
    (hb : Plain b) (hx : Plain x) (hy : Plain y) (hB : getsys b = some B) (hS : InSys B s S) (hX : E.num x = some X) (hY : E.num y = some Y)
    (p : ℝ × ℝ) :
    sysTransform E (some [r, c]) (r * c) b (b ++ ':' :: posText x y s) p = none ∧ sysTransform E (some [r, c]) (r * c) b b p = some p := by
  constructor
  · unfold sysTransform
    rw [getsysFull_base E _ hb hB, getsysFull_ref E _ hb hB, strSplit_word (posText_slash hx hy hS)]
    cases hP : E.to S B (X * (π / 180), Y * (π / 180)) with
    | none => simp [refPoints, refPoint_pos E _ B B hx hy hS hX hY, hP]
    | some P =>
      simp only [refPoints, refPoint_pos E _ B B hx hy hS hX hY, hP, Option.map_some, Option.bind_some,
        List.map_cons, List.map_nil, List.headD_cons, List.all_cons, List.all_nil, decide_true, Bool.and_self, if_true]
      unfold sysConv
      have hno : rotShapeOk (posShape (some [r, c])) (r * c) = false := by
        have h1 : c ≠ r * c := by nlinarith
        have h2 : r * c ≠ 1 := by nlinarith
        simp only [posShape, rotShapeOk, List.reverse_cons, List.reverse_nil, List.nil_append, List.cons_append, bcast2, if_neg h1, if_neg h2]
        by_cases h3 : c = 1
        · subst h3
          simp only [if_true, List.prod_cons, List.prod_nil, mul_one, decide_eq_false_iff_not]
          nlinarith
        · rw [if_neg h3]
      simp only [Option.bind_some, sysTo_self, hno, Bool.false_eq_true, if_false]
  · unfold sysTransform
    rw [getsysFull_base E _ hb hB]
    simp [sysConv, sysTo_self]

/-- **C182_case_refuted.** Names of systems can be written in any case, but Sidelobe is unknown although sidelobe is not. -/
theorem C182_case_refuted (E : SysEnv) (ts : Option (List ℕ)) :
    getsysFull E ts "sidelobe".toList = some ⟨.bore, none⟩ ∧ getsysFull E ts "Sidelobe".toList = none ∧
    getsysFull E ts "Bore".toList = some ⟨.bore, none⟩ := by
  refine ⟨?_, ?_, ?_⟩
  · unfold getsysFull
    rw [strSplit1_word (by decide)]
    simp only [if_true]
    rw [show getsys "bore".toList = some .bore by decide]; rfl
  · unfold getsysFull
    rw [strSplit1_word (by decide)]
    simp only
    rw [if_neg (by decide), show getsys "Sidelobe".toList = none by decide]; rfl
  · exact getsysFull_base E ts (by unfold Plain; decide) (by decide)

/-- The systems fixed to the telescope or the ground. -/
def Local (s : Sys) : Prop := s = .altaz ∨ s = .tele ∨ s = .bore

/-- **C182_horizon_refuted.** No position can be transformed between a system fixed to the ground and one fixed to the sky, in either
direction. -/
theorem C182_horizon_refuted {P : Type} (other : Sys → Sys → P → P) (f : ℕ) (hf : 5 ≤ f) (a b : Sys) (h : Local a ↔ ¬ Local b) (p : P) :
    transLoop (convStep other) f a b (some p) = some none := by
  obtain ⟨k, rfl⟩ : ∃ k, f = k + 5 := ⟨f - 5, by omega⟩
  cases a <;> cases b <;> simp_all [Local, transLoop, nextSys, nohor, convStep]

/-- **C182_horizon_partial.** Between two systems of the same kind every position is transformed. -/
theorem C182_horizon_partial {P : Type} (other : Sys → Sys → P → P) (f : ℕ) (hf : 5 ≤ f) (a b : Sys) (h : Local a ↔ Local b) (p : P) :
    transLoop (convStep other) f a b (some p) = (transLoop other f a b p).map some ∧ (transLoop other f a b p).isSome := by
  obtain ⟨k, rfl⟩ : ∃ k, f = k + 5 := ⟨f - 5, by omega⟩
  cases a <;> cases b <;> simp_all [Local, transLoop, nextSys, nohor, convStep]

/-! ### Moving objects -/

theorem trackN_ge (lo hi dt : ℝ) : 3 ≤ trackN lo hi dt := le_max_left _ _

theorem trackBox_width (lo hi : ℝ) : (trackBox lo hi).2 - (trackBox lo hi).1 = (hi - lo) * (101 / 100) := by
  unfold trackBox; ring

/-- **C182_nodes.** The times at which the position is computed enclose those asked for, and the interpolation is at the whole number k for the
k-th of them: an exact interpolation gives the exact position there. -/
theorem C182_nodes (lo hi dt : ℝ) (h : lo < hi) :
    trackNode lo hi dt 0 < lo ∧ hi < trackNode lo hi dt (trackN lo hi dt - 1) ∧
    (∀ t, lo ≤ t → t ≤ hi → ∃ x, trackInd lo hi dt t = some x ∧ 0 < x ∧ x < (trackN lo hi dt : ℝ) - 1) ∧
    (∀ (interp : (ℕ → ℝ) → ℝ → ℝ) (ra : ℝ → ℝ) (k : ℕ), (∀ f (j : ℕ), interp f j = f j) →
      trackRa interp ra lo hi dt (trackNode lo hi dt k) = some (ra (trackNode lo hi dt k))) := by
  have hn : (3 : ℝ) ≤ trackN lo hi dt := by exact_mod_cast trackN_ge lo hi dt
  have hw := trackBox_width lo hi
  have hwp : 0 < (trackBox lo hi).2 - (trackBox lo hi).1 := by rw [hw]; nlinarith
  have hb0 : (trackBox lo hi).1 < lo := by unfold trackBox; simp only; linarith
  have hb1 : hi < (trackBox lo hi).2 := by unfold trackBox; simp only; linarith
  have hn1 : (0 : ℝ) < (trackN lo hi dt : ℝ) - 1 := by linarith
  have hind : ∀ t, trackInd lo hi dt t = some ((t - (trackBox lo hi).1) * ((trackN lo hi dt : ℝ) - 1) / ((trackBox lo hi).2 - (trackBox lo hi).1)) := by
    intro t
    unfold trackInd
    simp only
    rw [if_neg hwp.ne']
  refine ⟨?_, ?_, ?_, ?_⟩
  · unfold trackNode; simp only [Nat.cast_zero, mul_zero, zero_div, add_zero]; exact hb0
  · unfold trackNode
    rw [Nat.cast_sub (by have := trackN_ge lo hi dt; omega), Nat.cast_one, mul_div_assoc, div_self hn1.ne', mul_one]
    linarith
  · intro t h1 h2
    refine ⟨_, hind t, ?_, ?_⟩
    · apply div_pos (mul_pos (by linarith) hn1) hwp
    · rw [div_lt_iff₀ hwp, mul_comm]
      exact mul_lt_mul_of_pos_left (by linarith) hn1
  · intro interp ra k hex
    unfold trackRa
    rw [hind, Option.map_some]
    have : (trackNode lo hi dt k - (trackBox lo hi).1) * ((trackN lo hi dt : ℝ) - 1) / ((trackBox lo hi).2 - (trackBox lo hi).1) = k := by
      have e : trackNode lo hi dt k - (trackBox lo hi).1 = ((trackBox lo hi).2 - (trackBox lo hi).1) * k / ((trackN lo hi dt : ℝ) - 1) := by
        unfold trackNode; ring
      rw [e]
      field_simp
    rw [this, hex]

theorem trackStep_eq (lo hi dt : ℝ) (k : ℕ) :
    trackNode lo hi dt (k + 1) - trackNode lo hi dt k = ((trackBox lo hi).2 - (trackBox lo hi).1) / ((trackN lo hi dt : ℝ) - 1) := by
  unfold trackNode; push_cast; ring

/-- **C182_step_partial.** These times are less than twice dt apart. -/
theorem C182_step_partial (lo hi dt : ℝ) (h : lo < hi) (hdt : 0 < dt) (k : ℕ) :
    (trackNode lo hi dt (k + 1) - trackNode lo hi dt k) * 86400 < 2 * dt := by
  rw [trackStep_eq]
  have hn : (3 : ℝ) ≤ trackN lo hi dt := by exact_mod_cast trackN_ge lo hi dt
  have hwp : 0 < (trackBox lo hi).2 - (trackBox lo hi).1 := by rw [trackBox_width]; nlinarith
  set W := (trackBox lo hi).2 - (trackBox lo hi).1
  have hN : (⌊W * 24 * 3600 / dt⌋.toNat : ℝ) ≤ trackN lo hi dt := by exact_mod_cast le_max_right _ _
  have hq : 0 ≤ W * 24 * 3600 / dt := by positivity
  have hfl : W * 24 * 3600 / dt < (⌊W * 24 * 3600 / dt⌋.toNat : ℝ) + 1 := by
    have h1 := Int.lt_floor_add_one (W * 24 * 3600 / dt)
    have h2 : (⌊W * 24 * 3600 / dt⌋.toNat : ℤ) = ⌊W * 24 * 3600 / dt⌋ := Int.toNat_of_nonneg (Int.floor_nonneg.2 hq)
    have h3 : ((⌊W * 24 * 3600 / dt⌋.toNat : ℤ) : ℝ) = (⌊W * 24 * 3600 / dt⌋ : ℝ) := by rw [h2]
    push_cast at h3
    linarith
  rw [div_lt_iff₀ hdt] at hfl
  rw [div_mul_eq_mul_div, div_lt_iff₀ (by linarith)]
  nlinarith

/-- **C182_step_refuted.** They are not at most dt apart, as documented: for every dt there are times for which they are 1.95 dt apart. -/
theorem C182_step_refuted (dt : ℝ) (hdt : 0 < dt) : ∃ lo hi, lo < hi ∧ ∀ k,
    (trackNode lo hi dt (k + 1) - trackNode lo hi dt k) * 86400 = 195 / 100 * dt := by
  refine ⟨0, 390 / 101 * dt / 86400, by positivity, fun k => ?_⟩
  have hW : (trackBox 0 (390 / 101 * dt / 86400)).2 - (trackBox 0 (390 / 101 * dt / 86400)).1 = 39 / 10 * dt / 86400 := by
    rw [trackBox_width]; ring
  have hN : trackN 0 (390 / 101 * dt / 86400) dt = 3 := by
    unfold trackN
    rw [hW, show 39 / 10 * dt / 86400 * 24 * 3600 / dt = 39 / 10 by field_simp; norm_num]
    have : ⌊(39 / 10 : ℝ)⌋ = 3 := by rw [Int.floor_eq_iff]; norm_num
    rw [this]; rfl
  rw [trackStep_eq, hW, hN]
  push_cast; ring

/-- **C182_single_refuted.** The position at a single time is not-a-number. -/
theorem C182_single_refuted (interp : (ℕ → ℝ) → ℝ → ℝ) (ra : ℝ → ℝ) (t dt : ℝ) : trackRa interp ra t t dt t = none := by
  unfold trackRa trackInd trackBox
  simp

/-- **C182_track_refuted.** An object that crosses the end of the range of longitudes is lost: with any continuous interpolation
there is a time at which it is reported at longitude 0 although it is never further than three degrees from longitude 180. -/
theorem C182_track_refuted : ∃ ra : ℝ → ℝ, (∀ t, 0 ≤ t → t ≤ 1 → cos (ra t) < -99 / 100 ∧ -π ≤ ra t ∧ ra t ≤ π) ∧
    (∃ alpha : ℝ → ℝ, Continuous alpha ∧ ∀ t, ∃ k : ℤ, ra t = alpha t + 2 * π * k) ∧
    ∀ interp : (ℕ → ℝ) → ℝ → ℝ, (∀ f, Continuous (interp f)) → (∀ f (j : ℕ), interp f j = f j) →
      ∃ t, 0 ≤ t ∧ t ≤ 1 ∧ trackRa interp ra 0 1 10 t = some 0 := by
  have hpi := pi_gt_three
  have hrw : ∀ a, ∃ k : ℤ, rewindPi a = a + 2 * π * k := fun a => ⟨-⌊(a + π) / (2 * π)⌋, by unfold rewindPi; push_cast; ring⟩
  have hlow : ∀ d : ℝ, d < 0 → -1 < d → rewindPi (π + d) = π + d := by
    intro d h1 h2
    have := rewindPi_eq (x := π + d) 0 (by linarith) (by linarith)
    simpa using this
  have hhigh : ∀ d : ℝ, 0 ≤ d → d < 1 → rewindPi (π + d) = -π + d := by
    intro d h1 h2
    have := rewindPi_eq (x := -π + d) 1 (by linarith) (by linarith)
    rw [show -π + d + 2 * π * ((1 : ℤ) : ℝ) = π + d by push_cast; ring] at this
    exact this
  refine ⟨fun t => rewindPi (π + (t - 1 / 2) / 10), ?_, ⟨fun t => π + (t - 1 / 2) / 10, by fun_prop, fun t => hrw _⟩, ?_⟩
  · intro t h0 h1
    refine ⟨?_, ?_⟩
    · obtain ⟨k, hk⟩ := hrw (π + (t - 1 / 2) / 10)
      simp only
      rw [hk, show π + (t - 1 / 2) / 10 + 2 * π * (k : ℝ) = (π + (t - 1 / 2) / 10) + k * (2 * π) by ring, cos_add_int_mul_two_pi,
        add_comm, cos_add_pi]
      have := one_sub_sq_div_two_le_cos (x := (t - 1 / 2) / 10)
      nlinarith
    · rcases lt_or_ge t (1 / 2) with h | h
      · simp only; rw [hlow _ (by linarith) (by linarith)]; constructor <;> linarith
      · simp only; rw [hhigh _ (by linarith) (by linarith)]; constructor <;> linarith
  · intro interp hcont hex
    have hN : trackN 0 1 10 = 8726 := by
      unfold trackN trackBox
      have : ⌊((1 + (1 - 0) * (1 / 100) / 2 : ℝ) - (0 - (1 - 0) * (1 / 100) / 2)) * 24 * 3600 / 10⌋ = 8726 := by
        rw [Int.floor_eq_iff]; norm_num
      simp only
      rw [this]; rfl
    have hnode : ∀ k : ℕ, trackNode 0 1 10 k = -1 / 200 + 101 / 100 * k / 8725 := by
      intro k
      unfold trackNode
      rw [hN]
      unfold trackBox
      push_cast; ring
    set f : ℕ → ℝ := fun k => rewindPi (π + (trackNode 0 1 10 k - 1 / 2) / 10) with hf
    have f0 : 0 ≤ interp f 4362 := by
      have := hex f 4362
      push_cast at this
      rw [this, hf]
      simp only
      rw [hnode, hlow _ (by norm_num) (by norm_num)]
      norm_num; linarith
    have f1 : interp f 4363 ≤ 0 := by
      have := hex f 4363
      push_cast at this
      rw [this, hf]
      simp only
      rw [hnode, hhigh _ (by norm_num) (by norm_num)]
      norm_num; linarith
    obtain ⟨x, ⟨hx0, hx1⟩, hx⟩ := intermediate_value_Icc' (show (4362 : ℝ) ≤ 4363 by norm_num) (hcont f).continuousOn (show (0 : ℝ) ∈ _ from ⟨f1, f0⟩)
    refine ⟨-1 / 200 + 101 / 100 * x / 8725, by linarith, by linarith, ?_⟩
    have hi : trackInd 0 1 10 (-1 / 200 + 101 / 100 * x / 8725) = some x := by
      unfold trackInd
      rw [hN]
      unfold trackBox
      simp only
      rw [if_neg (by norm_num)]
      congr 1
      push_cast; ring
    unfold trackRa
    rw [hi, Option.map_some]
    exact congrArg some hx

/-! Cases that meet the hypotheses. -/

/-- Numbers 0, 10 and 20, the Moon at (1, 1/2), and systems with the same coordinates. -/
noncomputable def toyEnv : SysEnv where
  num w := if w = "0".toList then some 0 else if w = "10".toList then some 10 else if w = "20".toList then some 20 else none
  ephem w := if w = "Moon".toList then some (1, 1 / 2) else none
  conv _ _ p := some p

example : sysTransform toyEnv (some []) 5 "cel".toList "cel:10_20:gal/0_0".toList (10 * (π / 180), 20 * (π / 180)) = some (0, 0) := by
  have h := C182_centre toyEnv (some []) 5 (Or.inr (Or.inl rfl)) (b := "cel".toList) (x := "10".toList) (y := "20".toList) (u := "0".toList)
    (v := "0".toList) (s := some "gal".toList) (t := none) (B := .icrs) (S := .galactic) (T := .galactic) (X := 10) (Y := 20) (U := 0) (V := 0)
    (P := (10 * (π / 180), 20 * (π / 180))) (Q := (0, 0)) (by unfold Plain; decide) (by unfold Plain; decide) (by unfold Plain; decide)
    (by unfold Plain; decide) (by unfold Plain; decide) (by decide) ⟨by unfold Plain; decide, by decide⟩ rfl (by simp [toyEnv]) (by simp [toyEnv])
    (by simp [toyEnv]) (by simp [toyEnv]) (by simp [SysEnv.to, toyEnv]) (by simp [SysEnv.to, toyEnv]) (by simp [pi_pos]) (by simp [pi_pos.le])
    (by simp [pi_pos]) (by simp [pi_pos])
  exact h

example : getsysFull toyEnv (some []) "cel:Moon/0_0".toList = none :=
  C182_object_refuted toyEnv (b := "cel".toList) (w := "Moon".toList) (u := "0".toList) (v := "0".toList) (B := .icrs) (by unfold Plain; decide)
    (by unfold Plain; decide) (by unfold Plain; decide) (by unfold Plain; decide) (by decide) (by simp [toyEnv]) 0 0 (by simp [toyEnv]) (by simp [toyEnv])

example : transLoop (convStep fun _ _ (p : ℕ) => p) 5 .tele .galactic (some 3) = some none :=
  C182_horizon_refuted _ 5 (by norm_num) .tele .galactic (by simp [Local]) 3

end Pixell
