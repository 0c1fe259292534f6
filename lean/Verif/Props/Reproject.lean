import Verif.Model.Reproject
import Verif.Props.Coordinates
import Verif.Props.FlatFourier

/-
C138: healpix maps and pixell maps looked up in each other by position.
-/
namespace Pixell

open Real

/-! ### Specification -/

/-- The rotation that takes a coordinate system to celestial coordinates. -/
noncomputable def systemToCel (s : List Char) : Option (Matrix (Fin 3) (Fin 3) ℝ) :=
  if s = "gal".toList then some (fromEulerZyz gal2cel.1 gal2cel.2.1 gal2cel.2.2)
  else if s = "cel".toList ∨ s = "equ".toList then some 1 else none

/-- R is the rotation a description asks for: for "a,b" from system a to celestial coordinates and from there to system b. -/
def RotationOf : RotSpec → Matrix (Fin 3) (Fin 3) ℝ → Prop
  | .angles a b c, R => R = fromEulerZyz a b c
  | .text s, R => ∃ x y A B, s = x ++ ',' :: y ∧ ',' ∉ x ∧ ',' ∉ y ∧ systemToCel x = some A ∧ systemToCel y = some B ∧ B * R = A

/-- `v'` are the values `v` with every pair of a non-zero spin turned by the angle -spin*a, as complex numbers. -/
def SpinTurned (spin : List ℤ) (n : ℕ) (a : ℝ) (v v' : ℕ → ℝ) : Prop :=
  ∃ gs, spinHelper (n + 1) spin n = (gs, some true) ∧ ∀ s c1 c2, (s, c1, c2) ∈ gs →
    (s = 0 → v' c1 = v c1) ∧
    (s ≠ 0 → (v' c1 : ℂ) + v' (c1 + 1) * Complex.I = (v c1 + v (c1 + 1) * Complex.I) * Complex.exp (-(s * a * Complex.I)))

/-- `v` are the right values for a pixel with centre p: the values of the input at the position q that the rotation takes to p,
with the polarization turned. -/
def LookedUp (rot : Option RotSpec) (spin : List ℤ) (ncomp : Option ℕ) (angf : ℝ × ℝ × ℝ → ℝ × ℝ → ℝ) (look : ℝ × ℝ → ℕ → ℝ) (p : ℝ × ℝ)
    (v : ℕ → ℝ) : Prop :=
  (rot = none → v = look p) ∧
  ∀ r, rot = some r → ∃ (R : Matrix (Fin 3) (Fin 3) ℝ) (e : ℝ × ℝ × ℝ) (q : ℝ × ℝ), RotationOf r R ∧ R = fromEulerZyz e.1 e.2.1 e.2.2 ∧
    R.mulVec (ang2rect false q.1 q.2) = ang2rect false p.1 p.2 ∧
    (ncomp = none → v = look q) ∧ ∀ n, ncomp = some n → SpinTurned spin n (angf e p) (look q) v

/-- as_euler gives angles of the rotation it is asked about. -/
def AsEuler (asEuler : Matrix (Fin 3) (Fin 3) ℝ → ℝ × ℝ × ℝ) : Prop :=
  ∀ a b c, let e := asEuler (fromEulerZyz a b c); fromEulerZyz e.1 e.2.1 e.2.2 = fromEulerZyz a b c

/-- The components of a map can be grouped by spin. -/
def SpinsFit (spin : List ℤ) (ncomp : Option ℕ) : Prop := ∀ n, ncomp = some n → (spinHelper (n + 1) spin n).2 = some true

/-- The positions of healpix pixels, as (ra,dec). -/
noncomputable def centreOf (a : ℝ × ℝ) : ℝ × ℝ := (a.2, π / 2 - a.1)

/-! ### Rotations -/

theorem fromEulerZyz_inv (a b c : ℝ) : fromEulerZyz a b c * fromEulerZyz (-c) (-b) (-a) = 1 := by
  have := euler_cancel c b a .z .y .z
  simpa only [eulerMat, fromEulerZyz] using this

theorem fromEulerZyz_inv' (a b c : ℝ) : (fromEulerZyz a b c)⁻¹ = fromEulerZyz (-c) (-b) (-a) :=
  Matrix.inv_eq_right_inv (fromEulerZyz_inv a b c)

theorem fromEulerZyz_zero : fromEulerZyz 0 0 0 = 1 := by
  have := fromEulerZyz_inv 0 0 0
  have h : rotmatrix 0 .z = 1 ∧ rotmatrix 0 .y = 1 := by
    constructor <;>
    · simp only [rotmatrix, cos_zero, sin_zero]
      ext i j
      fin_cases i <;> fin_cases j <;> simp
  unfold fromEulerZyz
  rw [h.1, h.2]; simp

theorem lookPos_spec (e : ℝ × ℝ × ℝ) (p : ℝ × ℝ) :
    (fromEulerZyz e.1 e.2.1 e.2.2).mulVec (ang2rect false (lookPos e p).1 (lookPos e p).2) = ang2rect false p.1 p.2 := by
  unfold lookPos invEuler
  dsimp only
  rw [eulerRot_rect, Matrix.mulVec_mulVec]
  have : fromEulerZyz e.1 e.2.1 e.2.2 * eulerMat (-e.1) (-e.2.1) (-e.2.2) .z .y .z = 1 := euler_cancel e.2.2 e.2.1 e.1 .z .y .z
  rw [this, Matrix.one_mulVec]

theorem pySplit_nil (c : Char) (l : List Char) : pySplit c l ≠ [] := by
  cases l with
  | nil => simp [pySplit]
  | cons x xs =>
    unfold pySplit
    split
    · simp
    · split <;> simp

theorem pySplit_one (c : Char) (l y : List Char) : pySplit c l = [y] ↔ l = y ∧ c ∉ y := by
  induction l generalizing y with
  | nil =>
    simp only [pySplit]
    constructor
    · intro h; cases h; simp
    · rintro ⟨rfl, -⟩; rfl
  | cons x xs ih =>
    unfold pySplit
    by_cases hx : x = c
    · rw [if_pos hx]
      constructor
      · intro h
        have := (List.cons.inj h).2
        exact absurd this (pySplit_nil c xs)
      · rintro ⟨h, h2⟩
        exact absurd (by rw [← h, hx]; simp) h2
    · rw [if_neg hx]
      rcases hs : pySplit c xs with _ | ⟨t, ts⟩
      · exact absurd hs (pySplit_nil c xs)
      · dsimp only
        constructor
        · intro h
          obtain ⟨h1, h2⟩ := List.cons.inj h
          subst h2
          obtain ⟨e1, e2⟩ := (ih t).1 hs
          rw [← h1, e1]
          refine ⟨rfl, ?_⟩
          rw [List.mem_cons]
          rintro (h | h)
          · exact hx h.symm
          · exact e2 h
        · rintro ⟨h1, h2⟩
          rw [← h1, List.mem_cons] at h2
          have := (ih xs).2 ⟨rfl, fun h => h2 (.inr h)⟩
          rw [this] at hs
          cases hs
          rw [h1]

theorem pySplit_two (c : Char) (l x y : List Char) : pySplit c l = [x, y] ↔ l = x ++ c :: y ∧ c ∉ x ∧ c ∉ y := by
  induction l generalizing x with
  | nil => simp [pySplit]
  | cons a xs ih =>
    unfold pySplit
    by_cases hx : a = c
    · rw [if_pos hx]
      constructor
      · intro h
        obtain ⟨h1, h2⟩ := List.cons.inj h
        obtain ⟨e1, e2⟩ := (pySplit_one c xs y).1 h2
        subst h1
        refine ⟨by rw [hx, e1]; rfl, by simp, e2⟩
      · rintro ⟨h1, h2, h3⟩
        cases x with
        | nil =>
          obtain ⟨-, e⟩ := List.cons.inj h1
          rw [(pySplit_one c xs y).2 ⟨e, h3⟩]
        | cons b bs =>
          obtain ⟨e, -⟩ := List.cons.inj h1
          exact absurd (by rw [← e, hx]; simp) h2
    · rw [if_neg hx]
      rcases hs : pySplit c xs with _ | ⟨t, ts⟩
      · exact absurd hs (pySplit_nil c xs)
      · dsimp only
        constructor
        · intro h
          obtain ⟨h1, h2⟩ := List.cons.inj h
          subst h2
          obtain ⟨e1, e2, e3⟩ := (ih t).1 hs
          rw [← h1, e1]
          refine ⟨rfl, ?_, e3⟩
          rw [List.mem_cons]
          rintro (h | h)
          · exact hx h.symm
          · exact e2 h
        · rintro ⟨h1, h2, h3⟩
          cases x with
          | nil =>
            obtain ⟨e, -⟩ := List.cons.inj h1
            exact absurd e hx
          | cons b bs =>
            obtain ⟨e, e'⟩ := List.cons.inj h1
            rw [List.mem_cons] at h2
            have := (ih bs).2 ⟨e', fun h => h2 (.inr h), h3⟩
            rw [this] at hs
            cases hs
            rw [e]

theorem rotSys (s : List Char) : rotIsys s = systemToCel s ∧ rotOsys s = (systemToCel s).map fun A => A⁻¹ := by
  unfold rotIsys rotOsys systemToCel
  by_cases h1 : s = "gal".toList
  · have h2 : ¬ (s = "cel".toList ∨ s = "equ".toList) := by rw [h1]; decide
    simp only [if_neg h2, if_pos h1, Option.map_some, and_self]
  · rw [if_neg h1, if_neg h1, if_neg h1]
    by_cases h2 : s = "cel".toList ∨ s = "equ".toList
    · simp only [if_pos h2, Option.map_some, inv_one, and_self]
    · simp only [if_neg h2, Option.map_none, and_self]

theorem systemToCel_euler {s : List Char} {A : Matrix (Fin 3) (Fin 3) ℝ} (h : systemToCel s = some A) :
    (A = 1 ∨ A = fromEulerZyz gal2cel.1 gal2cel.2.1 gal2cel.2.2) := by
  unfold systemToCel at h
  split at h
  · exact .inr (Option.some.inj h).symm
  · split at h
    · exact .inl (Option.some.inj h).symm
    · cases h

/-- The angles found are those of the rotation asked for, and there is an error exactly if the description does not
make sense. -/
theorem rot2euler_spec (asEuler : Matrix (Fin 3) (Fin 3) ℝ → ℝ × ℝ × ℝ) (hE : AsEuler asEuler) (r : RotSpec) :
    (∀ e, rot2euler asEuler r = some e → RotationOf r (fromEulerZyz e.1 e.2.1 e.2.2)) ∧
    ((∃ R, RotationOf r R) → (rot2euler asEuler r).isSome) := by
  cases r with
  | angles a b c => exact ⟨fun e h => by cases h; rfl, fun _ => rfl⟩
  | text s =>
    constructor
    · intro e h
      unfold rot2euler at h
      dsimp only at h
      split at h
      · rename_i x y hs
        obtain ⟨h1, h2, h3⟩ := (pySplit_two _ _ _ _).1 hs
        rw [(rotSys x).1, (rotSys y).2] at h
        rcases hA : systemToCel x with _ | A
        · rw [hA] at h; cases h
        rcases hB : systemToCel y with _ | B
        · rw [hA, hB] at h; cases h
        rw [hA, hB] at h
        have he : e = asEuler (1 * A * B⁻¹) := (Option.some.inj h).symm
        refine ⟨x, y, A, B, h1, h2, h3, hA, hB, ?_⟩
        have key : ∃ a b c, 1 * A * B⁻¹ = fromEulerZyz a b c ∧ B * (1 * A * B⁻¹) = A := by
          set G := fromEulerZyz gal2cel.1 gal2cel.2.1 gal2cel.2.2 with hG
          have hGi : G * G⁻¹ = 1 := by rw [hG, fromEulerZyz_inv']; exact fromEulerZyz_inv _ _ _
          rcases systemToCel_euler hA with rfl | rfl <;> rcases systemToCel_euler hB with rfl | rfl
          · exact ⟨0, 0, 0, by rw [fromEulerZyz_zero]; simp, by simp⟩
          · exact ⟨-gal2cel.2.2, -gal2cel.2.1, -gal2cel.1, by rw [fromEulerZyz_inv', one_mul, one_mul], by rw [one_mul, one_mul, hGi]⟩
          · exact ⟨_, _, _, by rw [one_mul, inv_one, mul_one], by simp⟩
          · refine ⟨0, 0, 0, by rw [fromEulerZyz_zero, one_mul, hGi], by rw [one_mul, hGi, mul_one]⟩
        obtain ⟨a, b, c, k1, k2⟩ := key
        have := hE a b c
        dsimp only at this
        rw [he, k1, this, ← k1, k2]
      · cases h
    · rintro ⟨R, x, y, A, B, h1, h2, h3, hA, hB, -⟩
      unfold rot2euler
      dsimp only
      rw [(pySplit_two _ _ _ _).2 ⟨h1, h2, h3⟩]
      dsimp only
      rw [(rotSys x).1, (rotSys y).2, hA, hB]
      rfl

/-! ### Polarization -/

theorem rotatePol_other (a : ℝ) (p q : ℕ) (s : ℤ) (m : ℕ → ℝ) (i : ℕ) (h1 : i ≠ p) (h2 : i ≠ q) : rotatePol a p q s m i = m i := by
  unfold rotatePol
  split
  · rfl
  · show (if i = q then _ else if i = p then _ else m i) = m i
    rw [if_neg h2, if_neg h1]

theorem rotatePol_pair (a : ℝ) (p : ℕ) (s : ℤ) (hs : s ≠ 0) (m : ℕ → ℝ) :
    ((rotatePol (-a) p (p + 1) s m p : ℝ) : ℂ) + (rotatePol (-a) p (p + 1) s m (p + 1) : ℝ) * Complex.I =
      (m p + m (p + 1) * Complex.I) * Complex.exp (-(s * a * Complex.I)) := by
  have e : -((s : ℂ) * a * Complex.I) = ((s * -a : ℝ) : ℂ) * Complex.I := by push_cast; ring
  rw [e, Complex.exp_mul_I, ← Complex.ofReal_cos, ← Complex.ofReal_sin]
  unfold rotatePol
  rw [if_neg hs]
  rw [if_neg (show ¬ p = p + 1 by omega), if_pos rfl, if_pos rfl]
  push_cast
  have := Complex.I_sq
  linear_combination (-(m (p + 1) : ℂ) * Complex.sin (s * -a)) * this

theorem polLoop_spec (guard : Bool) (ang : Option ℝ) (a : ℝ) (n : ℕ) (gs : List (ℤ × ℕ × ℕ)) (hg : GoodGroups n gs)
    (ha : ∀ g ∈ gs, g.1 ≠ 0 → ang = some a) (ha2 : guard = false → gs ≠ [] → ang = some a) (v : ℕ → ℝ) :
    ∃ v', polLoop guard ang gs v = some v' ∧ (∀ c, (∀ g ∈ gs, c < g.2.1) → v' c = v c) ∧
      ∀ s c1 c2, (s, c1, c2) ∈ gs → (s = 0 → v' c1 = v c1) ∧
        (s ≠ 0 → (v' c1 : ℂ) + v' (c1 + 1) * Complex.I = (v c1 + v (c1 + 1) * Complex.I) * Complex.exp (-(s * a * Complex.I))) := by
  induction gs generalizing v with
  | nil => exact ⟨v, rfl, fun _ _ => rfl, fun _ _ _ h => by cases h⟩
  | cons g gs ih =>
    obtain ⟨s, c1, c2⟩ := g
    have hpw := (List.pairwise_cons.1 hg.1).1
    have hlt := hg.2.2.2 (s, c1, c2) List.mem_cons_self
    dsimp only at hlt
    have hstart : ∀ c, c < c2 → ∀ g ∈ gs, c < g.2.1 := fun c hc g hgm => lt_of_lt_of_le hc (hpw g hgm)
    have ih' := ih hg.tail (fun g hgm => ha g (List.mem_cons_of_mem _ hgm))
      (fun h _ => ha2 h (List.cons_ne_nil _ _))
    by_cases hcond : guard = true ∧ s = 0
    · obtain ⟨v', e, hk, hv⟩ := ih' v
      refine ⟨v', ?_, ?_, ?_⟩
      · unfold polLoop; rw [if_pos hcond, e]
      · intro c hc
        exact hk c fun g hgm => hc g (List.mem_cons_of_mem _ hgm)
      · intro s' d1 d2 hm
        rcases List.mem_cons.1 hm with h | h
        · cases h
          exact ⟨fun _ => hk c1 (hstart c1 hlt), fun h => absurd hcond.2 h⟩
        · exact hv s' d1 d2 h
    · have hang : ang = some a := by
        by_cases hs : s = 0
        · apply ha2
          · cases guard
            · rfl
            · exact absurd ⟨rfl, hs⟩ hcond
          · exact List.cons_ne_nil _ _
        · exact ha (s, c1, c2) List.mem_cons_self hs
      obtain ⟨v', e, hk, hv⟩ := ih' (rotatePol (-a) c1 (c2 - 1) s v)
      refine ⟨v', ?_, ?_, ?_⟩
      · unfold polLoop; rw [if_neg hcond, hang]
        dsimp only
        rw [hang] at e
        exact e
      · intro c hc
        have h0 := hc (s, c1, c2) List.mem_cons_self
        dsimp only at h0
        rw [hk c fun g hgm => hc g (List.mem_cons_of_mem _ hgm), rotatePol_other _ _ _ _ _ _ (by omega) (by omega)]
      · intro s' d1 d2 hm
        rcases List.mem_cons.1 hm with h | h
        · cases h
          have k1 := hk c1 (hstart c1 hlt)
          constructor
          · intro hs
            rw [k1]; unfold rotatePol; rw [if_pos hs]
          · intro hs
            have h2 := hg.2.1 (s, c1, c2) List.mem_cons_self hs
            dsimp only at h2
            subst h2
            rw [k1, hk (c1 + 1) (hstart (c1 + 1) (by omega))]
            exact rotatePol_pair a c1 s hs v
        · have h0 := hpw (s', d1, d2) h
          dsimp only at h0
          obtain ⟨r1, r2⟩ := hv s' d1 d2 h
          rw [rotatePol_other _ _ _ _ _ d1 (by omega) (by omega)] at r1 r2
          rw [rotatePol_other _ _ _ _ _ (d1 + 1) (by omega) (by omega)] at r2
          exact ⟨r1, r2⟩

/-- The values for one pixel. Without the check for spin zero there must be something to turn, or no rotation, or no
components. -/
theorem pixelVals_spec (guard : Bool) (asEuler : Matrix (Fin 3) (Fin 3) ℝ → ℝ × ℝ × ℝ) (hE : AsEuler asEuler) (rot : Option RotSpec)
    (hR : ∀ r, rot = some r → ∃ R, RotationOf r R) (spin : List ℤ) (ncomp : Option ℕ) (hS : SpinsFit spin ncomp)
    (angf : ℝ × ℝ × ℝ → ℝ × ℝ → ℝ) (look : ℝ × ℝ → ℕ → ℝ) (p : ℝ × ℝ)
    (hguard : guard = false → rot = none ∨ ncomp = none ∨ ∀ n, ncomp = some n → ∃ g ∈ (spinHelper (n + 1) spin n).1, g.1 ≠ 0) :
    ∃ v, pixelVals guard asEuler rot spin ncomp angf look p = some v ∧ LookedUp rot spin ncomp angf look p v := by
  cases ncomp with
  | none =>
    cases rot with
    | none => exact ⟨_, rfl, ⟨fun _ => rfl, fun r h => by cases h⟩⟩
    | some r =>
      obtain ⟨e, he⟩ := Option.isSome_iff_exists.1 ((rot2euler_spec asEuler hE r).2 (hR r rfl))
      refine ⟨look (lookPos e p), ?_, ⟨fun h => by simp at h, ?_⟩⟩
      · unfold pixelVals
        dsimp only
        rw [he]; rfl
      · intro r' h
        cases h
        exact ⟨_, e, lookPos e p, (rot2euler_spec asEuler hE r).1 e he, rfl, lookPos_spec e p, fun _ => rfl, fun n h => by cases h⟩
  | some n =>
    have hS' := hS n rfl
    have hgr : spinGroups spin n = some (spinHelper (n + 1) spin n).1 := by
      unfold spinGroups
      dsimp only
      rw [if_pos hS']
    cases rot with
    | none =>
      refine ⟨look p, ?_, ⟨fun _ => rfl, fun r h => by cases h⟩⟩
      unfold pixelVals
      dsimp only
      rw [hgr]
    | some r =>
      obtain ⟨e, he⟩ := Option.isSome_iff_exists.1 ((rot2euler_spec asEuler hE r).2 (hR r rfl))
      set gs := (spinHelper (n + 1) spin n).1 with hgs
      set ang : Option ℝ := if (gs.any fun g => decide (g.1 ≠ 0)) = true then some (angf e p) else none with hang
      have hpol : (∃ g ∈ gs, g.1 ≠ 0) → ang = some (angf e p) := by
        rintro ⟨g, hg, h⟩
        rw [hang, if_pos]
        rw [List.any_eq_true]
        exact ⟨g, hg, by simpa using h⟩
      obtain ⟨v, hv, -, hv2⟩ := polLoop_spec guard ang (angf e p) n gs (spinHelper_groups spin n hS')
        (fun g hg h => hpol ⟨g, hg, h⟩)
        (fun h _ => by
          rcases hguard h with h | h | h
          · cases h
          · cases h
          · exact hpol (h n rfl)) (look (lookPos e p))
      refine ⟨v, ?_, ⟨fun h => by simp at h, ?_⟩⟩
      · unfold pixelVals
        dsimp only
        rw [hgr]
        dsimp only
        rw [he]
        exact hv
      · intro r' h
        cases h
        refine ⟨_, e, lookPos e p, (rot2euler_spec asEuler hE r).1 e he, rfl, lookPos_spec e p, fun h => (by cases h), ?_⟩
        intro n' h
        cases h
        exact ⟨gs, by rw [← hS'], hv2⟩

/-! ### Batches -/

theorem fillBatches_spec {α : Type} (val : ℕ → Option α) (bs : List (ℕ × ℕ)) (out : ℕ → α) :
    (∀ res, fillBatches val bs out = some res →
      (∀ i, (∃ b ∈ bs, b.1 ≤ i ∧ i < b.2) → val i = some (res i)) ∧ ∀ i, (∀ b ∈ bs, ¬ (b.1 ≤ i ∧ i < b.2)) → res i = out i) ∧
    ((∀ b ∈ bs, ∀ i, b.1 ≤ i → i < b.2 → (val i).isSome) → (fillBatches val bs out).isSome) := by
  induction bs generalizing out with
  | nil =>
    constructor
    · intro res h
      cases h
      exact ⟨fun i h => by obtain ⟨b, hb, _⟩ := h; simp at hb, fun _ _ => rfl⟩
    · intro _; rfl
  | cons b bs ih =>
    obtain ⟨i1, i2⟩ := b
    constructor
    · intro res h
      unfold fillBatches at h
      split at h
      · rename_i hall
        obtain ⟨h1, h2⟩ := (ih _).1 res h
        refine ⟨?_, ?_⟩
        · rintro i ⟨b, hb, hi⟩
          by_cases hex : ∃ b ∈ bs, b.1 ≤ i ∧ i < b.2
          · exact h1 i hex
          · push Not at hex
            have hr := h2 i fun b hb h => absurd (hex b hb h.1) (by omega)
            have hb' : i1 ≤ i ∧ i < i2 := by
              rcases List.mem_cons.1 hb with rfl | hb
              · exact hi
              · exact absurd (hex b hb hi.1) (by omega)
            rw [if_pos hb'] at hr
            obtain ⟨w, hw⟩ := Option.isSome_iff_exists.1 (hall i hb'.1 hb'.2)
            rw [hw] at hr ⊢
            rw [hr]; rfl
        · intro i hi
          rw [h2 i fun b hb => hi b (List.mem_cons_of_mem _ hb), if_neg (hi (i1, i2) List.mem_cons_self)]
      · cases h
    · intro hall
      unfold fillBatches
      rw [if_pos (hall (i1, i2) List.mem_cons_self)]
      exact (ih _).2 fun b hb => hall b (List.mem_cons_of_mem _ hb)

theorem batchList_cover (n bsize : ℕ) (hb : 0 < bsize) (i : ℕ) : (∃ b ∈ batchList n bsize, b.1 ≤ i ∧ i < b.2) ↔ i < n := by
  unfold batchList
  constructor
  · rintro ⟨b, hm, h1, h2⟩
    obtain ⟨k, -, rfl⟩ := List.mem_map.1 hm
    exact lt_of_lt_of_le h2 (min_le_right _ _)
  · intro hi
    have hk := Nat.div_add_mod i bsize
    have hm := Nat.mod_lt i hb
    refine ⟨_, List.mem_map.2 ⟨i / bsize, ?_, rfl⟩, ?_, ?_⟩
    · rw [List.mem_range, Nat.div_lt_iff_lt_mul hb]
      have : i < (n + bsize - 1) / bsize * bsize ∨ n ≤ (n + bsize - 1) / bsize * bsize := by
        right
        have h1 := Nat.div_add_mod (n + bsize - 1) bsize
        have h2 := Nat.mod_lt (n + bsize - 1) hb
        rw [mul_comm] at h1
        omega
      rcases this with h | h
      · exact h
      · omega
    · dsimp only; rw [mul_comm]; omega
    · dsimp only; rw [lt_min_iff]; refine ⟨?_, hi⟩; rw [mul_comm]; omega

/-- Filling in batches gives the values of all elements, whatever the batch size, and fails exactly if one of them fails. -/
theorem fillBatches_all {α : Type} (val : ℕ → Option α) (n bsize : ℕ) (hb : 0 < bsize) (out : ℕ → α) :
    (∀ res, fillBatches val (batchList n bsize) out = some res → ∀ i, i < n → val i = some (res i)) ∧
    ((∀ i, i < n → (val i).isSome) → (fillBatches val (batchList n bsize) out).isSome) := by
  refine ⟨fun res h i hi => ((fillBatches_spec val _ out).1 res h).1 i ((batchList_cover n bsize hb i).2 hi), fun h => ?_⟩
  apply (fillBatches_spec val _ out).2
  intro b hm i h1 h2
  exact h i ((batchList_cover n bsize hb i).1 ⟨b, hm, h1, h2⟩)

/-! ### The functions -/

/-- C138: map2healpix with method="spline". Every pixel of the output gets the values of the input at the position that the
rotation takes to the centre of the pixel, with the polarization turned, for any batch size. An extensive map is first divided by
the area of its pixels and multiplied by that of the output's. -/
theorem C138_map2healpix (asEuler : Matrix (Fin 3) (Fin 3) ℝ → ℝ × ℝ × ℝ) (hE : AsEuler asEuler) (angf : ℝ × ℝ × ℝ → ℝ × ℝ → ℝ)
    (interp : (ℕ → ℕ → ℝ) → ℝ × ℝ → ℕ → ℝ) (pix2ang : ℕ → ℕ → ℝ × ℝ) (ipixsize : ℕ → ℝ) (auto ns : ℕ) (nside outGiven : Option ℕ)
    (hns : nside = some ns ∨ nside = none ∧ outGiven = none ∧ ns = auto) (rot : Option RotSpec) (hR : ∀ r, rot = some r → ∃ R, RotationOf r R)
    (spin : List ℤ) (ncomp : Option ℕ) (hS : SpinsFit spin ncomp) (extensive : Bool) (bsize : ℕ) (hb : 0 < bsize) (imap : ℕ → ℕ → ℝ)
    (npix : ℕ) (hn : npix = outGiven.getD (12 * ns ^ 2)) :
    ∃ out, map2healpix asEuler angf interp pix2ang ipixsize auto nside outGiven rot spin ncomp extensive bsize imap = some out ∧
      ∀ i, i < npix → LookedUp rot spin ncomp angf
        (interp fun c j => if extensive then imap c j / ipixsize j * (4 * π / npix) else imap c j) (centreOf (pix2ang ns i)) (out i) := by
  have hns' : (if outGiven.isSome then nside else some (nside.getD auto)) = some ns := by
    rcases hns with rfl | ⟨rfl, rfl, rfl⟩
    · split <;> rfl
    · rfl
  have hmap : (if extensive then fun c j => imap c j * (4 * π / npix / ipixsize j) else imap) =
      fun c j => if extensive then imap c j / ipixsize j * (4 * π / npix) else imap c j := by
    cases extensive
    · rfl
    · funext c j
      simp only [if_true]
      ring
  have hpix := fun i => pixelVals_spec true asEuler hE rot hR spin ncomp hS angf
    (interp fun c j => if extensive then imap c j / ipixsize j * (4 * π / npix) else imap c j) (centreOf (pix2ang ns i)) (fun h => by cases h)
  unfold map2healpix
  dsimp only
  rw [hns']
  dsimp only [Option.getD_some]
  rw [← hn, hmap, if_neg (show ¬ bsize = 0 by omega)]
  obtain ⟨f1, f2⟩ := fillBatches_all (fun i => pixelVals true asEuler rot spin ncomp angf
    (interp fun c j => if extensive then imap c j / ipixsize j * (4 * π / npix) else imap c j) (centreOf (pix2ang ns i))) npix bsize hb (fun _ _ => 0)
  obtain ⟨out, ho⟩ := Option.isSome_iff_exists.1 (f2 fun i _ => by obtain ⟨v, hv, -⟩ := hpix i; rw [hv]; rfl)
  refine ⟨out, ho, fun i hi => ?_⟩
  obtain ⟨v, hv, hl⟩ := hpix i
  have := f1 out ho i hi
  rw [hv] at this
  cases this
  exact hl

/-- C138: healpix2map with method="spline": the same, for a map where some spin is not zero, or that has no components, or
without a rotation. An extensive map is scaled by the ratio of the pixel areas. -/
theorem C138_healpix2map_partial (asEuler : Matrix (Fin 3) (Fin 3) ℝ → ℝ × ℝ × ℝ) (hE : AsEuler asEuler) (angf : ℝ × ℝ × ℝ → ℝ × ℝ → ℝ)
    (interp : (ℕ → ℕ → ℝ) → ℝ × ℝ → ℕ → ℝ) (ny nx npix : ℕ) (hx : 0 < nx) (pos : ℕ → ℕ → ℝ × ℝ) (pixsize : ℕ → ℕ → ℝ) (rot : Option RotSpec)
    (hR : ∀ r, rot = some r → ∃ R, RotationOf r R) (spin : List ℤ) (ncomp : Option ℕ) (hS : SpinsFit spin ncomp)
    (hpol : rot = none ∨ ncomp = none ∨ ∀ n, ncomp = some n → ∃ g ∈ (spinHelper (n + 1) spin n).1, g.1 ≠ 0)
    (extensive : Bool) (bsize : ℕ) (hb : 0 < bsize) (iheal : ℕ → ℕ → ℝ) :
    ∃ out, healpix2map asEuler angf interp ny nx npix pos pixsize rot spin ncomp extensive bsize iheal = some out ∧
      ∀ y x, y < ny → x < nx → ∃ v, LookedUp rot spin ncomp angf (fun q => interp iheal (π / 2 - q.2, q.1)) (pos y x) v ∧
        ∀ c, out y x c = if extensive then v c / (4 * π / npix) * pixsize y x else v c := by
  have hpix := fun y x => pixelVals_spec false asEuler hE rot hR spin ncomp hS angf (fun q => interp iheal (π / 2 - q.2, q.1)) (pos y x)
    (fun _ => hpol)
  have hbrow : 0 < (bsize + nx - 1) / nx := Nat.div_pos (by omega) hx
  unfold healpix2map
  dsimp only
  rw [if_neg (show ¬ nx = 0 by omega), if_neg (show ¬ (bsize + nx - 1) / nx = 0 by omega)]
  set row := fun y x => pixelVals false asEuler rot spin ncomp angf (fun q => interp iheal (π / 2 - q.2, q.1)) (pos y x) with hrow
  set val : ℕ → Option (ℕ → ℕ → ℝ) := fun y =>
    if ∀ x ∈ List.range nx, (row y x).isSome then some fun x => (row y x).getD fun _ => 0 else none with hval
  have hv : ∀ y, val y = some fun x => (row y x).getD fun _ => 0 := by
    intro y
    rw [hval]
    dsimp only
    rw [if_pos]
    intro x _
    obtain ⟨v, hv, -⟩ := hpix y x
    rw [hrow]; dsimp only; rw [hv]; rfl
  obtain ⟨f1, f2⟩ := fillBatches_all val ny _ hbrow (fun _ _ _ => 0)
  obtain ⟨out, ho⟩ := Option.isSome_iff_exists.1 (f2 fun y _ => by rw [hv]; rfl)
  refine ⟨fun y x c => if extensive then out y x c * (pixsize y x / (4 * π / npix)) else out y x c, ?_, ?_⟩
  · rw [ho]; rfl
  · intro y x hy _
    obtain ⟨v, hv', hl⟩ := hpix y x
    refine ⟨v, hl, fun c => ?_⟩
    have := f1 out ho y hy
    rw [hv y] at this
    have e : out y x = v := by
      rw [← Option.some.inj this]
      show (pixelVals false asEuler rot spin ncomp angf (fun q => interp iheal (π / 2 - q.2, q.1)) (pos y x)).getD (fun _ => 0) = v
      rw [hv']; rfl
    dsimp only
    rw [e]
    cases extensive
    · rfl
    · simp only [if_true]; ring

/-- C138 fails: healpix2map raises an IndexError for every map with an axis of components that all have spin zero, as with
spin=[0], as soon as a rotation is asked for; map2healpix handles the same case. -/
theorem C138_scalar_refuted (asEuler : Matrix (Fin 3) (Fin 3) ℝ → ℝ × ℝ × ℝ) (angf : ℝ × ℝ × ℝ → ℝ × ℝ → ℝ)
    (interp : (ℕ → ℕ → ℝ) → ℝ × ℝ → ℕ → ℝ) (ny nx npix : ℕ) (hy : 0 < ny) (hx : 0 < nx) (pos : ℕ → ℕ → ℝ × ℝ) (pixsize : ℕ → ℕ → ℝ)
    (r : RotSpec) (spin : List ℤ) (n : ℕ) (hn : 0 < n) (hs : ∀ g ∈ (spinHelper (n + 1) spin n).1, g.1 = 0) (extensive : Bool) (bsize : ℕ)
    (hb : 0 < bsize) (iheal : ℕ → ℕ → ℝ) :
    healpix2map asEuler angf interp ny nx npix pos pixsize (some r) spin (some n) extensive bsize iheal = none := by
  have hbrow : 0 < (bsize + nx - 1) / nx := Nat.div_pos (by omega) hx
  have hrow : pixelVals false asEuler (some r) spin (some n) angf (fun q => interp iheal (π / 2 - q.2, q.1)) (pos 0 0) = none := by
    unfold pixelVals
    dsimp only
    unfold spinGroups
    dsimp only
    by_cases hS : (spinHelper (n + 1) spin n).2 = some true
    · rw [if_pos hS]
      dsimp only
      cases rot2euler asEuler r with
      | none => rfl
      | some e =>
        dsimp only
        have hp : ((spinHelper (n + 1) spin n).1.any fun g => decide (g.1 ≠ 0)) = false := by
          rw [List.any_eq_false]
          intro g hg
          simp [hs g hg]
        rw [hp]
        have hne : (spinHelper (n + 1) spin n).1 ≠ [] := by
          intro h
          have hsp : spin ≠ [] := by
            rintro rfl
            rw [(C61_empty [] n n).1] at hS
            cases hS
          obtain ⟨i, ⟨t, ht, -⟩, -⟩ := C61_partition spin n hsp (n + 1) (by omega) hS 0 hn
          rw [h] at ht
          cases ht
        rcases hl : (spinHelper (n + 1) spin n).1 with _ | ⟨⟨s, c1, c2⟩, gs⟩
        · exact absurd hl hne
        · rfl
    · rw [if_neg hS]
  unfold healpix2map
  dsimp only
  rw [if_neg (show ¬ nx = 0 by omega), if_neg (show ¬ (bsize + nx - 1) / nx = 0 by omega)]
  rw [Option.map_eq_none_iff]
  by_contra hne
  obtain ⟨out, ho⟩ := Option.ne_none_iff_exists'.1 hne
  have := (fillBatches_all _ ny _ hbrow _).1 out ho 0 hy
  rw [if_neg] at this
  · cases this
  · intro h
    have := h 0 (List.mem_range.2 hx)
    rw [hrow] at this
    cases this

/-- C138 fails: map2healpix with method="spline" raises an error when the output array is passed and nside is not. -/
theorem C138_out_refuted (asEuler : Matrix (Fin 3) (Fin 3) ℝ → ℝ × ℝ × ℝ) (angf : ℝ × ℝ × ℝ → ℝ × ℝ → ℝ)
    (interp : (ℕ → ℕ → ℝ) → ℝ × ℝ → ℕ → ℝ) (pix2ang : ℕ → ℕ → ℝ × ℝ) (ipixsize : ℕ → ℝ) (auto npix : ℕ) (hn : 0 < npix) (rot : Option RotSpec)
    (spin : List ℤ) (ncomp : Option ℕ) (extensive : Bool) (bsize : ℕ) (imap : ℕ → ℕ → ℝ) :
    map2healpix asEuler angf interp pix2ang ipixsize auto none (some npix) rot spin ncomp extensive bsize imap = none := by
  unfold map2healpix
  dsimp only [Option.isSome_some, if_true, Option.getD_some, Option.getD_none]
  by_cases hb : bsize = 0
  · rw [if_pos hb]
  · rw [if_neg hb]
    by_contra hne
    obtain ⟨out, ho⟩ := Option.ne_none_iff_exists'.1 hne
    have := (fillBatches_all _ npix bsize (by omega) _).1 out ho 0 hn
    simp at this

/-- C138: the rotation of "b,a" undoes that of "a,b", and "a,a" is no rotation. -/
theorem C138_inverse (a b : List Char) (R S : Matrix (Fin 3) (Fin 3) ℝ) (hR : RotationOf (.text (a ++ ',' :: b)) R)
    (hS : RotationOf (.text (b ++ ',' :: a)) S) : R * S = 1 ∧ (a = b → R = 1) := by
  obtain ⟨x, y, A, B, h1, h2, h3, hA, hB, hR⟩ := hR
  obtain ⟨x', y', B', A', k1, k2, k3, hB', hA', hS⟩ := hS
  have uniq : ∀ (l x y x' y' : List Char), l = x ++ ',' :: y → ',' ∉ x → ',' ∉ y → l = x' ++ ',' :: y' → x = x' ∧ y = y' := by
    intro l x y x' y' e1 e2 e3 e4
    have hcount : (x' ++ ',' :: y').count ',' = 1 := by
      rw [← e4, e1, List.count_append, List.count_cons_self, List.count_eq_zero.2 e2, List.count_eq_zero.2 e3]
    rw [List.count_append, List.count_cons_self] at hcount
    have f1 : ',' ∉ x' := List.count_eq_zero.1 (by omega)
    have f2 : ',' ∉ y' := List.count_eq_zero.1 (by omega)
    have g1 := (pySplit_two ',' l x y).2 ⟨e1, e2, e3⟩
    have g2 := (pySplit_two ',' l x' y').2 ⟨e4, f1, f2⟩
    rw [g1] at g2
    simp only [List.cons.injEq, and_true] at g2
    exact g2
  obtain ⟨rfl, rfl⟩ := uniq _ x y a b h1 h2 h3 rfl
  obtain ⟨rfl, rfl⟩ := uniq _ x' y' y x k1 k2 k3 rfl
  rw [hA] at hA'
  rw [hB] at hB'
  cases hA'
  cases hB'
  have hinv : ∀ M, (M = 1 ∨ M = fromEulerZyz gal2cel.1 gal2cel.2.1 gal2cel.2.2) → ∃ N, N * M = 1 ∧ M * N = 1 := by
    rintro M (rfl | rfl)
    · exact ⟨1, by simp, by simp⟩
    · refine ⟨fromEulerZyz (-gal2cel.2.2) (-gal2cel.2.1) (-gal2cel.1), ?_, fromEulerZyz_inv _ _ _⟩
      have := fromEulerZyz_inv (-gal2cel.2.2) (-gal2cel.2.1) (-gal2cel.1)
      simpa only [neg_neg] using this
  obtain ⟨A1, a1, -⟩ := hinv A (systemToCel_euler hA)
  obtain ⟨B1, b1, -⟩ := hinv B (systemToCel_euler hB)
  constructor
  · calc R * S = B1 * B * R * (A1 * A * S) := by rw [a1, b1]; simp
      _ = B1 * (B * R) * A1 * (A * S) := by simp only [Matrix.mul_assoc]
      _ = 1 := by
        rw [hR, hS]
        have : A * A1 = 1 := mul_eq_one_comm.1 a1
        rw [Matrix.mul_assoc B1, this, mul_one, b1]
  · rintro rfl
    rw [hA] at hB
    cases hB
    calc R = A1 * (A * R) := by rw [← Matrix.mul_assoc, a1, one_mul]
      _ = 1 := by rw [hR, a1]

/-- C138: what strings are understood: two names among cel, equ and gal with a comma between, and nothing else. -/
theorem C138_systems (asEuler : Matrix (Fin 3) (Fin 3) ℝ → ℝ × ℝ × ℝ) (s : List Char) :
    (rot2euler asEuler (.text s)).isSome ↔
      ∃ x y, s = x ++ ',' :: y ∧ x ∈ ["cel".toList, "equ".toList, "gal".toList] ∧ y ∈ ["cel".toList, "equ".toList, "gal".toList] := by
  have hsys : ∀ x, (systemToCel x).isSome ↔ x ∈ ["cel".toList, "equ".toList, "gal".toList] := by
    intro x
    unfold systemToCel
    by_cases h1 : x = "gal".toList
    · rw [if_pos h1, h1]; simp
    · rw [if_neg h1]
      by_cases h2 : x = "cel".toList ∨ x = "equ".toList
      · rw [if_pos h2]
        rcases h2 with rfl | rfl <;> simp
      · rw [if_neg h2]
        push Not at h2
        simp only [List.mem_cons, List.not_mem_nil, or_false]
        constructor
        · intro h; cases h
        · rintro (h | h | h)
          · exact absurd h h2.1
          · exact absurd h h2.2
          · exact absurd h h1
  have hcomma : ∀ x, x ∈ ["cel".toList, "equ".toList, "gal".toList] → ',' ∉ x := by
    intro x hx
    simp only [List.mem_cons, List.not_mem_nil, or_false] at hx
    rcases hx with rfl | rfl | rfl <;> decide
  constructor
  · intro h
    unfold rot2euler at h
    dsimp only at h
    split at h
    · rename_i x y hs
      rw [(rotSys x).1, (rotSys y).2] at h
      refine ⟨x, y, ((pySplit_two _ _ _ _).1 hs).1, (hsys x).1 ?_, (hsys y).1 ?_⟩
      · rcases hA : systemToCel x with _ | A
        · rw [hA] at h; cases h
        · rfl
      · rcases hB : systemToCel y with _ | B
        · rw [hB] at h
          rcases hA : systemToCel x with _ | A <;> rw [hA] at h <;> cases h
        · rfl
    · cases h
  · rintro ⟨x, y, h1, h2, h3⟩
    unfold rot2euler
    dsimp only
    rw [(pySplit_two _ _ _ _).2 ⟨h1, hcomma x h2, hcomma y h3⟩]
    dsimp only
    rw [(rotSys x).1, (rotSys y).2]
    obtain ⟨A, hA⟩ := Option.isSome_iff_exists.1 ((hsys x).2 h2)
    obtain ⟨B, hB⟩ := Option.isSome_iff_exists.1 ((hsys y).2 h3)
    rw [hA, hB]
    rfl

/-! ### restrict_nside -/

/-- C138: restrict_nside gives an integer of the kind asked for and at least 1; rounding up it is not below the argument and as
close as the kind allows. For "mul32" this is for 12*nside²>1024. -/
theorem C138_nside_partial (x : ℝ) (hx : 0 < x) :
    (∀ mode rd, 1 ≤ restrictNside x mode rd) ∧
    (x ≤ restrictNside x .any .ceil ∧ (restrictNside x .any .ceil : ℝ) < x + 1) ∧
    (1024 < 12 * x ^ 2 → 32 ∣ restrictNside x .mul32 .ceil ∧ x ≤ restrictNside x .mul32 .ceil ∧ (restrictNside x .mul32 .ceil : ℝ) < x + 32) ∧
    (∀ rd, ∃ k : ℕ, restrictNside x .pow2 rd = 2 ^ k) ∧
    (x ≤ restrictNside x .pow2 .ceil ∧ (1 ≤ x → (restrictNside x .pow2 .ceil : ℝ) < 2 * x)) ∧
    (1 ≤ x → (restrictNside x .pow2 .floor : ℝ) ≤ x ∧ x < 2 * restrictNside x .pow2 .floor) := by
  have hpow : ∀ k : ℤ, max 1 ⌊(2 : ℝ) ^ k⌋ = 2 ^ k.toNat := by
    intro k
    by_cases hk : 0 ≤ k
    · obtain ⟨m, rfl⟩ := Int.eq_ofNat_of_zero_le hk
      have : ⌊(2 : ℝ) ^ (m : ℤ)⌋ = 2 ^ m := by
        rw [zpow_natCast]
        have : ((2 : ℝ) ^ m) = ((2 ^ m : ℤ) : ℝ) := by push_cast; rfl
        rw [this, Int.floor_intCast]
      rw [this, Int.toNat_natCast]
      exact max_eq_right (by exact_mod_cast Nat.one_le_two_pow)
    · have h1 : (2 : ℝ) ^ k < 1 := zpow_lt_one_of_neg₀ (by norm_num) (by omega)
      have h2 : ⌊(2 : ℝ) ^ k⌋ ≤ 0 := by
        have := Int.floor_le ((2 : ℝ) ^ k)
        have h3 : ((⌊(2 : ℝ) ^ k⌋ : ℤ) : ℝ) < 1 := lt_of_le_of_lt this h1
        have : ⌊(2 : ℝ) ^ k⌋ < 1 := by exact_mod_cast h3
        omega
      rw [max_eq_left (by omega), Int.toNat_of_nonpos (by omega), pow_zero]
  have hlog : x = (2 : ℝ) ^ (logb 2 x) := (rpow_logb (by norm_num) (by norm_num) hx).symm
  refine ⟨fun mode rd => le_max_left _ _, ?_, ?_, ?_, ?_, ?_⟩
  · have h1 : restrictNside x .any .ceil = ⌈x⌉ := by
      unfold restrictNside NsideRound.fn
      dsimp only
      rw [Int.floor_intCast]
      exact max_eq_right (Int.one_le_ceil_iff.2 hx)
    rw [h1]
    exact ⟨Int.le_ceil x, Int.ceil_lt_add_one x⟩
  · intro h
    have h1 : restrictNside x .mul32 .ceil = ⌈x / 32⌉ * 32 := by
      unfold restrictNside NsideRound.fn
      dsimp only
      rw [if_pos h]
      have : ((⌈x / 32⌉ : ℤ) : ℝ) * 32 = ((⌈x / 32⌉ * 32 : ℤ) : ℝ) := by push_cast; rfl
      rw [this, Int.floor_intCast]
      have : 1 ≤ ⌈x / 32⌉ := Int.one_le_ceil_iff.2 (by positivity)
      exact max_eq_right (by omega)
    rw [h1]
    have u1 := Int.le_ceil (x / 32)
    have u2 := Int.ceil_lt_add_one (x / 32)
    refine ⟨⟨⌈x / 32⌉, by ring⟩, ?_, ?_⟩ <;> push_cast <;> linarith
  · intro rd
    exact ⟨_, hpow _⟩
  · have h1 : restrictNside x .pow2 .ceil = 2 ^ (⌈logb 2 x⌉).toNat := hpow _
    rw [h1]
    constructor
    · push_cast
      rw [← rpow_natCast]
      conv_lhs => rw [hlog]
      apply rpow_le_rpow_of_exponent_le (by norm_num)
      have u1 := Int.le_ceil (logb 2 x)
      have u2 : ⌈logb 2 x⌉ ≤ ((⌈logb 2 x⌉).toNat : ℤ) := Int.self_le_toNat _
      have u3 : ((⌈logb 2 x⌉ : ℤ) : ℝ) ≤ (((⌈logb 2 x⌉).toNat : ℤ) : ℝ) := by exact_mod_cast u2
      push_cast at u3
      linarith
    · intro h
      have hl : 0 ≤ logb 2 x := logb_nonneg (by norm_num) h
      have h0 : 0 ≤ ⌈logb 2 x⌉ := Int.ceil_nonneg hl
      have e : (((⌈logb 2 x⌉).toNat : ℕ) : ℝ) = ((⌈logb 2 x⌉ : ℤ) : ℝ) := by
        have := Int.toNat_of_nonneg h0
        exact_mod_cast this
      push_cast
      rw [← rpow_natCast, e]
      have : 2 * x = (2 : ℝ) ^ (logb 2 x + 1) := by
        rw [rpow_add_one (by norm_num), ← hlog, mul_comm]
      rw [this]
      exact rpow_lt_rpow_of_exponent_lt (by norm_num) (Int.ceil_lt_add_one _)
  · intro h
    have h1 : restrictNside x .pow2 .floor = 2 ^ (⌊logb 2 x⌋).toNat := hpow _
    have hl : 0 ≤ logb 2 x := logb_nonneg (by norm_num) h
    have h0 : 0 ≤ ⌊logb 2 x⌋ := Int.floor_nonneg.2 hl
    have e : (((⌊logb 2 x⌋).toNat : ℕ) : ℝ) = ((⌊logb 2 x⌋ : ℤ) : ℝ) := by
      have := Int.toNat_of_nonneg h0
      exact_mod_cast this
    rw [h1]
    push_cast
    rw [← rpow_natCast, e]
    constructor
    · conv_rhs => rw [hlog]
      exact rpow_le_rpow_of_exponent_le (by norm_num) (Int.floor_le _)
    · have : 2 * (2 : ℝ) ^ ((⌊logb 2 x⌋ : ℤ) : ℝ) = (2 : ℝ) ^ (((⌊logb 2 x⌋ : ℤ) : ℝ) + 1) := by
        rw [rpow_add_one (by norm_num), mul_comm]
      rw [this]
      conv_lhs => rw [hlog]
      exact rpow_lt_rpow_of_exponent_lt (by norm_num) (Int.lt_floor_add_one _)

/-- C138 fails: with mode="mul32" and nside below 9.24 the value is cut off instead of rounded up, so that the output is coarser
than the map. -/
theorem C138_nside_refuted : restrictNside 9.2 .mul32 .ceil = 9 ∧ ((restrictNside 9.2 .mul32 .ceil : ℤ) : ℝ) < 9.2 := by
  have h : restrictNside 9.2 .mul32 .ceil = 9 := by
    unfold restrictNside
    dsimp only
    rw [if_neg (by norm_num)]
    have : ⌊(9.2 : ℝ)⌋ = 9 := by rw [Int.floor_eq_iff]; norm_num
    rw [this]; rfl
  rw [h]
  norm_num

/-! ### Non-vacuity -/

example : SpinsFit [0, 2] (some 3) := fun n h => by cases h; decide
example : ∃ g ∈ (spinHelper 4 [0, 2] 3).1, g.1 ≠ 0 := ⟨(2, 1, 3), by decide, by decide⟩
example : ∀ g ∈ (spinHelper 3 [0] 2).1, g.1 = 0 := by decide
example : ∃ R, RotationOf (.text "gal,cel".toList) R :=
  ⟨fromEulerZyz gal2cel.1 gal2cel.2.1 gal2cel.2.2, "gal".toList, "cel".toList, _, 1, by decide, by decide, by decide,
    by unfold systemToCel; rw [if_pos rfl], by unfold systemToCel; rw [if_neg (by decide), if_pos (.inl rfl)], by rw [one_mul]⟩
open Classical in
/-- There is a function as_euler. -/
example : ∃ f, AsEuler f :=
  ⟨fun M => if h : ∃ e : ℝ × ℝ × ℝ, fromEulerZyz e.1 e.2.1 e.2.2 = M then h.choose else (0, 0, 0), fun a b c => by
    have h : ∃ e : ℝ × ℝ × ℝ, fromEulerZyz e.1 e.2.1 e.2.2 = fromEulerZyz a b c := ⟨(a, b, c), rfl⟩
    dsimp only
    rw [dif_pos h]
    exact h.choose_spec⟩
example : (1024 : ℝ) < 12 * 100 ^ 2 := by norm_num

end Pixell
