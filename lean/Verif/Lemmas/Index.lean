import Verif.Model.Index
import Verif.Lemmas.Sort
import Verif.Lemmas.Extract
import Mathlib.Tactic.Linarith
import Mathlib.Tactic.Ring

namespace Pixell

/-- What any `np.argsort` returns: a permutation of the positions that sorts the values. -/
def IsArgsort {κ : Type} [LE κ] (keys : List κ) (order : List Nat) : Prop :=
  order.Perm (List.range keys.length) ∧
  order.Pairwise fun i j => ∀ a b, keys[i]? = some a → keys[j]? = some b → a ≤ b

theorem IsArgsort.length {κ : Type} [LE κ] {keys : List κ} {order : List Nat} (h : IsArgsort keys order) :
    order.length = keys.length := by rw [h.1.length_eq, List.length_range]

theorem IsArgsort.lt {κ : Type} [LE κ] {keys : List κ} {order : List Nat} (h : IsArgsort keys order) {i : Nat}
    (hi : i ∈ order) : i < keys.length := List.mem_range.1 (h.1.mem_iff.1 hi)

theorem isArgsort_argsort (keys : List ℤ) : IsArgsort keys (argsort (fun a b => decide (a ≤ b)) keys) := by
  refine ⟨argsort_perm _ _, ?_⟩
  have := argsort_sorted (fun a b : ℤ => decide (a ≤ b)) (by simp; intro a b c; exact le_trans) (by simp; exact le_total) keys
  simpa using this

theorem sorted_lt_iff (S : List ℤ) (hs : S.Pairwise (· ≤ ·)) (v : ℤ) (i : Nat) (hi : i < S.length) :
    S[i] < v ↔ i < S.countP fun x => decide (x < v) := by
  induction S generalizing i with
  | nil => simp at hi
  | cons x S ih =>
    rw [List.pairwise_cons] at hs
    rw [List.countP_cons]
    by_cases hx : x < v
    · cases i with
      | zero => simp [hx]
      | succ i =>
        have := ih hs.2 i (by simpa using hi)
        simp only [List.getElem_cons_succ, hx, decide_true, if_true]
        omega
    · have h0 : S.countP (fun x => decide (x < v)) = 0 := by
        rw [List.countP_eq_zero]
        intro y hy
        have := hs.1 y hy
        simp; omega
      rw [h0]
      simp only [hx, decide_false]
      constructor
      · intro h
        exfalso
        cases i with
        | zero => exact hx h
        | succ i =>
          have := hs.1 _ (List.getElem_mem (by simpa using hi : i < S.length))
          simp only [List.getElem_cons_succ] at h
          omega
      · intro h; simp at h

theorem findOne_spec {array : List ℤ} {order : List Nat} (h : IsArgsort array order) (dflt : Option ℤ) (v : ℤ) :
    (v ∈ array → ∃ r : Nat, findOne array order dflt v = some (r : ℤ) ∧ array[r]? = some v) ∧
    (v ∉ array → array ≠ [] → findOne array order dflt v = dflt) := by
  have hlen := h.length
  have hget : ∀ r < array.length, array.getD r 0 = array[r]! := by
    intro r hr
    simp [List.getD_eq_getElem?_getD, hr]
  have hgetS : ∀ r, r < array.length → array[r]? = some (array.getD r 0) := by
    intro r hr
    simp [List.getD_eq_getElem?_getD, hr]
  set S := order.map fun i => array.getD i 0 with hS
  have hSs : S.Pairwise (· ≤ ·) := by
    rw [hS, List.pairwise_map]
    refine h.2.imp_of_mem ?_
    intro i j hi hj hij
    exact hij _ _ (hgetS i (h.lt hi)) (hgetS j (h.lt hj))
  have hSlen : S.length = array.length := by rw [hS, List.length_map, hlen]
  refine ⟨fun hv => ?_, fun hv hne => ?_⟩
  · obtain ⟨p, hp, hpv⟩ := List.getElem_of_mem hv
    have hpo : p ∈ order := h.1.mem_iff.2 (List.mem_range.2 hp)
    obtain ⟨q, hq, hqp⟩ := List.getElem_of_mem hpo
    have hSq : S[q]'(by rw [hSlen]; omega) = v := by
      simp only [hS, List.getElem_map, hqp]
      rw [List.getD_eq_getElem?_getD, List.getElem?_eq_getElem hp, hpv]; rfl
    have hkq : S.countP (fun x => decide (x < v)) ≤ q := by
      by_contra hc
      have := (sorted_lt_iff S hSs v q (by omega)).2 (by omega)
      omega
    set k := S.countP fun x => decide (x < v) with hk
    have hkl : k < S.length := by omega
    have hkv : ¬ S[k] < v := fun hc => absurd ((sorted_lt_iff S hSs v k hkl).1 hc) (lt_irrefl _)
    have hkle : S[k] ≤ v := by
      rcases Nat.lt_or_ge k q with hlt | hge
      · have := List.pairwise_iff_getElem.1 hSs k q hkl (by omega) hlt
        rw [hSq] at this; exact this
      · have : k = q := by omega
        simp only [this, hSq]; exact le_refl _
    have hkeq : S[k] = v := by omega
    have hko : k < order.length := by omega
    refine ⟨order[k], ?_, ?_⟩
    · have hsl : searchLeft S v = k := rfl
      unfold findOne
      simp only [← hS, hsl]
      rw [Nat.min_eq_left (by omega), List.getElem?_eq_getElem hko]
      simp only [Option.bind_eq_bind, Option.bind_some]
      rw [if_pos]
      rw [← hkeq]
      simp [hS]
    · rw [hgetS _ (h.lt (List.getElem_mem hko)), ← hkeq]
      simp [hS]
  · have hpos := List.length_pos_of_ne_nil hne
    unfold findOne
    simp only [Option.bind_eq_bind]
    have hcl : min (searchLeft (order.map fun i => array.getD i 0) v) (array.length - 1) < order.length := by omega
    rw [List.getElem?_eq_getElem hcl, Option.bind_some, if_neg]
    intro hc
    apply hv
    rw [← hc]
    have := h.lt (List.getElem_mem hcl)
    rw [List.getD_eq_getElem?_getD, List.getElem?_eq_getElem this]
    exact List.getElem_mem _

/-! ### unique -/

theorem npUnique_sorted (l : List ℤ) : (npUnique l).Pairwise (· < ·) := by
  unfold npUnique
  have h1 := sortBy_sorted (fun a b : ℤ => decide (a ≤ b)) (by simp; intro a b c; exact le_trans) (by simp; exact le_total) l
  have h2 := h1.sublist (List.dedup_sublist _)
  have h3 := List.nodup_dedup (sortBy (fun a b : ℤ => decide (a ≤ b)) l)
  have h4 := h2.and h3
  refine h4.imp ?_
  intro a b hab
  have := hab.1
  simp only [decide_eq_true_eq] at this
  exact lt_of_le_of_ne this hab.2

theorem mem_npUnique (l : List ℤ) (x : ℤ) : x ∈ npUnique l ↔ x ∈ l := by
  unfold npUnique
  rw [List.mem_dedup, (sortBy_perm _ _).mem_iff]

theorem npUnique_nodup (l : List ℤ) : (npUnique l).Nodup := List.nodup_dedup _

/-! ### writing at distinct places -/

theorem foldl_set_length {β : Type} (l : List (Nat × β)) (a : List β) :
    (l.foldl (fun a p => a.set p.1 p.2) a).length = a.length := by
  induction l generalizing a with
  | nil => rfl
  | cons x l ih => rw [List.foldl_cons, ih, List.length_set]

theorem foldl_set_miss {β : Type} (l : List (Nat × β)) (a : List β) (k : Nat) (h : k ∉ l.map Prod.fst) :
    (l.foldl (fun a p => a.set p.1 p.2) a)[k]? = a[k]? := by
  induction l generalizing a with
  | nil => rfl
  | cons x l ih =>
    simp only [List.map_cons, List.mem_cons, not_or] at h
    rw [List.foldl_cons, ih _ h.2, List.getElem?_set_ne (Ne.symm h.1)]

theorem foldl_set_hit {β : Type} (l : List (Nat × β)) (a : List β) (hn : (l.map Prod.fst).Nodup) (k : Nat) (v : β)
    (h : (k, v) ∈ l) (hk : k < a.length) : (l.foldl (fun a p => a.set p.1 p.2) a)[k]? = some v := by
  induction l generalizing a with
  | nil => simp at h
  | cons x l ih =>
    rw [List.map_cons, List.nodup_cons] at hn
    rw [List.foldl_cons]
    rcases List.mem_cons.1 h with rfl | h
    · rw [foldl_set_miss _ _ _ hn.1, List.getElem?_set_self hk]
    · exact ih _ hn.2 h (by rw [List.length_set]; exact hk)

/-! ### accumulation -/

theorem accum_length {M : Type} [AddCommMonoid M] (l : List (Nat × M)) (a : List M) :
    (l.foldl (fun fb ia => fb.modify ia.1 (· + ia.2)) a).length = a.length := by
  induction l generalizing a with
  | nil => rfl
  | cons x l ih => rw [List.foldl_cons, ih, List.length_modify]

theorem accum_get {M : Type} [AddCommMonoid M] (l : List (Nat × M)) (a : List M) (k : Nat) :
    (l.foldl (fun fb ia => fb.modify ia.1 (· + ia.2)) a)[k]? =
      a[k]?.map fun v => v + ((l.filter fun p => decide (p.1 = k)).map Prod.snd).sum := by
  induction l generalizing a with
  | nil => simp
  | cons x l ih =>
    rw [List.foldl_cons, ih, List.getElem?_modify]
    by_cases h : x.1 = k
    · rw [List.filter_cons_of_pos (by simpa using h)]
      cases a[k]? with
      | none => rfl
      | some v => simp [h, add_assoc]
    · rw [List.filter_cons_of_neg (by simpa using h)]
      cases a[k]? with
      | none => rfl
      | some v => simp [h]

theorem foldl_max_ge (l : List Nat) (m : Nat) : m ≤ l.foldl max m ∧ ∀ x ∈ l, x ≤ l.foldl max m := by
  induction l generalizing m with
  | nil => simp
  | cons y l ih =>
    obtain ⟨h1, h2⟩ := ih (max m y)
    rw [List.foldl_cons]
    refine ⟨by omega, fun x hx => ?_⟩
    rcases List.mem_cons.1 hx with rfl | hx
    · omega
    · exact h2 x hx

/-! ### ravel -/

/-- Coordinates inside an array of the given shape. -/
def InShape (shape idx : List Nat) : Prop := List.Forall₂ (fun c n => c < n) idx shape

theorem ravel_lt {shape idx : List Nat} (h : InShape shape idx) : ravel shape idx < shape.prod := by
  unfold InShape at h
  induction h with
  | nil => simp [ravel]
  | @cons c n cs ns hc _ ih =>
    rw [ravel, List.prod_cons]
    calc c * ns.prod + ravel ns cs < c * ns.prod + ns.prod := by omega
      _ = (c + 1) * ns.prod := by ring
      _ ≤ n * ns.prod := Nat.mul_le_mul_right _ hc

theorem ravel_inj {shape a b : List Nat} (ha : InShape shape a) (hb : InShape shape b)
    (h : ravel shape a = ravel shape b) : a = b := by
  unfold InShape at ha
  induction ha generalizing b with
  | nil =>
    cases hb; rfl
  | @cons c n cs ns hc hcs ih =>
    cases hb with
    | @cons d _ ds _ hd hds =>
      rw [ravel, ravel] at h
      have l1 := ravel_lt hcs
      have l2 := ravel_lt hds
      have hcd : c = d := by
        rcases Nat.lt_trichotomy c d with hlt | heq | hgt
        · exfalso
          have : (c + 1) * ns.prod ≤ d * ns.prod := Nat.mul_le_mul_right _ hlt
          rw [Nat.add_mul] at this
          omega
        · exact heq
        · exfalso
          have : (d + 1) * ns.prod ≤ c * ns.prod := Nat.mul_le_mul_right _ hgt
          rw [Nat.add_mul] at this
          omega
      subst hcd
      rw [ih hds (by omega)]

theorem clipPix_inShape {shape : List Nat} (hs : ∀ n ∈ shape, 0 < n) (p : List ℤ) (hp : p.length = shape.length) :
    InShape shape (clipPix shape p) := by
  unfold InShape
  induction shape generalizing p with
  | nil => simp [clipPix]
  | cons n ns ih =>
    cases p with
    | nil => simp at hp
    | cons c cs =>
      rw [clipPix, List.zipWith_cons_cons]
      refine List.Forall₂.cons ?_ (ih (fun m hm => hs m (by simp [hm])) cs (by simpa using hp))
      have := hs n (by simp)
      omega

end Pixell
