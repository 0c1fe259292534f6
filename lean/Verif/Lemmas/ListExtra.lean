/-
Small list lemmas used by several property files.
-/
namespace Pixell

theorem filterMap_total {α β} (f : α → Option β) (js : List α) (h : ∀ j ∈ js, (f j).isSome) :
    (js.filterMap f).length = js.length ∧ ∀ i : Nat, (js.filterMap f)[i]? = js[i]?.bind f := by
  induction js with
  | nil => simp
  | cons j js ih =>
    obtain ⟨y, hy⟩ := Option.isSome_iff_exists.1 (h j (by simp))
    have ih := ih fun k hk => h k (by simp [hk])
    rw [List.filterMap_cons, hy]
    refine ⟨by simp [ih.1], fun i => ?_⟩
    cases i with
    | zero => simp [hy]
    | succ i => simp [ih.2 i]

end Pixell
