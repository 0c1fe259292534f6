/-
Sorting as used by numpy's sort/argsort.  numpy's default sort is not stable; the model breaks ties by
position.  Theorems either do not depend on the order of ties or say so.
-/
namespace Pixell

/-- Insert before the first element that is not smaller. Part of numpy's sort, which the code calls. -/
def insertBy {β : Type} (le : β → β → Bool) (x : β) : List β → List β
  | [] => [x]
  | y :: l => if le x y then x :: y :: l else y :: insertBy le x l

/-- Sort a list. Part of numpy's sort, which the code calls. -/
def sortBy {β : Type} (le : β → β → Bool) : List β → List β
  | [] => []
  | x :: l => insertBy le x (sortBy le l)

/-- `np.argsort(keys)`: the indices in order of their keys. -/
def argsort {κ : Type} (le : κ → κ → Bool) (keys : List κ) : List Nat :=
  (sortBy (fun a b => le a.1 b.1) keys.zipIdx).map Prod.snd

end Pixell
