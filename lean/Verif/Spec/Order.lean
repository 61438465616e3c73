/-! # Strict weak orders: the contract of a `less` function -/

namespace Frozen

/-- `less` is a strict weak order: irreflexive, transitive, and "neither is less" is transitive. -/
structure StrictWeakOrder {T : Type} (less : T → T → Bool) : Prop where
  irrefl : ∀ a, less a a = false
  trans : ∀ a b c, less a b = true → less b c = true → less a c = true
  incomp : ∀ a b c, less a b = false → less b a = false → less b c = false → less c b = false → less a c = false ∧ less c a = false

/-- No element comes after a smaller one. -/
def Sorted {T : Type} (less : T → T → Bool) (l : List T) : Prop := l.Pairwise (fun a b => less b a = false)

end Frozen
