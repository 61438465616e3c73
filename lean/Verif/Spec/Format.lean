/-! # Joining strings -/

namespace Frozen

/-- The strings separated by `sep`. -/
def joinWith (sep : String) : List String → String
  | [] => ""
  | [a] => a
  | a :: b :: l => a ++ sep ++ joinWith sep (b :: l)

example : joinWith ", " ["1", "2", "3"] = "1, 2, 3" := by decide +kernel

/-- The characters with which `%+v` draws the tree. -/
def isMark (g : String) : Bool := g.toList.all ("‹›«»(),⁅⁆ ⁰¹²³⁴⁵⁶⁷".toList.contains ·)

/-- The text shows the items in this order, each once, with nothing but drawing characters before, between and after them. -/
inductive Draws : String → List String → Prop
  | nil (g : String) (h : isMark g = true) : Draws g []
  | cons (g a text : String) (items : List String) (h : isMark g = true) (ht : Draws text items) : Draws (g ++ a ++ text) (a :: items)

example : Draws "⁅⁰‹a› ³«b,c»⁆" ["a", "b", "c"] :=
  .cons "⁅⁰‹" "a" "› ³«b,c»⁆" _ (by decide +kernel) (.cons "› ³«" "b" ",c»⁆" _ (by decide +kernel)
    (.cons "," "c" "»⁆" _ (by decide +kernel) (.nil "»⁆" (by decide +kernel))))

end Frozen
