import Verif.Spec.SetProg
import Verif.Spec.MapProg
import Verif.Spec.Order

/-!
# The same program with another hash function

The hash of elements and keys is the user's, or depends on a seed. `rehash h` is the same program, calls and arguments unchanged, for
the type whose `Equal` is the same and whose hash function is `h`. The programs here do not use `AnyN`, which picks arbitrary elements.
-/

namespace Frozen

variable {T K V : Type}

/-- The same `Equal`, another hash function. -/
@[reducible] def GoKey.withHash (A : GoKey T) (h : BitVec 64 → T → BitVec 64) : GoKey T := ⟨A.eq, h⟩

/-- The same calls with the same arguments. -/
def SetProg.rehash (A : GoKey T) (h : BitVec 64 → T → BitVec 64) : @SetProg T A → @SetProg T (A.withHash h)
  | .newSet vs => @SetProg.newSet T (A.withHash h) vs
  | .build ops => @SetProg.build T (A.withHash h) ops
  | .with p v => @SetProg.with T (A.withHash h) (p.rehash A h) v
  | .without p v => @SetProg.without T (A.withHash h) (p.rehash A h) v
  | .where p f r => @SetProg.where T (A.withHash h) (p.rehash A h) f r
  | .union p q => @SetProg.union T (A.withHash h) (p.rehash A h) (q.rehash A h)
  | .intersection p q => @SetProg.intersection T (A.withHash h) (p.rehash A h) (q.rehash A h)
  | .difference p q => @SetProg.difference T (A.withHash h) (p.rehash A h) (q.rehash A h)
  | .symmetricDifference p q => @SetProg.symmetricDifference T (A.withHash h) (p.rehash A h) (q.rehash A h)
  | .anyN p n => @SetProg.anyN T (A.withHash h) (p.rehash A h) n

/-- The same calls with the same arguments. -/
def MapProg.rehash (A : GoKey K) (h : BitVec 64 → K → BitVec 64) : @MapProg K V A → @MapProg K V (A.withHash h)
  | .newMap kvs => @MapProg.newMap K V (A.withHash h) kvs
  | .build ops => @MapProg.build K V (A.withHash h) ops
  | .with p k v => @MapProg.with K V (A.withHash h) (p.rehash A h) k v
  | .without p k => @MapProg.without K V (A.withHash h) (p.rehash A h) k
  | .project p ks => @MapProg.project K V (A.withHash h) (p.rehash A h) ks
  | .where p f r => @MapProg.where K V (A.withHash h) (p.rehash A h) f r
  | .update p q => @MapProg.update K V (A.withHash h) (p.rehash A h) (q.rehash A h)
  | .merge p q f r => @MapProg.merge K V (A.withHash h) (p.rehash A h) (q.rehash A h) f r

/-- Some call of `Intersection`. -/
def SetProg.Intersects [GoKey T] : SetProg T → Prop
  | .newSet _ | .build _ => False
  | .with p _ | .without p _ | .where p _ _ | .anyN p _ => p.Intersects
  | .union p q | .difference p q | .symmetricDifference p q => p.Intersects ∨ q.Intersects
  | .intersection _ _ => True

/-- Which of the `Equal` values the set keeps for `w`, if any: the one added last; `Union` keeps that of the argument, `Difference` that
of the receiver. Nothing is said about `Intersection` and `AnyN`. -/
def SetProg.kept [GoKey T] : SetProg T → T → Option T
  | .newSet vs, w => vs.reverse.find? (fun e => GoKey.eq e w)
  | .build ops, w => ops.foldl (fun r op => match op with
      | .add v => if GoKey.eq v w = true then some v else r
      | .remove v => if GoKey.eq v w = true then none else r) none
  | .with p v, w => if GoKey.eq v w = true then some v else p.kept w
  | .without p v, w => if GoKey.eq v w = true then none else p.kept w
  | .where p f _, w => (p.kept w).filter f
  | .union p q, w => (q.kept w).or (p.kept w)
  | .difference p q, w => if (q.kept w).isSome then none else p.kept w
  | .symmetricDifference p q, w => (if (p.kept w).isSome then none else q.kept w).or (if (q.kept w).isSome then none else p.kept w)
  | .intersection _ _, _ => none
  | .anyN _ _, _ => none

/-- An order that tells any two different elements apart, and no two equal ones. -/
structure TotalOrderOn [GoKey T] (less : T → T → Bool) : Prop extends StrictWeakOrder less where
  decides : ∀ a b, less a b = false → less b a = false → GoKey.eq a b = true
  respects : ∀ a b, GoKey.eq a b = true → less a b = false

end Frozen
