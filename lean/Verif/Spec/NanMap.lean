import Verif.Spec.Nan
import Verif.Spec.MapProg

/-! # Reference semantics of maps by entry lists, for keys that need not be equal to themselves -/

namespace Frozen

variable {K V : Type} [GoKey K]

/-- Remove the entry with a key equal to `k`, if there is one. -/
def eraseK (l : List (Entry K V)) (k : K) : List (Entry K V) := l.filter fun e => !GoKey.eq e.key k

/-- Add an entry in place of the one with an equal key, if there is one. -/
def insertK (l : List (Entry K V)) (k : K) (v : V) : List (Entry K V) := eraseK l k ++ [⟨k, v⟩]

/-- The value of the entry with a key equal to `k`. -/
def getK (l : List (Entry K V)) (k : K) : Option V := (l.find? fun e => GoKey.eq e.key k).map (·.value)

/-- The entries of `a` whose key has no equal in `b`. -/
def minusK (a b : List (Entry K V)) : List (Entry K V) := a.filter fun e => (getK b e.key).isNone

/-- One builder call. -/
def MapBuildOp.onList (l : List (Entry K V)) : MapBuildOp K V → List (Entry K V)
  | .put k v => insertK l k v
  | .remove k => eraseK l k

/-- One key of `Project`. -/
def projectK (a l : List (Entry K V)) (k : K) : List (Entry K V) :=
  match getK a k with
  | some v => insertK l k v
  | none => l

/-- `Merge`: the entries of `a`, with the value resolved where `b` has an equal key, and the entries of `b` whose key is new. -/
def mergeK (resolve : K → V → V → V) (a b : List (Entry K V)) : List (Entry K V) :=
  (a.map fun e => match getK b e.key with
    | some y => ⟨e.key, resolve e.key e.value y⟩
    | none => e) ++ minusK b a

/-- `l` may be, up to order, the list of entries of the map the program returns. -/
def MapProg.Entries : MapProg K V → List (Entry K V) → Prop
  | .newMap kvs, l => l.Perm (kvs.foldl (fun l kv => insertK l kv.key kv.value) [])
  | .build ops, l => l.Perm (ops.foldl MapBuildOp.onList [])
  | .with p k v, l => ∃ a, p.Entries a ∧ l.Perm (insertK a k v)
  | .without p k, l => ∃ a, p.Entries a ∧ l.Perm (eraseK a k)
  | .project p ks, l => ∃ a, p.Entries a ∧ l.Perm (ks.foldl (projectK a) [])
  | .where p pred _, l => ∃ a, p.Entries a ∧ l.Perm (a.filter fun e => pred e.key e.value)
  | .update p q, l => ∃ a b, p.Entries a ∧ q.Entries b ∧ l.Perm (minusK a b ++ b)
  | .merge p q resolve _, l => ∃ a b, p.Entries a ∧ q.Entries b ∧ l.Perm (mergeK resolve a b)

/-- The program does not merge two maps. -/
def MapProg.NoMerge : MapProg K V → Prop
  | .newMap _ | .build _ => True
  | .with p _ _ | .without p _ | .where p _ _ | .project p _ => p.NoMerge
  | .update _ _ | .merge _ _ _ _ => False

end Frozen
