import Verif.Model.MemIter
import Verif.Model.Map

/-! # Map iterators in memory: `map.go` -/

namespace Frozen

variable {K V : Type}

/-- map.go:276-279 `MapIterator`: an iterator over the tree of entries, and the current entry. -/
structure MMapIter (K V : Type) where
  i : MIter (Entry K V)
  kv : Entry K V

/-- map.go:266-268 `Range`: the current entry is the zero one. -/
def MTree.mapIterator [Inhabited K] [Inhabited V] (G : Growth) (m : MTree) (H : Mem (Entry K V)) : Go (MMapIter K V) × Mem (Entry K V) :=
  match m.iterator G H with
  | (.ok it, H') => (.ok ⟨it, ⟨default, default⟩⟩, H')
  | (.error e, H') => (.error e, H')

/-- map.go:282-288 `Next` -/
def MMapIter.next (G : Growth) (it : MMapIter K V) (H : Mem (Entry K V)) : Go (MMapIter K V × Bool) × Mem (Entry K V) :=
  match it.i.next G H with
  | (.ok (i', true), H') =>
    match i'.value H' with
    | (.ok e, H'') => (.ok (⟨i', e⟩, true), H'')
    | (.error p, H'') => (.error p, H'')
  | (.ok (i', false), H') => (.ok (⟨i', it.kv⟩, false), H')
  | (.error p, H') => (.error p, H')

/-- map.go:291-303 `Key`, `Value` and `Entry`: nothing is read. -/
def MMapIter.entry (it : MMapIter K V) : K × V := (it.kv.key, it.kv.value)

end Frozen
