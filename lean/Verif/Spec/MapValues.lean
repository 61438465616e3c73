import Verif.Spec.MapHistory

/-!
# Histories of map calls on values

The same histories as in Spec/MapHistory.lean, with the map API of Model/Map.lean: every map is a value of its own, and there is no
memory. Nothing here goes through the calls on trees that `MOp.call` makes.
-/

namespace Frozen

variable {K V : Type}

/-- The maps and the map builders of a client, as values. -/
structure VMaps (K V : Type) where
  maps : List (FMap K V)
  builders : List (MapBuilder K V)

/-- Keep the map a call returned. -/
def VMaps.push (w : VMaps K V) (r : Go (FMap K V)) : VMaps K V :=
  match r with
  | .ok m => ⟨w.maps ++ [m], w.builders⟩
  | .error _ => w

/-- A call on the map at `i`. -/
def VMaps.on (w : VMaps K V) (i : Nat) (f : FMap K V → Go (FMap K V)) : VMaps K V :=
  match w.maps[i]? with
  | some m => w.push (f m)
  | none => w

/-- A call on two maps. -/
def VMaps.on2 (w : VMaps K V) (i j : Nat) (f : FMap K V → FMap K V → Go (FMap K V)) : VMaps K V :=
  match w.maps[i]?, w.maps[j]? with
  | some m, some n => w.push (f m n)
  | _, _ => w

/-- A call on the builder at `b`. -/
def VMaps.onBuilder (w : VMaps K V) (b : Nat) (f : MapBuilder K V → Go (MapBuilder K V)) : VMaps K V :=
  match w.builders[b]? with
  | some x =>
    match f x with
    | .ok y => ⟨w.maps, w.builders.set b y⟩
    | .error _ => w
  | none => w

variable [GoKey K] [Inhabited V]

/-- One call. -/
def VMaps.step (w : VMaps K V) : MOp K V → VMaps K V
  | .empty => ⟨w.maps ++ [FMap.zero], w.builders⟩
  | .with i k v => w.on i (fun m => m.with k v)
  | .without i k => w.on i (fun m => m.without k)
  | .merge i j resolve => w.on2 i j (fun m n => m.merge n resolve)
  | .update i j => w.on2 i j (fun m n => m.update n)
  | .newBuilder => ⟨w.maps, w.builders ++ [Tree.zero]⟩
  | .put b k v => w.onBuilder b (fun x => x.put k v)
  | .remove b k => w.onBuilder b (fun x => x.remove k)
  | .finish b =>
    match w.builders[b]? with
    | some x => ⟨w.maps ++ [x.finish.1], w.builders.set b x.finish.2⟩
    | none => w

/-- All calls in order. -/
def VMaps.run (w : VMaps K V) (ops : List (MOp K V)) : VMaps K V := ops.foldl VMaps.step w

end Frozen
