import Verif.Props.IntActual

/-!
# C51 for integer sets: the hash function is unobservable

`A` and `B` are two hash functions for the same integer type (`PrimKey`: `Equal` is `==`). For integer sets the property holds without
exception, whichever integers are put into them: no call panics under one hash and returns under the other.
-/

set_option linter.unusedSectionVars false

namespace Frozen

variable {w : Nat}

/-- C51 for integer sets: every program returns under both hash functions, and the two sets answer `Has`, `Count` and `IsEmpty` alike and
have the same `Elements`, in some order. -/
theorem C51_intset (hw : 8 ≤ w) (hw2 : w ≤ 64) (A B : GoKey (BitVec w)) (hA : @PrimKey _ A) (hB : @PrimKey _ B) (sg : Bool)
    (p : IntProg w) :
    ∃ s s', @IntProg.run w A sg p = .ok s ∧ @IntProg.run w B sg p = .ok s' ∧ s.count = s'.count ∧ s.isEmpty = s'.isEmpty ∧
      (∀ n, @IntSet.has w A sg s n = @IntSet.has w B sg s' n) ∧
      ∃ l l', s.elements = .ok l ∧ s'.elements = .ok l' ∧ l.Perm l' := by
  obtain ⟨s, h1, h2⟩ := @C21_actual w A hA hw hw2 sg p
  obtain ⟨s', g1, g2⟩ := @C21_actual w B hB hw hw2 sg p
  obtain ⟨l, z, e, a1, a2, a3, a4, a5, a6, a7, _, a8, _⟩ := @IsActual.list w A sg s _ h2
  obtain ⟨l', z', e', b1, b2, b3, b4, b5, b6, b7, _, b8, _⟩ := @IsActual.list w B sg s' _ g2
  have hl : l.Perm l' := (List.perm_ext_iff_of_nodup a1 b1).2 (fun n => (a2 n).trans (b2 n).symm)
  have hz : z.Perm z' := (List.perm_ext_iff_of_nodup a3 b3).2 (fun n => (a4 n).trans (b4 n).symm)
  have he : e.Perm e' := a7.trans ((hl.append (hz.map _)).trans b7.symm)
  refine ⟨s, s', h1, g1, by rw [a5, b5, hl.length_eq], Bool.eq_iff_iff.2 ?_, fun n => ?_, e, e', a6, b6, he⟩
  · rw [a8, b8]
    exact ⟨fun h => by subst h; exact he.symm.eq_nil, fun h => by subst h; exact he.eq_nil⟩
  · obtain ⟨b, c1, c2⟩ := @IsActual.has w A sg s _ h2 n
    obtain ⟨b', d1, d2⟩ := @IsActual.has w B sg s' _ g2 n
    obtain rfl : b = b' := Bool.eq_iff_iff.2 (c2.trans d2.symm)
    exact c1.trans d1.symm

/-- C51 for comparisons of integer sets: `Equal` and `IsSubsetOf` return and answer alike. -/
theorem C51_intset_comparisons (hw : 8 ≤ w) (hw2 : w ≤ 64) (A B : GoKey (BitVec w)) (hA : @PrimKey _ A) (hB : @PrimKey _ B) (sg : Bool)
    (p q : IntProg w) :
    ∃ s t s' t', @IntProg.run w A sg p = .ok s ∧ @IntProg.run w A sg q = .ok t ∧ @IntProg.run w B sg p = .ok s' ∧
      @IntProg.run w B sg q = .ok t' ∧ (∃ b, @IntSet.equal w A s t = .ok b ∧ @IntSet.equal w B s' t' = .ok b) ∧
      ∃ b, @IntSet.isSubsetOf w A s t = .ok b ∧ @IntSet.isSubsetOf w B s' t' = .ok b := by
  obtain ⟨s, t, h1, h2, ⟨b, h3, h4, _⟩, c, h5, h6⟩ := @C21_actual_compare w A hA hw hw2 sg p q
  obtain ⟨s', t', g1, g2, ⟨b', g3, g4, _⟩, c', g5, g6⟩ := @C21_actual_compare w B hB hw hw2 sg p q
  obtain rfl : b = b' := Bool.eq_iff_iff.2 (h4.trans g4.symm)
  obtain rfl : c = c' := Bool.eq_iff_iff.2 (h6.trans g6.symm)
  exact ⟨s, t, s', t', h1, h2, g1, g2, ⟨b, h3, g3⟩, c, h5, g5⟩

/-! ## The hypotheses can be met -/

/-- Two different hash functions for 16-bit integers. -/
example : @PrimKey (BitVec 16) (exampleIntKey 16) ∧ @PrimKey (BitVec 16) ⟨fun a b => decide (a = b), fun _ _ => 0#64⟩ :=
  ⟨@PrimKey.mk _ (exampleIntKey 16) (fun _ _ => decide_eq_true_iff),
    @PrimKey.mk _ ⟨fun a b => decide (a = b), fun _ _ => 0#64⟩ (fun _ _ => decide_eq_true_iff)⟩

/-- A program, a negative integer among its arguments, whose set iterates in different orders under those two. -/
example : ∃ p : IntProg 16,
    okAnd (do let s ← @IntProg.run 16 (exampleIntKey 16) true p; s.elements) (fun l => l.length == 5) = true ∧
    okAnd (do let s ← @IntProg.run 16 ⟨fun a b => decide (a = b), fun _ _ => 0#64⟩ true p; s.elements) (fun l => l.length == 5) = true ∧
    okAnd (do
      let s ← @IntProg.run 16 (exampleIntKey 16) true p
      let t ← @IntProg.run 16 ⟨fun a b => decide (a = b), fun _ _ => 0#64⟩ true p
      let l ← s.elements
      let l' ← t.elements
      pure (l, l')) (fun r => r.1 != r.2) = true :=
  ⟨.with (.new id (fun l => .refl l) [1#16, 100#16, 200#16, 300#16]) (-1#16), by decide +kernel, by decide +kernel, by decide +kernel⟩

end Frozen
