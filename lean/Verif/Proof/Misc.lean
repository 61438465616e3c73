import Verif.Spec.Misc
import Verif.Spec.Format
import Verif.Proof.Parallel
import Verif.Proof.Reduce
import Verif.Proof.SetMore
import Verif.Proof.Map

/-! Lemmas about self-checks, JSON texts, Braille texts and gauges. -/

set_option linter.unusedSectionVars false

namespace Frozen

/-! ### Vet -/

section
variable {T : Type} [GoKey T] [LawfulGoKey T]

theorem newHasher_zero_eq {x y : T} (h : hash0 x = hash0 y) : newHasher x 0 = newHasher y 0 := by
  unfold newHasher
  unfold hash0 at h
  rw [h]

theorem Node.vet_spec : ∀ (n : Node T) (d : Nat), WF d n → d ≤ 22 → n.isNil = false →
    (∀ x ∈ elems n, ∀ y ∈ elems n, ∀ j < d, chunk x j = chunk y j) → n.vet = .ok ((elems n).length : Int) := by
  intro n
  induction n with
  | nil => intro d _ _ hn; simp [Node.isNil] at hn
  | leaf1 a => intro d _ _ _ _; rfl
  | leaf2 a b => intro d _ _ _ _; rfl
  | twig l =>
    intro d hw hd _ ha
    obtain ⟨h1, h2, h3⟩ := hw
    have hd' : d = 22 := by unfold maxTreeDepth fanoutBits hashBits at h1; omega
    subst hd'
    match l, h2 with
    | e0 :: es, h2 =>
      have : es.all (fun e => newHasher e 0 == newHasher e0 0) = true := by
        rw [List.all_eq_true]
        intro e he
        rw [beq_iff_eq]
        apply newHasher_zero_eq
        rw [← agree_22, agree_iff]
        intro j _ hj
        exact ha e (by simp [elems, he]) e0 (by simp [elems]) j hj
      rw [Node.vet.eq_def]
      simp only [this, if_true, elems]
      rw [if_neg (by omega)]
  | branch m k ih =>
    intro d hw hd _ ha
    obtain ⟨hs, _⟩ := WF_branch.1 hw
    have hs' := hs
    obtain ⟨h1, h2, h3, h4⟩ := hs
    have hd' : d < 22 := by unfold maxTreeDepth fanoutBits hashBits at h1; omega
    rw [Node.vet, if_neg (by rw [updateMask_eq]; simpa using h2.symm)]
    have hmk : MaskOk m := h2 ▸ maskOk_maskOf k
    rw [indices_eq_slots hmk, flatMap_slots hs']
    have hin : ∀ i ∈ slots m, (k i).isNil = false ∧ (k i).vet = .ok ((elems (k i)).length : Int) := by
      intro i hi
      rw [mem_slots, h2, getLsbD_maskOf] at hi
      have hni : (k i).isNil = false := by simpa using hi
      refine ⟨hni, ih i (d + 1) (h3 i) (by omega) hni ?_⟩
      intro x hx y hy j hj
      by_cases hjd : j = d
      · subst hjd; rw [h4 i x hx, h4 i y hy]
      · refine ha x ?_ y ?_ j (by omega)
        · simp only [elems, List.mem_flatMap]; exact ⟨i, List.mem_finRange i, hx⟩
        · simp only [elems, List.mem_flatMap]; exact ⟨i, List.mem_finRange i, hy⟩
    have key : ∀ (is : List (Fin 8)) (c : Int), (∀ i ∈ is, (k i).isNil = false ∧ (k i).vet = .ok ((elems (k i)).length : Int)) →
        is.foldlM (fun count i => if (k i).isNil then (.error (.msg "nil node[T] for mask") : Go Int)
          else do
            let c ← (k i).vet
            pure (count + c)) c = .ok (c + ((is.map (fun i => elems (k i))).flatten.length : Int)) := by
      intro is
      induction is with
      | nil => intro c _; simp [pure, Except.pure]
      | cons i is ih' =>
        intro c hc
        obtain ⟨g1, g2⟩ := hc i (by simp)
        rw [List.foldlM_cons]
        simp only [g1, g2, Bool.false_eq_true, if_false, bind, Except.bind, pure, Except.pure]
        have := ih' (c + ((elems (k i)).length : Int)) (fun i hi => hc i (by simp [hi]))
        simp only [bind, Except.bind, pure, Except.pure] at this
        rw [this]
        simp [Int.add_assoc]
    rw [key _ 0 hin, Int.zero_add]

theorem Tree.vet_spec {t : Tree T} (h : t.Valid) : t.vet = .ok () := by
  unfold Tree.vet
  cases hn : t.root.isNil with
  | true =>
    have : t.list = [] := (Tree.isNil_iff_list h).1 hn
    have hc := h.count_eq
    rw [this] at hc
    simp at hc
    simp [hc]
  | false =>
    have := Node.vet_spec t.root 0 h.wf (by omega) hn (fun _ _ _ _ j hj => absurd hj (by omega))
    simp only [this, Bool.false_eq_true, if_false, bind, Except.bind, pure, Except.pure]
    rw [if_neg]
    have hc := h.count_eq
    simp only [ne_eq, Decidable.not_not]
    rw [hc]; rfl

end

/-- Every branch has a child. -/
def Node.BranchesHaveChildren {T : Type} : Node T → Prop
  | .branch _ k => (∃ i, (k i).isNil = false) ∧ ∀ i, (k i).BranchesHaveChildren
  | _ => True

/-- What the check of a node accepts: the number it returns is that of the elements stored. -/
theorem Node.vet_sound {T : Type} [GoKey T] : ∀ (n : Node T) (c : Int), n.vet = .ok c →
    c = (elems n).length ∧ (n.BranchesHaveChildren → NodeOk n ∧ elems n ≠ []) := by
  intro n
  induction n with
  | nil => intro c h; simp [Node.vet] at h
  | leaf1 a => intro c h; cases h; exact ⟨rfl, fun _ => ⟨trivial, by simp [elems]⟩⟩
  | leaf2 a b => intro c h; cases h; exact ⟨rfl, fun _ => ⟨trivial, by simp [elems]⟩⟩
  | twig l =>
    intro c h
    rw [Node.vet.eq_def] at h
    dsimp only at h
    split at h
    · cases h
    · rename_i hl
      refine ⟨?_, fun _ => ⟨trivial, fun he => hl (by rw [show l = [] from he]; simp)⟩⟩
      split at h
      · cases h
      · split at h
        · cases h; rfl
        · cases h
  | branch m k ih =>
    intro c h
    rw [Node.vet] at h
    split at h
    · cases h
    · rename_i hm
      have h2 : m = maskOf k := by rw [updateMask_eq] at hm; simpa using (Decidable.not_not.1 hm).symm
      have hmk : MaskOk m := h2 ▸ maskOk_maskOf k
      rw [indices_eq_slots hmk] at h
      have key : ∀ (is : List (Fin 8)) (c0 c : Int),
          is.foldlM (fun count i => if (k i).isNil then (.error (.msg "nil node[T] for mask") : Go Int)
            else do
              let c ← (k i).vet
              pure (count + c)) c0 = .ok c →
          c = c0 + ((is.flatMap (fun i => elems (k i))).length : Int) ∧ ∀ i ∈ is, ∃ ci, (k i).vet = .ok ci := by
        intro is
        induction is with
        | nil => intro c0 c h; cases h; simp
        | cons i is ih' =>
          intro c0 c h
          rw [List.foldlM_cons] at h
          cases hni : (k i).isNil with
          | true => simp [hni, bind, Except.bind] at h
          | false =>
            cases hv : (k i).vet with
            | error e => simp [hni, hv, bind, Except.bind] at h
            | ok ci =>
              have hci := (ih i ci hv).1
              simp only [hni, hv, Bool.false_eq_true, if_false, bind, Except.bind, pure, Except.pure] at h
              obtain ⟨g1, g2⟩ := ih' (c0 + ci) c h
              refine ⟨?_, fun j hj => ?_⟩
              · rw [g1, hci]; simp [Int.add_assoc]
              · rcases List.mem_cons.1 hj with rfl | hj
                · exact ⟨ci, hv⟩
                · exact g2 j hj
      obtain ⟨g1, g2⟩ := key _ _ _ h
      have hel : elems (.branch m k) = (slots m).flatMap (fun i => elems (k i)) := by
        have hnil : ∀ i, i ∉ slots m → elems (k i) = [] := by
          intro i hi
          rw [mem_slots, h2, getLsbD_maskOf] at hi
          have hni : (k i).isNil = true := by simpa using hi
          rw [isNil_iff.1 hni]; rfl
        simp only [elems]
        unfold slots
        induction List.finRange 8 with
        | nil => rfl
        | cons i is ihs =>
          simp only [List.flatMap_cons, List.filter_cons]
          split
          · rw [List.flatMap_cons, ihs]
          · rw [ihs, hnil i (by rw [mem_slots]; assumption)]; rfl
      refine ⟨by rw [g1, hel]; simp, fun hb => ?_⟩
      have hne : ∀ i, (k i).isNil = false → NodeOk (k i) ∧ elems (k i) ≠ [] := by
        intro i hi
        obtain ⟨ci, hci⟩ := g2 i (by rw [mem_slots, h2, getLsbD_maskOf, hi]; rfl)
        exact (ih i ci hci).2 (hb.2 i)
      obtain ⟨i, hi⟩ := hb.1
      have hne' : elems (.branch m k) ≠ [] := by
        intro he
        simp only [elems, List.flatMap_eq_nil_iff] at he
        exact (hne i hi).2 (he i (List.mem_finRange i))
      refine ⟨⟨hne', fun j => ?_⟩, hne'⟩
      cases hj : (k j).isNil with
      | false => exact (hne j hj).1
      | true => rw [isNil_iff.1 hj]; trivial

theorem Tree.vet_sound {T : Type} [GoKey T] {t : Tree T} (h : t.vet = .ok ()) (hb : t.root.BranchesHaveChildren) :
    ∃ es, t.rangeList = .ok es ∧ t.count = es.length := by
  unfold Tree.vet at h
  cases hn : t.root.isNil with
  | true =>
    rw [if_pos hn] at h
    have hr : t.root = .nil := isNil_iff.1 hn
    refine ⟨elems t.root, rangeList_spec (by rw [hr]; trivial), ?_⟩
    rw [hr]
    split at h
    · cases h
    · rename_i hc; simpa [elems] using hc
  | false =>
    simp only [hn, Bool.false_eq_true, if_false] at h
    cases hv : t.root.vet with
    | error e => rw [hv] at h; cases h
    | ok c =>
      rw [hv] at h
      obtain ⟨g1, g2⟩ := Node.vet_sound _ _ hv
      refine ⟨elems t.root, rangeList_spec (g2 hb).1, ?_⟩
      simp only [bind, Except.bind, pure, Except.pure] at h
      split at h
      · cases h
      · rename_i hc; rw [← g1]; exact (Decidable.not_not.1 hc).symm

/-! ### JSON -/

theorem intercalate_joinWith (sep : String) : ∀ xs : List String, sep.intercalate xs = joinWith sep xs
  | [] => rfl
  | [a] => by simp [joinWith]
  | a :: b :: l => by
    rw [joinWith, ← intercalate_joinWith sep (b :: l)]
    simp [String.append_assoc]

theorem mapM_ok {α β ε : Type} (f : α → Except ε β) : ∀ (xs : List α) (ys : List β), xs.map f = ys.map .ok → xs.mapM f = .ok ys
  | [], [], _ => rfl
  | [], _ :: _, h => by simp at h
  | _ :: _, [], h => by simp at h
  | x :: xs, y :: ys, h => by
    simp only [List.map_cons, List.cons.injEq] at h
    rw [List.mapM_cons, h.1]
    simp [bind, Except.bind, mapM_ok f xs ys h.2, pure, Except.pure]

theorem mapM_error {α β ε : Type} (f : α → Except ε β) : ∀ (xs : List α), (∃ x ∈ xs, ∃ m, f x = .error m) →
    ∃ x ∈ xs, ∃ m, f x = .error m ∧ xs.mapM f = .error m
  | [], h => by simp at h
  | x :: xs, h => by
    rw [List.mapM_cons]
    cases hx : f x with
    | error m => exact ⟨x, by simp, m, hx, by simp [bind, Except.bind]⟩
    | ok y =>
      obtain ⟨x', hx', m, hm⟩ := h
      have hmem : x' ∈ xs := by
        rcases List.mem_cons.1 hx' with rfl | h
        · rw [hx] at hm; cases hm
        · exact h
      obtain ⟨z, hz, m', h1, h2⟩ := mapM_error f xs ⟨x', hmem, m, hm⟩
      exact ⟨z, by simp [hz], m', h1, by simp [bind, Except.bind, h2]⟩

theorem jsonSlice_ok {xs : List (Except String String)} {ys : List String} (h : xs = ys.map .ok) :
    jsonSlice xs = .ok ("[" ++ joinWith "," ys ++ "]") := by
  unfold jsonSlice
  rw [mapM_ok id xs ys (by simpa using h)]
  simp [bind, Except.bind, pure, Except.pure, jsonList, intercalate_joinWith]

theorem jsonSlice_error {xs : List (Except String String)} (h : ∃ x ∈ xs, ∃ m, x = Except.error m) :
    ∃ m, Except.error m ∈ xs ∧ jsonSlice xs = .error m := by
  unfold jsonSlice
  obtain ⟨x, hx, m, h1, h2⟩ := mapM_error id xs h
  simp only [id] at h1
  exact ⟨m, h1 ▸ hx, by simp [bind, Except.bind, h2]⟩

theorem sortKeys_sorted {α : Type} (l : List (String × α)) :
    (l.insertionSort (fun a b => a.1 ≤ b.1)).Pairwise (fun a b => a.1 ≤ b.1) := by
  have : Std.Total (fun (a b : String × α) => a.1 ≤ b.1) := ⟨fun a b => String.le_total a.1 b.1⟩
  have : IsTrans (String × α) (fun a b => a.1 ≤ b.1) := ⟨fun a b c h1 h2 => String.le_trans h1 h2⟩
  exact List.pairwise_insertionSort _ l

theorem sortKeys_perm {α : Type} (l : List (String × α)) : (l.insertionSort (fun a b => a.1 ≤ b.1)).Perm l :=
  List.perm_insertionSort _ _

theorem sortKeys_congr {α : Type} {l l' : List (String × α)} (h : l.Perm l') (hn : (l.map (·.1)).Nodup) :
    l.insertionSort (fun a b => a.1 ≤ b.1) = l'.insertionSort (fun a b => a.1 ≤ b.1) := by
  have hp := (sortKeys_perm l).trans (h.trans (sortKeys_perm l').symm)
  refine List.Perm.eq_of_pairwise (le := fun a b => a.1 ≤ b.1) ?_ (sortKeys_sorted l) (sortKeys_sorted l') hp
  intro a b ha hb h1 h2
  have hk : a.1 = b.1 := String.le_antisymm h1 h2
  have ha' := (sortKeys_perm l).mem_iff.1 ha
  have hb' := h.mem_iff.2 ((sortKeys_perm l').mem_iff.1 hb)
  exact List.inj_on_of_nodup_map hn ha' hb' hk

/-! ### Braille -/

/-- The byte a Braille character stands for. -/
def unbraille (c : Char) : Nat :=
  if c = '~' then 0
  else [(7, 0), (3, 3), (6, 1), (2, 4), (5, 2), (1, 5), (4, 6), (0, 7)].foldl
    (fun r (m : Nat × Nat) => r ||| (((c.toNat >>> m.2) &&& 1) <<< m.1)) 0

theorem unbraille_byte : ∀ i : Fin 256, unbraille (brailleByte i.1) = i.1 := by decide +kernel

theorem brailleByte_inj {i j : Nat} (hi : i < 256) (hj : j < 256) (h : brailleByte i = brailleByte j) : i = j := by
  have h1 := unbraille_byte ⟨i, hi⟩
  have h2 := unbraille_byte ⟨j, hj⟩
  simp only at h1 h2
  rw [← h1, ← h2, h]

theorem brailleLoop_inj : ∀ (n : Nat) (x y : BitVec 64), n ≤ 8 → (∀ i < 64 - 8 * n, x.getLsbD i = false) →
    (∀ i < 64 - 8 * n, y.getLsbD i = false) → brailleLoop n x = brailleLoop n y → x = y
  | 0, x, y, _, hx, hy, _ => by
    apply BitVec.eq_of_getLsbD_eq
    intro i hi
    rw [hx i (by omega), hy i (by omega)]
  | n + 1, x, y, hn, hx, hy, h => by
    unfold brailleLoop at h
    by_cases h1 : x = 0#64
    · by_cases h2 : y = 0#64
      · rw [h1, h2]
      · simp [h1, h2] at h
    · by_cases h2 : y = 0#64
      · simp [h1, h2] at h
      · simp only [h1, h2, if_false, List.cons.injEq] at h
        have hb : (x >>> 56) = (y >>> 56) := by
          apply BitVec.eq_of_toNat_eq
          refine brailleByte_inj ?_ ?_ h.1
          · rw [BitVec.toNat_ushiftRight, Nat.shiftRight_eq_div_pow]; omega
          · rw [BitVec.toNat_ushiftRight, Nat.shiftRight_eq_div_pow]; omega
        have hs : ∀ (z : BitVec 64), (∀ i < 64 - 8 * (n + 1), z.getLsbD i = false) →
            ∀ i < 64 - 8 * n, (z <<< 8).getLsbD i = false := by
          intro z hz i hi
          rw [BitVec.getLsbD_shiftLeft]
          by_cases h8 : i < 8
          · simp [h8]
          · simp [hz (i - 8) (by omega)]
        have hr := brailleLoop_inj n _ _ (by omega) (hs x hx) (hs y hy) h.2
        apply BitVec.eq_of_getLsbD_eq
        intro i hi
        by_cases h56 : 56 ≤ i
        · have := congrArg (fun z : BitVec 64 => z.getLsbD (i - 56)) hb
          simp only [BitVec.getLsbD_ushiftRight] at this
          rwa [show 56 + (i - 56) = i from by omega] at this
        · have := congrArg (fun z : BitVec 64 => z.getLsbD (i + 8)) hr
          simp only [BitVec.getLsbD_shiftLeft] at this
          simpa [show i + 8 < 64 from by omega] using this

theorem brailleEncoded_inj {x y : BitVec 64} (h : brailleEncoded x = brailleEncoded y) : x = y := by
  unfold brailleEncoded at h
  exact brailleLoop_inj 8 x y (by omega) (fun i hi => by omega) (fun i hi => by omega) (String.ofList_injective h)

/-! ### Gauges -/

theorem len64_le {n k : Nat} : len64 n ≤ k ↔ n < 2 ^ k := by
  unfold len64
  by_cases h : n = 0
  · have := Nat.two_pow_pos k
    simp [h, this]
  · rw [if_neg h, ← Nat.log2_lt h]; omega

theorem maxGaugeDepth_pos (procs : Nat) : 1 ≤ maxGaugeDepth procs := by
  unfold maxGaugeDepth
  have : 0 ≤ len64 (procs - 1) := by unfold len64; split <;> omega
  have h0 : 0 ≤ (len64 (procs - 1) - 1).tdiv 3 := by
    by_cases h : len64 (procs - 1) = 0
    · rw [h]; decide
    · exact Int.tdiv_nonneg (by omega) (by omega)
  omega

theorem newGauge_pos {c : Concurrency} {procs count : Nat} : 0 < newGauge c procs count ↔ maxConcurrency c + 3 ≤ len64 count := by
  unfold newGauge
  have h1 := maxGaugeDepth_pos procs
  have hd : ∀ z : Int, 0 < z.tdiv 3 ↔ 3 ≤ z := by
    intro z
    by_cases hz : 0 ≤ z
    · rw [Int.tdiv_eq_ediv_of_nonneg hz]; omega
    · constructor
      · intro h
        have h2 : (-z).tdiv 3 = -(z.tdiv 3) := Int.neg_tdiv z 3
        have h3 : 0 ≤ (-z).tdiv 3 := Int.tdiv_nonneg (by omega) (by omega)
        omega
      · intro h; omega
  have := hd (len64 count - maxConcurrency c)
  simp only
  split <;> omega

theorem gauge_of_forbids {c : Concurrency} {n : Nat} (h : ForbidsGoroutines c n) (procs : Nat) : newGauge c procs n ≤ 0 := by
  rcases Int.lt_or_le 0 (newGauge c procs n) with hp | hp
  · exfalso
    rw [newGauge_pos] at hp
    cases c with
    | off =>
      have h1 : len64 n ≤ (64 : Nat) := len64_le.2 h
      simp only [maxConcurrency] at hp
      omega
    | other =>
      have h1 : len64 n ≤ (17 : Nat) := len64_le.2 h
      simp only [maxConcurrency] at hp
      omega
    | num j =>
      obtain ⟨hj, h⟩ := h
      have h1 : len64 n ≤ ((j.toNat + 2 : Nat) : Int) := len64_le.2 h
      simp only [maxConcurrency] at hp
      omega
  · exact hp

section
variable {X : Type}

/-- A computation without a call of `Parallel`. -/
def Comp.isSeq : Comp X → Prop
  | .seq _ => True
  | .par _ _ _ _ => False

theorem Comp.noPar {c : Comp X} (hc : c.isSeq) {s : St X} (h : Reaches c s) : ∀ fr kids v, s ≠ .par fr kids v := by
  cases c with
  | par _ _ _ _ => exact hc.elim
  | seq r =>
    have : s = .start (.seq r) ∨ ∃ x, s = .done x := by
      induction h with
      | start => exact .inl rfl
      | step h hs ih =>
        rcases ih with rfl | ⟨x, rfl⟩
        · cases hs with
          | seqOk r => exact .inr ⟨r, rfl⟩
        · cases hs
    rcases this with rfl | ⟨x, rfl⟩ <;> intro _ _ _ h <;> cases h

theorem Call.noGoroutines_map {α β : Type} (f : α → β) {c : Call α} (h : c.NoGoroutines) : (c.map f).NoGoroutines := by
  cases c with
  | seq r => trivial
  | run c k => exact h

variable {T : Type} [GoKey T] {g : Int} (hg : g ≤ 0)
include hg

theorem combineC_isSeq (n n' : Node T) (args : CombineArgs T) : (combineC g n args n' 0).isSeq := by
  unfold combineC
  split
  · split
    · rw [if_neg (by simpa using hg)]; trivial
    · trivial
  · trivial

theorem intersectionC_isSeq (n n' : Node T) : (intersectionC g n n' 0).isSeq := by
  unfold intersectionC
  split
  · split
    · rw [if_neg (by simpa using hg)]; trivial
    · trivial
  · trivial

theorem equalC_isSeq (eq : T → T → Bool) (n n' : Node T) : (equalC g eq n n' 0).isSeq := by
  unfold equalC
  split
  · split
    · split
      · trivial
      · rw [if_neg (by simpa using hg)]; trivial
    · trivial
  · trivial

theorem subsetOfC_isSeq (n n' : Node T) : (subsetOfC g n n' 0).isSeq := by
  unfold subsetOfC
  split
  · split
    · rw [if_neg (by simpa using hg)]; trivial
    · trivial
  · trivial

theorem whereC_isSeq (p : T → Bool) (n : Node T) : (whereC g p n 0).isSeq := by
  unfold whereC
  split
  · rw [if_neg (by simpa using hg)]; trivial
  · trivial

theorem reduceC_isSeq [Inhabited T] (r : List T → T) (n : Node T) : (reduceC g r n 0).isSeq := by
  unfold reduceC
  split
  · rw [if_neg (by simpa using hg)]; trivial
  · trivial

theorem Tree.combineC_noGoroutines (t u : Tree T) (args : CombineArgs T) : (t.combineC g args u).NoGoroutines := by
  unfold Tree.combineC
  split
  · trivial
  · split
    · trivial
    · exact fun s h => Comp.noPar (combineC_isSeq hg _ _ _) h

theorem Tree.intersectionC_noGoroutines (t u : Tree T) : (t.intersectionC g u).NoGoroutines := by
  unfold Tree.intersectionC
  split
  · trivial
  · exact fun s h => Comp.noPar (intersectionC_isSeq hg _ _) h

theorem Tree.equalC_noGoroutines (eq : T → T → Bool) (t u : Tree T) : (t.equalC g eq u).NoGoroutines := by
  unfold Tree.equalC
  split
  · trivial
  · split
    · trivial
    · exact fun s h => Comp.noPar (equalC_isSeq hg _ _ _) h

theorem Tree.subsetOfC_noGoroutines (t u : Tree T) : (t.subsetOfC g u).NoGoroutines := by
  unfold Tree.subsetOfC
  split
  · trivial
  · split
    · trivial
    · exact fun s h => Comp.noPar (subsetOfC_isSeq hg _ _) h

theorem Tree.whereC_noGoroutines (t : Tree T) (p : T → Bool) : (t.whereC g p).NoGoroutines := by
  unfold Tree.whereC
  split
  · trivial
  · exact fun s h => Comp.noPar (whereC_isSeq hg _ _) h

theorem Tree.reduceC_noGoroutines [Inhabited T] (t : Tree T) (r : List T → T) : (t.reduceC g r).NoGoroutines := by
  unfold Tree.reduceC
  split
  · trivial
  · exact fun s h => Comp.noPar (reduceC_isSeq hg _ _) h

end

end Frozen
