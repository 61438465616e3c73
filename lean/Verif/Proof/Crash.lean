import Verif.Proof.Concurrent

/-! Calls that are cut short: after any number of accesses the memory differs from the one before only where the whole call writes. -/

set_option linter.unusedSectionVars false

namespace Frozen

variable {T : Type}

/-- One access changes only the place it writes. -/
theorem MM.step_changes {α : Type} {W : Set Loc} (x : MM T α) (H : Mem T) (h : ∀ l, x.nextWrite = some l → l ∈ W) :
    Changes W H (x.step H).2 := by
  cases x with
  | done r => exact Changes.refl _ _
  | readCell a k => exact Changes.refl _ _
  | readElem a i k => exact Changes.refl _ _
  | alloc c k => exact changes_alloc W H c
  | allocArr c k => exact changes_allocArr W H c
  | writeCell a c k => exact changes_writeCell H a c (h _ rfl)
  | writeElem a i v k => exact changes_writeArr H a i v (h _ rfl)

/-- Some accesses change only what the whole run may change. -/
theorem MM.steps_changes {α : Type} {W : Set Loc} (x : MM T α) (H : Mem T) (h : Changes W H (x.run H).2) :
    ∀ n, Changes W H (x.steps H n).2
  | 0 => Changes.refl _ _
  | n + 1 => by
    obtain ⟨L, h1, h2⟩ := h.wrote
    refine (MM.steps_changes x H h n).trans (MM.step_changes _ _ (fun l hl => ?_))
    exact h2 l (x.nextWrite_mem H n l hl L h1)

variable [GoKey T] [LawfulGoKey T]

theorem cutMem_changes {W : Set Loc} (G : Growth) (w : World T) (op : HOp T) (n : Nat) (h : Changes W w.mem (w.step G op).mem) :
    Changes W w.mem (w.cutMem G op n) := by
  refine MM.steps_changes _ _ ?_ n
  have := Client.call_run G ⟨w.sets, w.builders, []⟩ op w.mem
  rw [this]
  exact h

theorem dropBuilder_ne {B : Type} {z : B} {bs : List B} {o : Option Nat} {k : Nat} (h : o ≠ some k) :
    (dropBuilder z bs o)[k]? = bs[k]? := by
  cases o with
  | none => rfl
  | some j => exact List.getElem?_set_ne (fun e => h (by rw [e]))

theorem dropBuilder_length {B : Type} (z : B) (bs : List B) (o : Option Nat) : (dropBuilder z bs o).length = bs.length := by
  cases o with
  | none => rfl
  | some j => exact List.length_set

/-- After an abandoned call everything is in order again. -/
theorem HistInv.cut {strict : Bool} {w : World T} {vw : VWorld T} {S : Set Loc} {B : Nat → Set Loc} {W : Set Loc}
    (h : HistInv strict w vw S B) (o : Option Nat) {H' : Mem T} (hc : Changes W w.mem H')
    (hst : strict = true → ∀ l ∈ S, l ∉ W) (hb : ∀ k, o ≠ some k → ∀ l ∈ B k, l ∉ W) (hcell : ∀ a, Loc.cell a ∈ S → Loc.cell a ∉ W) :
    HistInv strict ⟨H', w.sets, dropBuilder MTree.zero w.builders o⟩ ⟨vw.sets, dropBuilder Tree.zero vw.builders o⟩ S
      (fun k => if o = some k then ∅ else B k) := by
  refine ⟨h.live.next hc, ?_, h.setsLen, ?_, ?_, ?_, ?_, ?_⟩
  · intro i s hs
    obtain ⟨n, hn, hv⟩ := h.sets i s hs
    cases strict with
    | true => exact ⟨n, hn.frame hc (hst rfl), hv⟩
    | false =>
      obtain ⟨n', hn'⟩ := hn.shape hc (fun a ha hw => absurd hw (hcell a ha))
      exact ⟨n', hn', (nomatch ·)⟩
  · show (dropBuilder _ _ _).length = (dropBuilder _ _ _).length
    rw [dropBuilder_length, dropBuilder_length, h.blen]
  · intro k b hk
    dsimp only at hk ⊢
    by_cases ho : o = some k
    · subst ho
      have hlt : k < w.builders.length := by
        have := getElem?_lt hk
        rwa [dropBuilder_length] at this
      rw [show dropBuilder MTree.zero w.builders (some k) = w.builders.set k MTree.zero from rfl, List.getElem?_set_self hlt] at hk
      cases hk
      exact ⟨.nil, .nil _ _, List.getElem?_set_self (by rw [← h.blen]; exact hlt), Tree.valid_zero⟩
    · rw [dropBuilder_ne ho] at hk ⊢
      obtain ⟨n, hn, hv⟩ := h.blds k b hk
      refine ⟨n, ?_, hv⟩
      rw [if_neg ho]
      exact hn.frame hc (hb k ho)
  · intro k
    dsimp only
    split
    · exact live_empty _
    · exact (h.blive k).next hc
  · intro k l hl
    split at hl
    · exact hl.elim
    · exact h.dis k l hl
  · intro i j hij l hl hl'
    split at hl
    · exact hl.elim
    · split at hl'
      · exact hl'.elim
      · exact h.dis2 i j hij l hl hl'

/-- One event: the invariant again, and what it leaves alone. -/
theorem event_ok (G : Growth) {strict : Bool} {w : World T} {vw : VWorld T} {S : Set Loc} {B : Nat → Set Loc}
    (h : HistInv strict w vw S B) (e : Event T) (hu : strict = true → Uncrowded w e.op) :
    StepOk strict w S B e.op (w.event G e) (vw.event e) := by
  cases e with
  | call op => exact step_ok G h op hu
  | cut op n =>
    obtain ⟨_, ⟨W, hc, h1, h2, h3⟩, _, _⟩ := step_ok G h op hu
    have hc' := cutMem_changes G w op n hc
    refine ⟨⟨S, _, ⟨fun _ h => h, fun _ h => .inl h, fun k l hl => ?_⟩, h.cut op.builder hc' (fun hs => h1 (.inr hs)) h2 h3⟩, ⟨W, hc', h1, h2, h3⟩, fun _ _ h => h, ?_⟩
    · split at hl
      · exact hl.elim
      · exact .inl hl
    intro k b hk hb
    exact (dropBuilder_ne (o := op.builder) hk).trans hb

theorem events_inv (G : Growth) {strict : Bool} : ∀ (es : List (Event T)) {w : World T} {vw : VWorld T} {S : Set Loc} {B : Nat → Set Loc},
    HistInv strict w vw S B → (strict = true → UncrowdedEvents G w es) → ∃ S' B', HistInv strict (w.events G es) (vw.events es) S' B'
  | [], _, _, S, B, h, _ => ⟨S, B, h⟩
  | e :: es, w, vw, S, B, h, hu => by
    obtain ⟨⟨S', B', _, h'⟩, _⟩ := event_ok G h e (fun hs => (hu hs).1)
    exact events_inv G es h' (fun hs => (hu hs).2)

theorem events_view (G : Growth) {strict : Bool} : ∀ (es : List (Event T)) {w : World T} {vw : VWorld T} {S : Set Loc} {B : Nat → Set Loc},
    HistInv strict w vw S B → (strict = true → UncrowdedEvents G w es) → (strict = true ∨ ∀ e ∈ es, e.op.mayAppend = false) →
    ∀ {i : Nat} {s : MTree}, w.sets[i]? = some s → (w.events G es).sets[i]? = some s ∧ SameView w.mem (w.events G es).mem s
  | [], _, _, _, _, h, _, _, i, s, hs => by
    obtain ⟨n, hn, _⟩ := h.sets i s hs
    exact ⟨hs, sameView_of hn hn⟩
  | e :: es, w, vw, S, B, h, hu, ho, i, s, hs => by
    have hst := event_ok G h e (fun hs => (hu hs).1)
    have hv := hst.view h (ho.symm.imp (fun hh => hh e (by simp)) id) hs
    obtain ⟨⟨S', B', _, h'⟩, _, h3, _⟩ := hst
    obtain ⟨h1, h2⟩ := events_view G es h' (fun hs => (hu hs).2) (ho.imp id (fun hh e he => hh e (by simp [he]))) (h3 i s hs)
    exact ⟨h1, hv.trans h2⟩

theorem events_bview (G : Growth) : ∀ (es : List (Event T)) {w : World T} {vw : VWorld T} {S : Set Loc} {B : Nat → Set Loc},
    HistInv false w vw S B → ∀ {k : Nat}, (∀ e ∈ es, e.op.builder ≠ some k) →
    ∀ {b : MTree}, w.builders[k]? = some b → (w.events G es).builders[k]? = some b ∧ SameView w.mem (w.events G es).mem b
  | [], _, _, _, _, h, k, _, b, hb => by
    obtain ⟨n, hn, _⟩ := h.blds k b hb
    exact ⟨hb, sameView_of hn.rep hn.rep⟩
  | e :: es, w, vw, S, B, h, k, ho, b, hb => by
    have hst := event_ok G h e (nomatch ·)
    have hv := hst.bview h (ho e (by simp)) hb
    obtain ⟨⟨S', B', _, h'⟩, _, _, h4⟩ := hst
    obtain ⟨h1, h2⟩ := events_bview G es h' (fun e he => ho e (by simp [he])) (h4 k b (ho e (by simp)) hb)
    exact ⟨h1, hv.trans h2⟩

theorem events_append (G : Growth) (w : World T) (es es' : List (Event T)) : w.events G (es ++ es') = (w.events G es).events G es' := by
  unfold World.events; rw [List.foldl_append]

theorem uncrowdedEvents_append (G : Growth) : ∀ (es es' : List (Event T)) (w : World T), UncrowdedEvents G w (es ++ es') →
    UncrowdedEvents G w es ∧ UncrowdedEvents G (w.events G es) es'
  | [], _, _, h => ⟨trivial, h⟩
  | e :: es, es', w, h => by
    obtain ⟨h1, h2⟩ := uncrowdedEvents_append G es es' (w.event G e) h.2
    exact ⟨⟨h.1, h1⟩, h2⟩

/-- The builders of the value model do not depend on its sets. -/
theorem VWorld.step_builders (vw vw' : VWorld T) (h : vw.builders = vw'.builders) (op : HOp T) :
    (vw.step op).builders = (vw'.step op).builders := by
  cases op with
  | empty => exact h
  | «with» i v => exact (vw.on_builders _ _).trans (h.trans (vw'.on_builders _ _).symm)
  | without i v => exact (vw.on_builders _ _).trans (h.trans (vw'.on_builders _ _).symm)
  | «where» i v => exact (vw.on_builders _ _).trans (h.trans (vw'.on_builders _ _).symm)
  | merge i j f => exact (vw.on2_builders _ _ _).trans (h.trans (vw'.on2_builders _ _ _).symm)
  | intersection i j => exact (vw.on2_builders _ _ _).trans (h.trans (vw'.on2_builders _ _ _).symm)
  | difference i j => exact (vw.on2_builders _ _ _).trans (h.trans (vw'.on2_builders _ _ _).symm)
  | newBuilder => show vw.builders ++ _ = vw'.builders ++ _; rw [h]
  | add k v =>
    simp only [VWorld.step, VWorld.onBuilder, h]
    cases vw'.builders[k]? with
    | none => exact h
    | some b => simp only [VWorld.update]; cases Builder.add b v <;> simp [h]
  | remove k v =>
    simp only [VWorld.step, VWorld.onBuilder, h]
    cases vw'.builders[k]? with
    | none => exact h
    | some b => simp only [VWorld.update]; cases Builder.remove b v <;> simp [h]
  | finish k =>
    simp only [VWorld.step, h]
    cases vw'.builders[k]? with
    | none => exact h
    | some b => rfl

theorem VWorld.events_builders : ∀ (es : List (Event T)) (vw vw' : VWorld T), vw.builders = vw'.builders →
    (vw.events es).builders = (vw'.run (es.flatMap Event.effect)).builders
  | [], _, _, h => h
  | .call op :: es, vw, vw', h => VWorld.events_builders es _ _ (vw.step_builders vw' h op)
  | .cut op n :: es, vw, vw', h => by
    show ((vw.event (.cut op n)).events es).builders = _
    cases ho : op.builder with
    | none =>
      have : (Event.cut op n :: es).flatMap Event.effect = es.flatMap Event.effect := by simp [Event.effect, ho]
      rw [this]
      exact VWorld.events_builders es _ _ (by simp only [VWorld.event, ho, dropBuilder]; exact h)
    | some k =>
      have : (Event.cut op n :: es).flatMap Event.effect = .finish k :: es.flatMap Event.effect := by simp [Event.effect, ho]
      rw [this]
      refine VWorld.events_builders es _ (vw'.step (.finish k)) ?_
      simp only [VWorld.event, ho, dropBuilder, VWorld.step, h]
      cases hk : vw'.builders[k]? with
      | none =>
        rw [List.set_eq_of_length_le (by rw [List.getElem?_eq_none_iff] at hk; exact hk)]
      | some b => rfl

/-- Nothing that existed has been written: everything answers as before. -/
theorem cut_untouched (G : Growth) {w : World T} (op : HOp T) (n : Nat) (L : List Loc)
    (hL : (w.cutMem G op n).log = L ++ w.mem.log) (hw : ∀ l ∈ L, ¬ w.mem.HasLoc l) :
    Changes ∅ w.mem (w.cutMem G op n) := by
  have hgen : ∀ {α : Type} (x : MM T α) (n : Nat) (L : List Loc), (x.steps w.mem n).2.log = L ++ w.mem.log → (∀ l ∈ L, ¬ w.mem.HasLoc l) →
      Changes ∅ w.mem (x.steps w.mem n).2 := by
    intro α x n
    induction n with
    | zero => intro _ _ _; exact Changes.refl _ _
    | succ n ih =>
      intro L hL hw
      rw [MM.steps, MM.log_step] at hL
      have hpre : ∃ L', (x.steps w.mem n).2.log = L' ++ w.mem.log := by
        clear ih hL
        induction n with
        | zero => exact ⟨[], rfl⟩
        | succ n ih' =>
          obtain ⟨L', h'⟩ := ih'
          exact ⟨_ ++ L', by rw [MM.steps, MM.log_step, h', List.append_assoc]⟩
      obtain ⟨L', h'⟩ := hpre
      rw [h', ← List.append_assoc, List.append_cancel_right_eq] at hL
      refine (ih L' h' (fun l hl => hw l (by rw [← hL]; simp [hl]))).trans (MM.step_changes _ _ (fun l hl => ?_))
      refine .inr ?_
      have := hw l (by rw [← hL, hl]; simp)
      rw [hasLoc_iff] at this
      exact Classical.not_not.1 this
  exact hgen _ n L hL hw

end Frozen
