import Verif.Proof.MemCompare
import Verif.Spec.Crash
import Verif.Proof.MemHistory

/-! Goroutines over shared sets: what a goroutine does alone, and why others do not disturb it. -/

set_option linter.unusedSectionVars false

namespace Frozen

variable {T : Type}

/-! ## Single accesses -/

theorem MM.run_step {α : Type} (x : MM T α) (H : Mem T) : (x.step H).1.run (x.step H).2 = x.run H := by
  cases x <;> rfl

theorem MM.run_steps {α : Type} (x : MM T α) (H : Mem T) : ∀ n, (x.steps H n).1.run (x.steps H n).2 = x.run H
  | 0 => rfl
  | n + 1 => by rw [MM.steps, MM.run_step, MM.run_steps x H n]

theorem MM.steps_succ' {α : Type} (x : MM T α) (H : Mem T) : ∀ n, x.steps H (n + 1) = (x.step H).1.steps (x.step H).2 n
  | 0 => rfl
  | n + 1 => by rw [MM.steps, MM.steps_succ' x H n]; rfl

theorem MM.steps_done {α : Type} (r : Go α) (H : Mem T) : ∀ n, (MM.done r : MM T α).steps H n = (.done r, H)
  | 0 => rfl
  | n + 1 => by rw [MM.steps, MM.steps_done r H n]; rfl

/-- Every code comes to an end. -/
theorem MM.finishes {α : Type} (x : MM T α) (H : Mem T) : ∃ n, ∀ m, n ≤ m → x.steps H m = (.done (x.run H).1, (x.run H).2) := by
  have key : ∀ (x x' : MM T α) (H H' : Mem T), x.step H = (x', H') →
      (∃ n, ∀ m, n ≤ m → x'.steps H' m = (.done (x'.run H').1, (x'.run H').2)) →
      ∃ n, ∀ m, n ≤ m → x.steps H m = (.done (x.run H).1, (x.run H).2) := by
    rintro x x' H H' hs ⟨n, hn⟩
    refine ⟨n + 1, fun m hm => ?_⟩
    obtain ⟨m, rfl⟩ := Nat.exists_eq_succ_of_ne_zero (by omega : m ≠ 0)
    rw [Nat.succ_eq_add_one, MM.steps_succ', ← MM.run_step x H, hs]
    exact hn m (by omega)
  induction x generalizing H with
  | done r => exact ⟨0, fun m _ => MM.steps_done r H m⟩
  | readCell a k ih => exact key _ _ _ _ rfl (ih _ _)
  | readElem a i k ih => exact key _ _ _ _ rfl (ih _ _)
  | alloc c k ih => exact key _ _ _ _ rfl (ih _ _)
  | allocArr c k ih => exact key _ _ _ _ rfl (ih _ _)
  | writeCell a c k ih => exact key _ _ _ _ rfl (ih _)
  | writeElem a i v k ih => exact key _ _ _ _ rfl (ih _)

/-- The log of a run extends the log at its start. -/
theorem MM.log_run {α : Type} (x : MM T α) (H : Mem T) : ∃ L, (x.run H).2.log = L ++ H.log := by
  induction x generalizing H with
  | done r => exact ⟨[], rfl⟩
  | readCell a k ih => exact ih _ H
  | readElem a i k ih => exact ih _ H
  | alloc c k ih => exact ih _ ⟨_, _, H.log⟩
  | allocArr c k ih => exact ih _ ⟨_, _, H.log⟩
  | writeCell a c k ih =>
    obtain ⟨L, h⟩ := ih (H.setCell a c)
    exact ⟨L ++ [.cell a], by rw [List.append_assoc]; exact h⟩
  | writeElem a i v k ih =>
    obtain ⟨L, h⟩ := ih (H.setElem a i v)
    exact ⟨L ++ [.arr a], by rw [List.append_assoc]; exact h⟩

theorem MM.log_step {α : Type} (x : MM T α) (H : Mem T) : (x.step H).2.log = x.nextWrite.toList ++ H.log := by
  cases x <;> rfl

/-- The log of some accesses is a part of the log of the run. -/
theorem MM.nextWrite_mem {α : Type} (x : MM T α) (H : Mem T) (n : Nat) (l : Loc) (h : (x.steps H n).1.nextWrite = some l) (L : List Loc)
    (hL : (x.run H).2.log = L ++ H.log) : l ∈ L := by
  have hstep : ∀ n, ∃ L', (x.steps H n).2.log = L' ++ H.log := by
    intro n
    induction n with
    | zero => exact ⟨[], rfl⟩
    | succ n ih =>
      obtain ⟨L', h'⟩ := ih
      exact ⟨_ ++ L', by rw [MM.steps, MM.log_step, h', List.append_assoc]⟩
  obtain ⟨L1, h1⟩ := hstep n
  obtain ⟨L2, h2⟩ := MM.log_run (x.steps H (n + 1)).1 (x.steps H (n + 1)).2
  rw [MM.run_steps] at h2
  rw [MM.steps, MM.log_step, h, h1] at h2
  rw [hL] at h2
  have : L ++ H.log = (L2 ++ ([l] ++ L1)) ++ H.log := by rw [h2]; simp
  rw [List.append_cancel_right_eq] at this
  rw [this]; simp

/-! ## The shared part stays -/

/-- The memory extends the shared one. -/
def MemExt (S H : Mem T) : Prop := S.cells <+: H.cells ∧ S.arrays <+: H.arrays

theorem ext_plus (S own : Mem T) : MemExt S (S.plus own) := ⟨List.prefix_append .., List.prefix_append ..⟩

theorem MemExt.low {S H : Mem T} (h : MemExt S H) : S.low H = S := by
  obtain ⟨⟨c, hc⟩, ⟨a, ha⟩⟩ := h
  unfold Mem.low
  rw [← hc, ← ha, List.take_left, List.take_left]

theorem MemExt.plus_high {S H : Mem T} (h : MemExt S H) : S.plus (S.high H) = H := by
  obtain ⟨⟨c, hc⟩, ⟨a, ha⟩⟩ := h
  unfold Mem.plus Mem.high
  dsimp only
  rw [← hc, ← ha, List.drop_left, List.drop_left, hc, ha]

theorem MemExt.step {α : Type} {S H : Mem T} (h : MemExt S H) (x : MM T α) (hw : ∀ l, x.nextWrite = some l → ¬ S.HasLoc l) :
    MemExt S (x.step H).2 := by
  obtain ⟨⟨c, hc⟩, ⟨a, ha⟩⟩ := h
  cases x with
  | done r => exact ⟨⟨c, hc⟩, ⟨a, ha⟩⟩
  | readCell _ _ => exact ⟨⟨c, hc⟩, ⟨a, ha⟩⟩
  | readElem _ _ _ => exact ⟨⟨c, hc⟩, ⟨a, ha⟩⟩
  | alloc x _ => exact ⟨⟨c ++ [x], by rw [← List.append_assoc, hc]; rfl⟩, ⟨a, ha⟩⟩
  | allocArr x _ => exact ⟨⟨c, hc⟩, ⟨a ++ [x], by rw [← List.append_assoc, ha]; rfl⟩⟩
  | writeCell b x _ =>
    have hb : S.cells.length ≤ b := Nat.le_of_not_lt (hw _ rfl)
    refine ⟨⟨c.set (b - S.cells.length) x, ?_⟩, ⟨a, ha⟩⟩
    show _ = H.cells.set b x
    rw [← hc, List.set_append_right _ _ hb]
  | writeElem b i v _ =>
    have hb : S.arrays.length ≤ b := Nat.le_of_not_lt (hw _ rfl)
    refine ⟨⟨c, hc⟩, ⟨a.modify (b - S.arrays.length) (fun l => l.take i ++ v :: l.drop (i + 1)), ?_⟩⟩
    show _ = H.arrays.modify b _
    apply List.ext_getElem?
    intro j
    rw [← ha, List.getElem?_modify, List.getElem?_append, List.getElem?_append]
    by_cases hj : j < S.arrays.length
    · rw [if_pos hj, if_pos hj]; simp [show b ≠ j by omega]
    · rw [if_neg hj, if_neg hj, List.getElem?_modify]
      by_cases hbj : b = j
      · subst hbj; simp
      · simp [hbj, show b - S.arrays.length ≠ j - S.arrays.length by omega]

/-- The code, run alone from the shared memory, writes to nothing that existed before. -/
def Quiet {α : Type} (S : Mem T) (x : MM T α) : Prop := ∃ L, (x.run S).2.log = L ++ S.log ∧ ∀ l ∈ L, ¬ S.HasLoc l

theorem Quiet.nextWrite {α : Type} {S : Mem T} {x : MM T α} (h : Quiet S x) (n : Nat) (l : Loc)
    (hl : (x.steps S n).1.nextWrite = some l) : ¬ S.HasLoc l := by
  obtain ⟨L, h1, h2⟩ := h
  exact h2 l (x.nextWrite_mem S n l hl L h1)

/-! ## Schedules -/

variable [GoKey T]

/-- How often each goroutine had its turn. -/
def Machine.At (S : Mem T) (xs : List (MM T (Client T))) (m : Machine T) (turns : Nat → Nat) : Prop :=
  m.shared = S ∧ m.gs.length = xs.length ∧
  ∀ (i : Nat) (x : MM T (Client T)) (g : Goroutine T), xs[i]? = some x → m.gs[i]? = some g →
    (g.code, S.plus g.own) = x.steps S (turns i) ∧ MemExt S (S.plus g.own)

theorem Machine.step_at {S : Mem T} {xs : List (MM T (Client T))} {m : Machine T} {turns : Nat → Nat} (h : m.At S xs turns)
    (hq : ∀ x ∈ xs, Quiet S x) (j : Nat) : (m.step j).At S xs (fun i => if i = j then turns i + 1 else turns i) := by
  obtain ⟨h1, h2, h3⟩ := h
  unfold Machine.step
  cases hg : m.gs[j]? with
  | none =>
    refine ⟨h1, h2, fun i x g hx hi => ?_⟩
    have : i ≠ j := fun e => by rw [e] at hi; rw [hi] at hg; cases hg
    simp only [this, if_false]
    exact h3 i x g hx hi
  | some g =>
    have hj := getElem?_lt hg
    have hxj : xs[j]? = some xs[j] := List.getElem?_eq_getElem (h2 ▸ hj)
    obtain ⟨h4, h5⟩ := h3 j _ g hxj hg
    have hc : g.code = ((xs[j]).steps S (turns j)).1 := congrArg Prod.fst h4
    have hm : S.plus g.own = ((xs[j]).steps S (turns j)).2 := congrArg Prod.snd h4
    have hext : MemExt S (g.code.step (S.plus g.own)).2 := by
      refine h5.step _ (fun l hl => (hq xs[j] (List.getElem_mem _)).nextWrite (turns j) l ?_)
      rw [← hc]; exact hl
    dsimp only
    rw [h1]
    refine ⟨hext.low, by simpa using h2, fun i x g' hx hi => ?_⟩
    by_cases hij : i = j
    · subst hij
      dsimp only at hi
      rw [List.getElem?_set_self hj] at hi
      rw [hx] at hxj
      cases hi; cases hxj
      simp only [if_true]
      rw [hext.plus_high]
      refine ⟨?_, hext⟩
      show (_, _) = MM.step _ _
      rw [← hc, ← hm]
    · dsimp only at hi
      rw [List.getElem?_set_ne (Ne.symm hij)] at hi
      simp only [hij, if_false]
      exact h3 i x g' hx hi

theorem Machine.run_at {S : Mem T} {xs : List (MM T (Client T))} (hq : ∀ x ∈ xs, Quiet S x) : ∀ (sched : List Nat) {m : Machine T}
    {turns : Nat → Nat}, m.At S xs turns → (m.run sched).At S xs (fun i => turns i + sched.count i)
  | [], _, _, h => h
  | j :: sched, m, turns, h => by
    have := Machine.run_at hq sched (Machine.step_at h hq j)
    refine cast (congrArg (Machine.At S xs _) (funext fun i => ?_)) this
    rw [List.count_cons]
    by_cases hij : i = j
    · subst hij; simp; omega
    · simp [hij, Ne.symm hij]

/-! ## A goroutine alone -/

theorem MM.attempt_run {α : Type} (x : MM T α) (H : Mem T) : x.attempt H = (.ok (x H).1, (x H).2) := by
  induction x generalizing H with
  | done r => rfl
  | readCell a k ih => exact ih _ H
  | readElem a i k ih => exact ih _ H
  | alloc c k ih => exact ih _ _
  | allocArr c k ih => exact ih _ _
  | writeCell a c k ih => exact ih _
  | writeElem a i v k ih => exact ih _

/-- The client as a world. -/
def Client.world (c : Client T) (H : Mem T) : World T := ⟨H, c.sets, c.builders⟩

/-- The world as a client. -/
def World.client (w : World T) (seen : List (Answer T)) : Client T := ⟨w.sets, w.builders, seen⟩

theorem Client.push_run (c : Client T) (x : MM T MTree) (H : Mem T) :
    c.push x H = (.ok (((c.world H).push (x H)).client c.seen), ((c.world H).push (x H)).mem) := by
  unfold Client.push
  rw [run_bind (x.attempt_run H)]
  unfold World.push
  cases (x H).1 <;> rfl

theorem Client.update_run (c : Client T) (k : Nat) (x : MM T MTree) (H : Mem T) :
    c.update k x H = (.ok (((c.world H).update k (x H)).client c.seen), ((c.world H).update k (x H)).mem) := by
  unfold Client.update
  rw [run_bind (x.attempt_run H)]
  unfold World.update
  cases (x H).1 <;> rfl

theorem Client.on_run (c : Client T) (i : Nat) (f : MTree → MM T MTree) (H : Mem T) :
    c.on i f H = (.ok (((c.world H).on i f).client c.seen), ((c.world H).on i f).mem) := by
  unfold Client.on World.on
  show MM.run (match c.sets[i]? with | some s => c.push (f s) | none => pure c) H = _
  simp only [Client.world]
  cases c.sets[i]? with
  | none => rfl
  | some s => exact c.push_run (f s) H

theorem Client.on2_run (c : Client T) (i j : Nat) (f : MTree → MTree → MM T MTree) (H : Mem T) :
    c.on2 i j f H = (.ok (((c.world H).on2 i j f).client c.seen), ((c.world H).on2 i j f).mem) := by
  unfold Client.on2 World.on2
  simp only [Client.world]
  cases c.sets[i]? with
  | none => rfl
  | some s =>
    cases c.sets[j]? with
    | none => rfl
    | some t => exact c.push_run (f s t) H

theorem Client.onBuilder_run (c : Client T) (k : Nat) (f : MTree → MM T MTree) (H : Mem T) :
    c.onBuilder k f H = (.ok (((c.world H).onBuilder k f).client c.seen), ((c.world H).onBuilder k f).mem) := by
  unfold Client.onBuilder World.onBuilder
  simp only [Client.world]
  cases c.builders[k]? with
  | none => rfl
  | some b => exact c.update_run k (f b) H

/-- A goroutine's call does what the same call does in a history. -/
theorem Client.call_run (G : Growth) (c : Client T) (op : HOp T) (H : Mem T) :
    c.call G op H = (.ok (((c.world H).step G op).client c.seen), ((c.world H).step G op).mem) := by
  cases op with
  | empty => rfl
  | «with» i v => exact c.on_run i _ H
  | without i v => exact c.on_run i _ H
  | «where» i v => exact c.on_run i _ H
  | merge i j f => exact c.on2_run i j _ H
  | intersection i j => exact c.on2_run i j _ H
  | difference i j => exact c.on2_run i j _ H
  | newBuilder => rfl
  | add k v => exact c.onBuilder_run k _ H
  | remove k v => exact c.onBuilder_run k _ H
  | finish k =>
    simp only [Client.call, World.step, Client.world]
    cases c.builders[k]? <;> rfl

theorem MTree.getP_run (s : MTree) (v : T) (H : Mem T) : s.getP v H = (s.get H v, H) := by
  unfold MTree.getP MTree.get
  split
  · rfl
  · exact Frozen.getP_run H _ _ _ _

theorem MTree.elemsP_run (s : MTree) (H : Mem T) : s.elemsP H = (s.elems H, H) := Frozen.elemsP_run H _ _

theorem goroutine_cons (G : Growth) (c : Client T) (op : GOp T) (ops : List (GOp T)) :
    goroutine G c (op :: ops) = c.perform G op >>= fun c' => goroutine G c' ops := List.foldlM_cons

variable [LawfulGoKey T]

theorem calls_cons (op : HOp T) (ops : List (GOp T)) : GOp.calls (.call op :: ops) = op :: GOp.calls ops := rfl

/-- A comparison: nothing changes but what the goroutine has seen, and that as on values. -/
theorem compare_ok {strict : Bool} {c : Client T} {H : Mem T} {vw : VWorld T} {S : Set Loc} {B : Nat → Set Loc}
    (h : HistInv strict (c.world H) vw S B) (i j : Nat) {f : MTree → MTree → MM T Bool} {g : Tree T → Tree T → Go Bool}
    (hfg : ∀ (s t : MTree) (n n' : Node T), Rep H S 0 s.root n → Rep H S 0 t.root n' → f s t H = (g (s.val n) (t.val n'), H)) :
    ∃ seen, c.compare i j f H = (.ok { c with seen := seen }, H) ∧
      (strict = true → VClient.compare ⟨vw, c.seen⟩ i j g = ⟨vw, seen⟩) := by
  have hnone : ∀ k, c.sets[k]? = none → strict = true → vw.sets[k]? = none := fun k hk hst => by subst hst; exact none_sets h hk
  cases hs : c.sets[i]? with
  | none =>
    refine ⟨c.seen, by simp only [Client.compare, hs]; rfl, fun hst => ?_⟩
    simp only [VClient.compare, hnone i hs hst]
  | some s =>
    obtain ⟨n, hn, hv⟩ := h.sets i s hs
    cases ht : c.sets[j]? with
    | none =>
      refine ⟨c.seen, by simp only [Client.compare, hs, ht]; rfl, fun hst => ?_⟩
      simp only [VClient.compare, (hv hst).1, hnone j ht hst]
    | some t =>
      obtain ⟨n', hn', hv'⟩ := h.sets j t ht
      refine ⟨c.seen ++ [.truth (g (s.val n) (t.val n'))], ?_, fun hst => ?_⟩
      · simp only [Client.compare, hs, ht]
        rw [run_bind (MM.attempt_run _ _), hfg s t n n' hn hn']
        rfl
      · simp only [VClient.compare, (hv hst).1, (hv' hst).1]

/-- What a goroutine does alone: it ends, its calls are those of a history, nothing of `S` is written, and in strict mode it sees what
the value model says. -/
theorem goroutine_ok (G : Growth) {strict : Bool} : ∀ (ops : List (GOp T)) {c : Client T} {H : Mem T} {vw : VWorld T} {S : Set Loc}
    {B : Nat → Set Loc}, HistInv strict (c.world H) vw S B → (strict = true → UncrowdedRun G (c.world H) (GOp.calls ops)) →
    (strict = true ∨ ∀ op ∈ GOp.calls ops, op.mayAppend = false) →
    ∃ c' H', goroutine G c ops H = (.ok c', H') ∧ c'.world H' = (c.world H).run G (GOp.calls ops) ∧
      (∃ L, H'.log = L ++ H.log ∧ ∀ l ∈ L, l ∉ S) ∧
      (strict = true → c'.seen = (VClient.run ⟨vw, c.seen⟩ ops).seen)
  | [], c, H, vw, S, B, _, _, _ => ⟨c, H, rfl, rfl, ⟨[], rfl, by simp⟩, fun _ => rfl⟩
  | .call op :: ops, c, H, vw, S, B, h, hu, ho => by
    rw [goroutine_cons]
    have hst := step_ok G h op (fun hs => (hu hs).1)
    obtain ⟨⟨S', B', ⟨hsub, _, _⟩, h'⟩, ⟨W, hc, hW, _⟩, _, _⟩ := hst
    have hW := hW (ho.symm.imp (fun hh => hh op (by simp [calls_cons])) id)
    have hrun : c.perform G (.call op) H = _ := c.call_run G op H
    rw [run_bind hrun]
    obtain ⟨c', H', h1, h2, ⟨L, h3, h4⟩, h5⟩ := goroutine_ok G ops (c := ((c.world H).step G op).client c.seen)
      (H := ((c.world H).step G op).mem) h' (fun hs => (hu hs).2) (ho.imp id (fun hh o hop => hh o (by simp [calls_cons, hop])))
    refine ⟨c', H', h1, h2, ?_, h5⟩
    obtain ⟨L1, h6, h7⟩ := hc.wrote
    refine ⟨L ++ L1, by rw [h3, h6, List.append_assoc]; rfl, fun l hl hS => ?_⟩
    rcases List.mem_append.1 hl with hl | hl
    · exact h4 l hl (hsub hS)
    · exact (h7 l hl).elim (hW l hS) (h.live l hS)
  | .get i v :: ops, c, H, vw, S, B, h, hu, ho => by
    rw [goroutine_cons]
    cases hs : c.sets[i]? with
    | none =>
      have hp : c.perform G (.get i v) = pure c := by simp only [Client.perform, hs]
      rw [hp]
      obtain ⟨c', H', h1, h2, h3, h4⟩ := goroutine_ok G ops h hu ho
      refine ⟨c', H', h1, h2, h3, fun hst => ?_⟩
      subst hst
      have hv : vw.sets[i]? = none := none_sets h hs
      have : VClient.run ⟨vw, c.seen⟩ (.get i v :: ops) = VClient.run ⟨vw, c.seen⟩ ops := by
        show VClient.run (VClient.perform _ _) ops = _
        simp only [VClient.perform, hv]
      rw [this]; exact h4 rfl
    | some s =>
      have hp : c.perform G (.get i v) H = (.ok { c with seen := c.seen ++ [.found (s.get H v)] }, H) := by
        simp only [Client.perform, hs]
        rw [run_bind (MM.attempt_run _ _), MTree.getP_run]
        rfl
      rw [run_bind hp]
      obtain ⟨c', H', h1, h2, h3, h4⟩ := goroutine_ok G ops (c := { c with seen := c.seen ++ [.found (s.get H v)] }) h hu ho
      refine ⟨c', H', h1, h2, h3, fun hst => ?_⟩
      subst hst
      obtain ⟨n, hn, hv⟩ := h.sets i s hs
      have : VClient.run ⟨vw, c.seen⟩ (.get i v :: ops) = VClient.run ⟨vw, c.seen ++ [.found (s.get H v)]⟩ ops := by
        show VClient.run (VClient.perform _ _) ops = _
        simp only [VClient.perform, (hv rfl).1]
        rw [← MTree.get_eq hn v]; rfl
      rw [this]; exact h4 rfl
  | .range i :: ops, c, H, vw, S, B, h, hu, ho => by
    rw [goroutine_cons]
    cases hs : c.sets[i]? with
    | none =>
      have hp : c.perform G (.range i) = pure c := by simp only [Client.perform, hs]
      rw [hp]
      obtain ⟨c', H', h1, h2, h3, h4⟩ := goroutine_ok G ops h hu ho
      refine ⟨c', H', h1, h2, h3, fun hst => ?_⟩
      subst hst
      have hv : vw.sets[i]? = none := none_sets h hs
      have : VClient.run ⟨vw, c.seen⟩ (.range i :: ops) = VClient.run ⟨vw, c.seen⟩ ops := by
        show VClient.run (VClient.perform _ _) ops = _
        simp only [VClient.perform, hv]
      rw [this]; exact h4 rfl
    | some s =>
      have hp : c.perform G (.range i) H = (.ok { c with seen := c.seen ++ [.visited (s.elems H)] }, H) := by
        simp only [Client.perform, hs]
        rw [run_bind (MM.attempt_run _ _), MTree.elemsP_run]
        rfl
      rw [run_bind hp]
      obtain ⟨c', H', h1, h2, h3, h4⟩ := goroutine_ok G ops (c := { c with seen := c.seen ++ [.visited (s.elems H)] }) h hu ho
      refine ⟨c', H', h1, h2, h3, fun hst => ?_⟩
      subst hst
      obtain ⟨n, hn, hv⟩ := h.sets i s hs
      have : VClient.run ⟨vw, c.seen⟩ (.range i :: ops) = VClient.run ⟨vw, c.seen ++ [.visited (s.elems H)]⟩ ops := by
        show VClient.run (VClient.perform _ _) ops = _
        simp only [VClient.perform, (hv rfl).1]
        have hr : (s.val n).rangeList = _ := rangeList_spec (hv rfl).2.nodeOk
        have he : s.elems H = .ok (elems n) := elemsM_eq hn memFuel (fuelOk_mem 0)
        rw [hr, he]; rfl
      rw [this]; exact h4 rfl

  | .equal eq i j :: ops, c, H, vw, S, B, h, hu, ho => by
    rw [goroutine_cons]
    obtain ⟨seen, hp, hv⟩ := compare_ok h i j (f := fun s t => s.equalP eq t) (g := fun s t => s.equal eq t)
      (fun s t n n' hn hn' => MTree.equalP_eq eq hn hn')
    rw [run_bind (show c.perform G (.equal eq i j) H = _ from hp)]
    obtain ⟨c', H', h1, h2, h3, h4⟩ := goroutine_ok G ops (c := { c with seen := seen }) h hu ho
    refine ⟨c', H', h1, h2, h3, fun hst => ?_⟩
    have : VClient.run ⟨vw, c.seen⟩ (.equal eq i j :: ops) = VClient.run ⟨vw, seen⟩ ops := by
      show VClient.run (VClient.compare _ i j _) ops = _
      rw [hv hst]
    rw [this]; exact h4 hst
  | .subset i j :: ops, c, H, vw, S, B, h, hu, ho => by
    rw [goroutine_cons]
    obtain ⟨seen, hp, hv⟩ := compare_ok h i j (f := fun s t => s.subsetOfP t) (g := fun s t => s.subsetOf t)
      (fun s t n n' hn hn' => MTree.subsetOfP_eq hn hn')
    rw [run_bind (show c.perform G (.subset i j) H = _ from hp)]
    obtain ⟨c', H', h1, h2, h3, h4⟩ := goroutine_ok G ops (c := { c with seen := seen }) h hu ho
    refine ⟨c', H', h1, h2, h3, fun hst => ?_⟩
    have : VClient.run ⟨vw, c.seen⟩ (.subset i j :: ops) = VClient.run ⟨vw, seen⟩ ops := by
      show VClient.run (VClient.compare _ i j _) ops = _
      rw [hv hst]
    rw [this]; exact h4 hst

/-- Everything that exists. -/
def allLocs (H : Mem T) : Set Loc := fun l => l ∉ Fresh H

theorem hasLoc_iff {H : Mem T} {l : Loc} : H.HasLoc l ↔ l ∈ allLocs H := by
  cases l with
  | cell a => exact ⟨fun h h' => absurd (show H.cells.length ≤ a from h') (Nat.not_le.2 h), fun h => Nat.lt_of_not_le h⟩
  | arr a => exact ⟨fun h h' => absurd (show H.arrays.length ≤ a from h') (Nat.not_le.2 h), fun h => Nat.lt_of_not_le h⟩

/-- The start of a goroutine: everything that exists counts as belonging to the sets. -/
theorem HistInv.start {strict : Bool} {w : World T} {vw : VWorld T} {S : Set Loc} {B : Nat → Set Loc} (h : HistInv strict w vw S B) :
    HistInv strict ⟨w.mem, w.sets, []⟩ ⟨vw.sets, []⟩ (allLocs w.mem) (fun _ => ∅) :=
  ⟨fun _ h => h, fun i s hs => by
      obtain ⟨n, hn, hv⟩ := h.sets i s hs
      exact ⟨n, hn.mono h.live, hv⟩,
    h.setsLen, rfl, fun _ _ hb => by simp at hb, fun _ => live_empty _, fun _ _ h => h.elim, fun _ _ _ _ h => h.elim⟩

/-- A goroutine as started by `fork`, alone. -/
theorem start_ok (G : Growth) {strict : Bool} {w : World T} {vw : VWorld T} {S : Set Loc} {B : Nat → Set Loc} (h : HistInv strict w vw S B)
    (ops : List (GOp T)) (hu : strict = true → UncrowdedRun G ⟨w.mem, w.sets, []⟩ (GOp.calls ops))
    (ho : strict = true ∨ ∀ op ∈ GOp.calls ops, op.mayAppend = false) :
    Quiet w.mem (goroutine G ⟨w.sets, [], []⟩ ops) ∧ ∃ c, alone G w ops = .ok c ∧
      (strict = true → c.seen = (VClient.run ⟨⟨vw.sets, []⟩, []⟩ ops).seen) := by
  obtain ⟨c, H', h1, _, ⟨L, h2, h3⟩, h4⟩ := goroutine_ok G ops (c := ⟨w.sets, [], []⟩) (H := w.mem) h.start hu ho
  refine ⟨⟨L, by rw [h1]; exact h2, fun l hl hh => h3 l hl (hasLoc_iff.1 hh)⟩, c, ?_, h4⟩
  unfold alone; rw [h1]

theorem fork_at (G : Growth) (w : World T) (hs : List (List (GOp T))) :
    (fork G w hs).At w.mem (hs.map (fun ops => goroutine G ⟨w.sets, [], []⟩ ops)) (fun _ => 0) := by
  refine ⟨rfl, by simp [fork], fun i x g hx hg => ?_⟩
  simp only [fork, List.getElem?_map, Option.map_eq_some_iff] at hx hg
  obtain ⟨a, ha, rfl⟩ := hx
  obtain ⟨b, hb, rfl⟩ := hg
  rw [ha] at hb
  cases hb
  have : w.mem.plus ⟨[], [], w.mem.log⟩ = w.mem := by simp [Mem.plus]
  rw [this]
  exact ⟨rfl, List.prefix_refl _, List.prefix_refl _⟩

/-- Quiet goroutines under any schedule. -/
theorem fork_run (G : Growth) (w : World T) (hs : List (List (GOp T)))
    (hq : ∀ ops ∈ hs, Quiet w.mem (goroutine G ⟨w.sets, [], []⟩ ops)) (sched : List Nat) :
    ((fork G w hs).run sched).shared = w.mem ∧
    ∀ (i : Nat) (ops : List (GOp T)), hs[i]? = some ops → ∃ g, ((fork G w hs).run sched).gs[i]? = some g ∧
      (∀ r, g.code = .done r → r = alone G w ops) ∧ (∀ l, g.code.nextWrite = some l → ¬ w.mem.HasLoc l) ∧
      g.code = ((goroutine G ⟨w.sets, [], []⟩ ops).steps w.mem (sched.count i)).1 := by
  have hat := Machine.run_at (S := w.mem) (xs := hs.map (fun ops => goroutine G ⟨w.sets, [], []⟩ ops)) (by
    intro x hx
    obtain ⟨ops, ho, rfl⟩ := List.mem_map.1 hx
    exact hq ops ho) sched (fork_at G w hs)
  obtain ⟨h1, h2, h3⟩ := hat
  refine ⟨h1, fun i ops hi => ?_⟩
  have hlt := getElem?_lt hi
  have hg := List.getElem?_eq_getElem (l := ((fork G w hs).run sched).gs) (i := i) (by rw [h2, List.length_map]; exact hlt)
  obtain ⟨h4, h5⟩ := h3 i _ _ (by rw [List.getElem?_map, hi]; rfl) hg
  simp only [Nat.zero_add] at h4
  have hc := congrArg Prod.fst h4
  refine ⟨_, hg, fun r hr => ?_, fun l hl => ?_, hc⟩
  · have := MM.run_steps (goroutine G ⟨w.sets, [], []⟩ ops) w.mem (sched.count i)
    rw [← h4] at this
    unfold alone
    rw [← this]
    dsimp only
    rw [hr]; rfl
  · exact (hq ops (List.mem_of_getElem? hi)).nextWrite (sched.count i) l (by rw [← hc]; exact hl)

theorem fork_no_race (G : Growth) (w : World T) (hs : List (List (GOp T)))
    (hq : ∀ ops ∈ hs, Quiet w.mem (goroutine G ⟨w.sets, [], []⟩ ops)) (sched : List Nat) (i : Nat) (g : Goroutine T)
    (hg : ((fork G w hs).run sched).gs[i]? = some g) (l : Loc) (hl : g.code.nextWrite = some l) : ¬ w.mem.HasLoc l := by
  have hlen : ∀ (sched : List Nat) (m : Machine T), (m.run sched).gs.length = m.gs.length := by
    intro sched
    induction sched with
    | nil => intro m; rfl
    | cons j sched ih =>
      intro m
      refine (ih (m.step j)).trans ?_
      unfold Machine.step
      cases m.gs[j]? with
      | none => rfl
      | some g => simp
  have hlt : i < hs.length := by
    have := getElem?_lt hg
    rw [hlen] at this
    simpa [fork] using this
  obtain ⟨_, h2⟩ := fork_run G w hs hq sched
  obtain ⟨g', h3, _, h4, _⟩ := h2 i _ (List.getElem?_eq_getElem hlt)
  rw [hg] at h3
  cases h3
  exact h4 l hl

/-- A quiet goroutine that gets enough turns ends. -/
theorem fork_finishes (G : Growth) (w : World T) (hs : List (List (GOp T)))
    (hq : ∀ ops ∈ hs, Quiet w.mem (goroutine G ⟨w.sets, [], []⟩ ops)) (i : Nat) (ops : List (GOp T)) (hi : hs[i]? = some ops) :
    ∃ n, ∀ sched : List Nat, n ≤ sched.count i → ∃ g, ((fork G w hs).run sched).gs[i]? = some g ∧ g.code = .done (alone G w ops) := by
  obtain ⟨n, hn⟩ := MM.finishes (goroutine G ⟨w.sets, [], []⟩ ops) w.mem
  refine ⟨n, fun sched hsched => ?_⟩
  obtain ⟨_, h2⟩ := fork_run G w hs hq sched
  obtain ⟨g, h3, _, _, h4⟩ := h2 i ops hi
  exact ⟨g, h3, by rw [h4, hn _ hsched]; rfl⟩

end Frozen
