import Verif.Stack.Spec
/-!
# Histories of stack operations over any number of stacks

`hstep` runs one operation of the model on memory and registers; `sstep` says what it should do
if every register were a list of its own (top first).  The specification does not know of memory,
sharing, nodes or counts.
-/
namespace Verif.Stack
open Heap
variable {T : Type}

/-- The public operations; `i`, `j` name registers.  Results that are stacks (`new`, `split_off`,
`clone`, `from_iter`) go to a new register at the end. -/
inductive SOp (T : Type) where
  | new
  | fromIter (xs : List T)
  | push (i : Nat) (x : T)
  | pop (i : Nat)
  | top (i : Nat)
  | topMut (i : Nat) (g : T → T)
  | iter (i n : Nat)
  | iterMut (i n : Nat) (g : Nat → T → T)
  | intoIter (i n : Nat)
  | clear (i : Nat)
  | contains (i : Nat) (x : T)
  | len (i : Nat)
  | isEmpty (i : Nat)
  | remove (i k : Nat)
  | splitOff (i k : Nat)
  | extend (i : Nat) (xs : List T)
  | clone (i : Nat)
  | drop (i : Nat)
  | eq (i j : Nat)
  | cmp (i j : Nat)
  | partialCmp (i j : Nat)

/-- What the caller sees. -/
inductive Obs (T : Type) where
  | unit
  | elem (x : Option T)
  | seq (xs : List (Option T))
  | bool (b : Bool)
  | num (n : Nat)
  | ord (o : Option Ordering)
  | panicked
  | noReg

/-- The comparison functions of `T`. -/
structure Cmps (T : Type) where
  eq : T → T → Bool
  cmp : T → T → Ordering
  pcmp : T → T → Option Ordering

/-! ## Specification: independent lists -/

/-- An operation on one list: what becomes of it (`none`: it is gone), new lists, observation.
Counting "from the bottom" is counting in the reversed list. -/
def spec1 (c : Cmps T) (l : List T) : SOp T → Option (List T) × List (List T) × Obs T
  | .push _ x => (some (x :: l), [], .unit)
  | .pop _ => (some l.tail, [], .elem l.head?)
  | .top _ => (some l, [], .elem l.head?)
  | .topMut _ g => (some (l.modifyHead g), [], .bool (!l.isEmpty))
  | .iter _ n => (some l, [], .seq ((List.range n).map (fun j => l[j]?)))
  | .iterMut _ n g => (some ((l.take n).mapIdx g ++ l.drop n), [], .unit)
  | .intoIter _ n => (some (l.drop n), [], .seq ((List.range n).map (fun j => l[j]?)))
  | .clear _ => (some [], [], .unit)
  | .contains _ x => (some l, [], .bool (l.any (fun y => c.eq x y)))
  | .len _ => (some l, [], .num l.length)
  | .isEmpty _ => (some l, [], .bool l.isEmpty)
  | .remove _ k =>
    match l.reverse[k]? with
    | none => (some l, [], .panicked)
    | some x => (some (l.reverse.eraseIdx k).reverse, [], .elem (some x))
  | .splitOff _ k =>
    if k ≤ l.length then (some (l.reverse.take k).reverse, [(l.reverse.drop k).reverse], .unit)
    else (some l, [], .panicked)
  | .extend _ xs => (some (xs.reverse ++ l), [], .unit)
  | .clone _ => (some l, [l], .unit)
  | .drop _ => (none, [], .unit)
  | _ => (some l, [], .noReg)

/-- An operation on two lists. -/
def spec2 (c : Cmps T) (l r : List T) : SOp T → Obs T
  | .eq _ _ => .bool (decide (l.length = r.length) && (l.zip r).all (fun x => c.eq x.1 x.2))
  | .cmp _ _ => .ord (some (Spec.lexCmp c.cmp l r))
  | .partialCmp _ _ => .ord (Spec.lexPartialCmp c.pcmp l r)
  | _ => .noReg

/-- Which registers an operation uses. -/
inductive Uses where
  | zero
  | one (i : Nat)
  | two (i j : Nat)

/-- Which registers an operation uses. -/
def SOp.uses : SOp T → Uses
  | .new => .zero
  | .fromIter _ => .zero
  | .push i _ => .one i
  | .pop i => .one i
  | .top i => .one i
  | .topMut i _ => .one i
  | .iter i _ => .one i
  | .iterMut i _ _ => .one i
  | .intoIter i _ => .one i
  | .clear i => .one i
  | .contains i _ => .one i
  | .len i => .one i
  | .isEmpty i => .one i
  | .remove i _ => .one i
  | .splitOff i _ => .one i
  | .extend i _ => .one i
  | .clone i => .one i
  | .drop i => .one i
  | .eq i j => .two i j
  | .cmp i j => .two i j
  | .partialCmp i j => .two i j

/-- Operations that make a list from nothing. -/
def spec0 : SOp T → List T
  | .fromIter xs => xs.reverse
  | _ => []

/-- One operation on registers holding independent lists. -/
def sstep (c : Cmps T) (o : SOp T) (ls : List (Option (List T))) :
    List (Option (List T)) × Obs T :=
  match o.uses with
  | .zero => (ls ++ [some (spec0 o)], .unit)
  | .one i =>
    match ls[i]? with
    | some (some l) =>
      let x := spec1 c l o
      (ls.set i x.1 ++ x.2.1.map some, x.2.2)
    | _ => (ls, .noReg)
  | .two i j =>
    match ls[i]?, ls[j]? with
    | some (some l), some (some r) => (ls, spec2 c l r o)
    | _, _ => (ls, .noReg)

/-- A history on independent lists. -/
def srun (c : Cmps T) : List (SOp T) → List (Option (List T)) → List (Option (List T)) × List (Obs T)
  | [], ls => (ls, [])
  | o :: os, ls =>
    let x := sstep c o ls
    let y := srun c os x.1
    (y.1, x.2 :: y.2)

/-! ## The model -/

/-- An operation of the model on one stack. -/
def prog1 (c : Cmps T) (s : Stack T) : SOp T → Prog T (Option (Stack T) × List (Stack T) × Obs T)
  | .push _ x => (s.push x).bind fun s' => .pure (some s', [], .unit)
  | .pop _ => s.pop.bind fun x => .pure (some x.1, [], .elem x.2)
  | .top _ => s.top.bind fun x => .pure (some s, [], .elem x)
  | .topMut _ g => (s.topMut g).bind fun x => .pure (some x.1, [], .bool x.2)
  | .iter _ n => (s.iterRun 0 n).bind fun x => .pure (some s, [], .seq x)
  | .iterMut _ n g => (s.iterMut n g).bind fun s' => .pure (some s', [], .unit)
  | .intoIter _ n => (s.intoIterRun n).bind fun x => .pure (some x.1, [], .seq x.2)
  | .clear _ => s.clear.bind fun s' => .pure (some s', [], .unit)
  | .contains _ x => (s.contains c.eq x).bind fun b => .pure (some s, [], .bool b)
  | .len _ => .pure (some s, [], .num s.length)
  | .isEmpty _ => .pure (some s, [], .bool s.isEmpty)
  | .remove _ k => (s.remove k).bind fun x => .pure (some x.1, [], .elem (some x.2))
  | .splitOff _ k => (s.splitOff k).bind fun x => .pure (some x.1, [x.2], .unit)
  | .extend _ xs => (s.extend xs).bind fun s' => .pure (some s', [], .unit)
  | .clone _ => s.clone.bind fun s' => .pure (some s, [s'], .unit)
  | .drop _ => s.clear.bind fun _ => .pure (none, [], .unit)
  | _ => .pure (some s, [], .noReg)

/-- An operation of the model on two stacks. -/
def prog2 (c : Cmps T) (s r : Stack T) : SOp T → Prog T (Obs T)
  | .eq _ _ => (s.eqStack c.eq r).bind fun b => .pure (.bool b)
  | .cmp _ _ => (s.cmpStack c.cmp r).bind fun o => .pure (.ord (some o))
  | .partialCmp _ _ => (s.partialCmpStack c.pcmp r).bind fun o => .pure (.ord o)
  | _ => .pure .noReg

/-- Operations of the model that make a stack from nothing. -/
def prog0 : SOp T → Prog T (Stack T)
  | .fromIter xs => Stack.fromIter xs
  | _ => .pure .new

/-- Memory and registers. -/
structure State (T : Type) where
  mem : Mem T
  regs : List (Option (Stack T))

/-- One operation of the model; `none` is undefined behaviour.  A panic leaves the registers
alone. -/
def hstep (c : Cmps T) (o : SOp T) (st : State T) : Option (State T × Obs T) :=
  match o.uses with
  | .zero =>
    match (prog0 o).exec st.mem with
    | none => none
    | some (h, none) => some (⟨h, st.regs⟩, .panicked)
    | some (h, some s) => some (⟨h, st.regs ++ [some s]⟩, .unit)
  | .one i =>
    match st.regs[i]? with
    | some (some s) =>
      match (prog1 c s o).exec st.mem with
      | none => none
      | some (h, none) => some (⟨h, st.regs⟩, .panicked)
      | some (h, some x) => some (⟨h, st.regs.set i x.1 ++ x.2.1.map some⟩, x.2.2)
    | _ => some (st, .noReg)
  | .two i j =>
    match st.regs[i]?, st.regs[j]? with
    | some (some s), some (some r) =>
      match (prog2 c s r o).exec st.mem with
      | none => none
      | some (h, none) => some (⟨h, st.regs⟩, .panicked)
      | some (h, some x) => some (⟨h, st.regs⟩, x)
    | _, _ => some (st, .noReg)

/-- A history of the model. -/
def hrun (c : Cmps T) : List (SOp T) → State T → Option (State T × List (Obs T))
  | [], st => some (st, [])
  | o :: os, st =>
    match hstep c o st with
    | none => none
    | some (st', x) => (hrun c os st').map (fun y => (y.1, x :: y.2))

/-- Nothing allocated, no registers. -/
def State.init : State T := ⟨.empty, []⟩

/-! ## Simulation -/

/-- A register. -/
inductive HoldsO : Option (Stack T) → Option (List T) → Multiset (Handle T) → Prop
  | none : HoldsO none none 0
  | some {s l L} : Holds s l L → HoldsO (some s) (some l) L

/-- All registers. -/
inductive HoldsR : List (Option (Stack T)) → List (Option (List T)) → Multiset (Handle T) → Prop
  | nil : HoldsR [] [] 0
  | cons {s l L ss ls M} : HoldsO s l L → HoldsR ss ls M → HoldsR (s :: ss) (l :: ls) (L + M)

theorem HoldsR.append {ss ls M} (h : HoldsR (T := T) ss ls M) : ∀ {ss' ls' M'}, HoldsR ss' ls' M' →
    HoldsR (ss ++ ss') (ls ++ ls') (M + M') := by
  induction h with
  | nil => intro ss' ls' M' h'; simpa using h'
  | cons h1 _ ih => intro ss' ls' M' h'; rw [add_assoc]; exact .cons h1 (ih h')

/-- What register `i` holds, and what replacing it does. -/
theorem HoldsR.get {ss ls M} (h : HoldsR (T := T) ss ls M) (i : Nat) :
    (ss[i]? = none ∧ ls[i]? = none) ∨
    ∃ s l L M', ss[i]? = some s ∧ ls[i]? = some l ∧ M = L + M' ∧ HoldsO s l L ∧
      ∀ s' l' L', HoldsO s' l' L' → HoldsR (ss.set i s') (ls.set i l') (L' + M') := by
  induction h generalizing i with
  | nil => exact Or.inl (by simp)
  | @cons s l L ss ls M h1 h2 ih =>
    cases i with
    | zero =>
      exact Or.inr ⟨s, l, L, M, rfl, rfl, rfl, h1, fun s' l' L' h' => .cons h' h2⟩
    | succ i =>
      rcases ih i with h3 | ⟨s', l', L', M', e1, e2, e3, h4, h5⟩
      · exact Or.inl (by simpa using h3)
      · refine Or.inr ⟨s', l', L', L + M', by simpa using e1, by simpa using e2, ?_, h4, ?_⟩
        · rw [e3]; ac_rfl
        · intro s2 l2 L2 h6
          have := HoldsR.cons h1 (h5 s2 l2 L2 h6)
          have e : L2 + (L + M') = L + (L2 + M') := by ac_rfl
          rw [e]
          exact this

/-- Outcome of an operation on one register, related. -/
def Rel1 (x : Option (Stack T) × List (Stack T) × Obs T) (y : Option (List T) × List (List T) × Obs T)
    (L : Multiset (Handle T)) : Prop :=
  x.2.2 = y.2.2 ∧ ∃ L1 L2, L = L1 + L2 ∧ HoldsO x.1 y.1 L1 ∧ HoldsR (x.2.1.map some) (y.2.1.map some) L2

theorem rel1_one {s' : Stack T} {l' : List T} {L : Multiset (Handle T)} (o : Obs T)
    (h : Holds s' l' L) : Rel1 (some s', [], o) (some l', [], o) L :=
  ⟨rfl, L, 0, (add_zero _).symm, .some h, .nil⟩

theorem rel1_two {s' r' : Stack T} {l' k' : List T} {L L1 L2 : Multiset (Handle T)} (o : Obs T)
    (e : L = L1 + L2) (h : Holds s' l' L1) (h2 : Holds r' k' L2) :
    Rel1 (some s', [r'], o) (some l', [k'], o) L := by
  refine ⟨rfl, L1, L2, e, .some h, ?_⟩
  have := HoldsR.cons (.some h2) (.nil (T := T))
  simpa using this

theorem rev_getElem? {l : List T} {k : Nat} (hk : k < l.length) :
    l.reverse[k]? = some l[l.length - 1 - k] := by
  rw [List.getElem?_reverse hk]
  exact List.getElem?_eq_getElem (by omega)

theorem rev_eraseIdx {l : List T} {k : Nat} (hk : k < l.length) :
    (l.reverse.eraseIdx k).reverse = l.eraseIdx (l.length - 1 - k) := by
  rw [List.eraseIdx_eq_take_drop_succ, List.eraseIdx_eq_take_drop_succ, List.reverse_append,
    List.reverse_take, List.reverse_drop, List.reverse_reverse, List.length_reverse]
  have e : l.length - (k + 1) = l.length - 1 - k := by omega
  have e2 : l.length - k = l.length - 1 - k + 1 := by omega
  rw [e, e2]

theorem prog1_spec (c : Cmps T) {s : Stack T} {l : List T} {L : Multiset (Handle T)}
    (h : Holds s l L) (o : SOp T) :
    (∃ i, o.uses = .one i) →
    wp (prog1 c s o) L (fun x L' => Rel1 x (spec1 c l o) L') ∨
      (prog1 c s o = .panic ∧ spec1 c l o = (some l, [], .panicked)) := by
  have z : L = L + 0 := (add_zero _).symm
  rintro ⟨i, hu⟩
  cases o with
  | new => cases hu
  | fromIter => cases hu
  | eq => cases hu
  | cmp => cases hu
  | partialCmp => cases hu
  | push i x =>
    left
    refine wp_call 0 (push_spec h x) z ?_
    intro s' L' h'
    rw [add_zero]
    exact wp_pure (rel1_one _ h')
  | pop i =>
    left
    refine wp_call 0 (pop_spec h) z ?_
    rintro x L' ⟨e, h'⟩
    rw [add_zero, e]
    exact wp_pure (rel1_one _ h')
  | top i =>
    left
    refine wp_call 0 (top_spec h) z ?_
    rintro x L' ⟨rfl, rfl⟩
    rw [add_zero]
    exact wp_pure (rel1_one _ h)
  | topMut i g =>
    left
    refine wp_call 0 (topMut_spec h g) z ?_
    rintro x L' ⟨e, h'⟩
    rw [add_zero, e]
    exact wp_pure (rel1_one _ h')
  | iter i n =>
    left
    refine wp_call 0 (iterRun_spec h n 0 (by omega)) z ?_
    rintro x L' ⟨rfl, rfl⟩
    rw [add_zero]
    simp only [Nat.zero_add]
    exact wp_pure (rel1_one _ h)
  | iterMut i n g =>
    left
    refine wp_call 0 (iterMut_spec h n g) z ?_
    intro s' L' h'
    rw [add_zero]
    exact wp_pure (rel1_one _ h')
  | intoIter i n =>
    left
    refine wp_call 0 (intoIterRun_spec n h) z ?_
    rintro x L' ⟨e, h'⟩
    rw [add_zero, e]
    exact wp_pure (rel1_one _ h')
  | clear i =>
    left
    refine wp_call 0 (clear_spec h) z ?_
    intro s' L' h'
    rw [add_zero]
    exact wp_pure (rel1_one _ h')
  | contains i x =>
    left
    refine wp_call 0 (contains_spec c.eq h x) z ?_
    rintro b L' ⟨rfl, rfl⟩
    rw [add_zero]
    exact wp_pure (rel1_one _ h)
  | len i =>
    left
    refine wp_pure ?_
    have := rel1_one (.num l.length) h
    simp only [spec1, Stack.length, h.1]
    exact this
  | isEmpty i =>
    left
    refine wp_pure ?_
    have e : s.isEmpty = l.isEmpty := by
      simp only [Stack.isEmpty, h.1]
      cases l <;> rfl
    rw [e]
    exact rel1_one _ h
  | remove i k =>
    by_cases hk : k < l.length
    · left
      refine wp_call 0 (remove_spec h hk) z ?_
      rintro x L' ⟨e, h'⟩
      rw [add_zero, e]
      simp only [spec1, rev_getElem? hk, rev_eraseIdx hk]
      exact wp_pure (rel1_one _ h')
    · right
      have : k ≥ s.len := by rw [h.1]; omega
      refine ⟨by simp only [prog1, Stack.remove, this, if_true]; rfl, ?_⟩
      simp only [spec1]
      rw [List.getElem?_eq_none (by simpa using hk)]
  | splitOff i k =>
    by_cases hk : k ≤ l.length
    · left
      refine wp_call 0 (splitOff_spec h hk) z ?_
      rintro x L' ⟨L1, L2, e, h1, h2⟩
      rw [add_zero]
      refine wp_pure ?_
      simp only [spec1, hk, if_true]
      rw [List.reverse_take, List.reverse_drop, List.reverse_reverse, List.length_reverse]
      exact rel1_two _ e h1 h2
    · right
      have : k > s.len := by rw [h.1]; omega
      refine ⟨by simp only [prog1, Stack.splitOff, this, if_true]; rfl, ?_⟩
      simp only [spec1, hk, if_false]
  | extend i xs =>
    left
    refine wp_call 0 (extend_spec xs h) z ?_
    intro s' L' h'
    rw [add_zero]
    exact wp_pure (rel1_one _ h')
  | clone i =>
    left
    refine wp_call 0 (clone_spec h) z ?_
    rintro s' L' ⟨L1, L2, e, h1, h2⟩
    rw [add_zero]
    exact wp_pure (rel1_two _ e h1 h2)
  | drop i =>
    left
    refine wp_call 0 (clear_spec h) z ?_
    rintro s' L' ⟨h1, rfl⟩
    rw [add_zero]
    refine wp_pre ?_
    intro hp F ho
    refine ⟨0, ?_, wp_pure ⟨rfl, 0, 0, rfl, .none, .nil⟩⟩
    have hr : Rep hp s'.elems (.nil : VT T) :=
      rep_own (L := F) (fun e he => ho.rep e he)
    rw [hr.nil_iff] at ho
    exact ho

theorem prog0_spec (o : SOp T) : o.uses = .zero →
    wp (prog0 o) 0 (fun s L' => Holds s (spec0 o) L') := by
  intro hu
  cases o <;> cases hu
  · exact wp_pure holds_new
  · rename_i xs
    have := extend_spec xs (holds_new (T := T))
    rw [List.append_nil] at this
    exact this

/-- Two reads of one stack. -/
theorem two_iters_same {β : Type} {s : Stack T} {l : List T} {L : Multiset (Handle T)}
    (h : Holds s l L) (f : List T → List T → β) :
    wp (s.iter.bind fun a => s.iter.bind fun b => .pure (f a b)) L
      (fun b M => M = L ∧ b = f l l) := by
  refine wp_call 0 (iter_spec h) (add_zero _).symm ?_
  rintro _ M ⟨hM, rfl⟩
  subst hM
  rw [add_zero]
  refine wp_call 0 (iter_spec h) (add_zero _).symm ?_
  rintro _ M' ⟨hM', rfl⟩
  subst hM'
  exact wp_pure ⟨add_zero _, rfl⟩

theorem prog2_spec (c : Cmps T) {s r : Stack T} {l k : List T} {M : Multiset (Handle T)}
    (hlen : s.len = l.length ∧ r.len = k.length)
    (hit : ∀ {β : Type} (f : List T → List T → β),
      wp (s.iter.bind fun a => r.iter.bind fun b => .pure (f a b)) M (fun b M' => M' = M ∧ b = f l k))
    (o : SOp T) :
    wp (prog2 c s r o) M (fun x M' => M' = M ∧ x = spec2 c l k o) := by
  have z : M = M + 0 := (add_zero _).symm
  cases o with
  | eq i j =>
    have : wp (s.eqStack c.eq r) M (fun b M' => M' = M ∧
        b = (decide (l.length = k.length) && (l.zip k).all (fun x => c.eq x.1 x.2))) := by
      unfold Stack.eqStack
      by_cases he : s.len = r.len
      · simp only [he, if_true]
        have : l.length = k.length := by rw [← hlen.1, ← hlen.2, he]
        simp only [this, decide_true, Bool.true_and]
        exact hit _
      · simp only [he, if_false]
        have : ¬ l.length = k.length := by rw [← hlen.1, ← hlen.2]; exact he
        exact wp_pure ⟨rfl, by simp [this]⟩
    refine wp_call 0 this z ?_
    rintro b _ ⟨rfl, rfl⟩
    exact wp_pure ⟨add_zero _, rfl⟩
  | cmp i j =>
    refine wp_call 0 (hit (Spec.lexCmp c.cmp)) z ?_
    rintro b _ ⟨rfl, rfl⟩
    exact wp_pure ⟨add_zero _, rfl⟩
  | partialCmp i j =>
    refine wp_call 0 (hit (Stack.partialCmpLoop c.pcmp)) z ?_
    rintro b _ ⟨rfl, rfl⟩
    exact wp_pure ⟨add_zero _, by rw [partialCmpLoop_eq]; rfl⟩
  | _ => exact wp_pure ⟨rfl, rfl⟩

/-- The registers hold the lists, and memory is in order. -/
def Sim (st : State T) (ls : List (Option (List T))) : Prop :=
  ∃ M, HoldsR st.regs ls M ∧ Own st.mem M

theorem Sim.init : Sim (State.init : State T) [] := ⟨0, .nil, .empty⟩

theorem hstep_sim (c : Cmps T) (o : SOp T) {st : State T} {ls : List (Option (List T))}
    (hs : Sim st ls) : ∃ st', hstep c o st = some (st', (sstep c o ls).2) ∧
      Sim st' (sstep c o ls).1 := by
  obtain ⟨M, hR, hO⟩ := hs
  unfold hstep sstep
  cases hu : o.uses with
  | zero =>
    have := prog0_spec o hu
    obtain ⟨h', s, L', e, ho, hh⟩ := wp_exec (F := M) this (h := st.mem) (by rwa [zero_add])
    simp only [e]
    refine ⟨_, rfl, M + L', ?_, by rwa [add_comm] at ho⟩
    have := hR.append (HoldsR.cons (.some hh) .nil)
    simpa using this
  | one i =>
    simp only
    rcases hR.get i with ⟨e1, e2⟩ | ⟨s, l, L, M', e1, e2, e3, h4, h5⟩
    · simp only [e1, e2]
      exact ⟨st, rfl, M, hR, hO⟩
    · cases h4 with
      | none => simp only [e1, e2]; exact ⟨st, rfl, M, hR, hO⟩
      | @some s l _ h4 =>
        simp only [e1, e2]
        rcases prog1_spec c h4 o ⟨i, hu⟩ with hw | ⟨hp, hsp⟩
        · rw [e3] at hO
          obtain ⟨h', x, L', e, ho, hrel⟩ := wp_exec hw hO
          simp only [e]
          obtain ⟨r1, L1, L2, rfl, r2, r3⟩ := hrel
          refine ⟨_, by rw [r1], L1 + M' + L2, (h5 _ _ _ r2).append r3, ?_⟩
          have : L1 + M' + L2 = L1 + L2 + M' := by ac_rfl
          rwa [this]
        · simp only [hp, hsp, Prog.exec]
          refine ⟨_, rfl, M, ?_, hO⟩
          simp only [List.map_nil, List.append_nil]
          have : ls.set i (some l) = ls := by
            obtain ⟨hlt, hg⟩ := List.getElem?_eq_some_iff.1 e2
            rw [← hg]; exact List.set_getElem_self hlt
          rw [this]
          exact hR
  | two i j =>
    simp only
    rcases hR.get i with ⟨e1, e2⟩ | ⟨s, l, L, M', e1, e2, e3, h4, -⟩
    · simp only [e1, e2]
      exact ⟨st, rfl, M, hR, hO⟩
    · cases h4 with
      | none => simp only [e1, e2]; exact ⟨st, rfl, M, hR, hO⟩
      | @some s l _ h4 =>
        rcases hR.get j with ⟨f1, f2⟩ | ⟨r, k, L2, M2, f1, f2, f3, g4, -⟩
        · simp only [e1, e2, f1, f2]
          exact ⟨st, rfl, M, hR, hO⟩
        · cases g4 with
          | none => simp only [e1, e2, f1, f2]; exact ⟨st, rfl, M, hR, hO⟩
          | @some r k _ g4 =>
            simp only [e1, e2, f1, f2]
            have hw : wp (prog2 c s r o) M (fun x M' => M' = M ∧ x = spec2 c l k o) := by
              refine prog2_spec c ⟨h4.1, g4.1⟩ ?_ o
              intro β f
              refine wp_call M' (iter_spec h4) e3 ?_
              rintro _ L' ⟨rfl, rfl⟩
              rw [← e3]
              refine wp_call M2 (iter_spec g4) f3 ?_
              rintro _ L'' ⟨rfl, rfl⟩
              exact wp_pure ⟨f3.symm, rfl⟩
            obtain ⟨h', x, M3, e, ho, rfl, rfl⟩ := wp_exec (F := 0) hw (h := st.mem) (by rwa [add_zero])
            simp only [e]
            exact ⟨_, rfl, _, hR, by rwa [add_zero] at ho⟩

theorem hrun_sim (c : Cmps T) : ∀ (os : List (SOp T)) {st : State T} {ls : List (Option (List T))},
    Sim st ls → ∃ st', hrun c os st = some (st', (srun c os ls).2) ∧ Sim st' (srun c os ls).1
  | [], st, ls, hs => ⟨st, rfl, hs⟩
  | o :: os, st, ls, hs => by
    obtain ⟨st1, e1, h1⟩ := hstep_sim c o hs
    obtain ⟨st2, e2, h2⟩ := hrun_sim c os h1
    exact ⟨st2, by simp only [hrun, e1, e2]; rfl, h2⟩

/-- How many registers refer to the node at `a`. -/
def handles (regs : List (Option (Stack T))) (a : Nat) : Nat :=
  regs.countP (fun r => match r with
    | none => false
    | some s => s.elems == some a)

theorem HoldsR.ext {ss ls M} (h : HoldsR (T := T) ss ls M) (a : Nat) : ext M a = handles ss a := by
  induction h with
  | nil => simp [handles]
  | @cons s l L ss ls M h1 _ ih =>
    rw [ext_add, ih]
    cases h1 with
    | none => simp [handles]
    | @some s l _ h1 =>
      obtain ⟨-, rfl⟩ := h1
      rw [ext_own]
      simp only [handles, List.countP_cons, beq_iff_eq]
      omega

end Verif.Stack
