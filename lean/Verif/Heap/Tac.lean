import Verif.Heap.Wp
/-!
# A tactic for calls, and rules for handles known to be the sole ones

`wcall s` steps over the first call of a program with the specification `s`, finding out by
itself which handles the call needs and which ones are left alone.
-/
namespace Verif.Heap
open Lean Meta Elab Tactic

/-- The summands of a sum of multisets. -/
partial def summands (e : Expr) : Array Expr :=
  match e.getAppFnArgs with
  | (``HAdd.hAdd, #[_, _, _, _, a, b]) => summands a ++ summands b
  | (``OfNat.ofNat, #[_, n, _]) => if n == .lit (.natVal 0) then #[] else #[e]
  | (``Zero.zero, _) => #[]
  | _ => #[e]

/-- Closes a goal `M = L + ?G`: takes the summands of `L` out of those of `M`. -/
elab "wframe" : tactic => do
  let g ← getMainGoal
  g.withContext do
    let ty ← instantiateMVars (← g.getType)
    let some (α, m, r) := ty.eq? | throwError "wframe: not an equation"
    let (``HAdd.hAdd, #[_, _, _, _, l, gv]) := r.getAppFnArgs | throwError "wframe: no sum"
    let mut ms := summands m
    for x in summands l do
      let mut found := false
      for mode in [TransparencyMode.reducible, TransparencyMode.default] do
        let mut i := 0
        while !found && i < ms.size do
          if ← withTransparency mode (withAssignableSyntheticOpaque (isDefEq x ms[i]!)) then
            ms := ms.eraseIdx! i
            found := true
          else
            i := i + 1
      unless found do throwError "wframe: no {x} in {m}"
    let rest ← match ms.toList.reverse with
      | [] => mkNumeral α 0
      | e :: es => es.foldlM (fun acc x => mkAppM ``HAdd.hAdd #[x, acc]) e
    if gv.getAppFn.isMVar then
      unless ← withAssignableSyntheticOpaque (isDefEq gv rest) do
        throwError "wframe: frame mismatch {gv} {rest}"
  evalTactic (← `(tactic| first
    | rfl
    | ac_rfl
    | (simp only [add_zero, zero_add]; done)
    | (simp only [add_zero, zero_add]; ac_rfl)))

/-- Elaborate a rule application whose holes are `hM` (done by `wframe`) and `hk` (left over). -/
def callWith (stx : Term) : TacticM Unit := withMainContext do
  let g ← getMainGoal
  let (val, gs) ← elabTermWithHoles stx (← g.getType) `w (allowNaturalHoles := true)
  let val ← instantiateMVars val
  g.assign val
  let mut hM? : Option MVarId := none
  let mut hk? : Option MVarId := none
  for x in gs do
    let n ← x.getTag
    if n.eraseMacroScopes == `hM then hM? := some x
    if n.eraseMacroScopes == `hk then hk? := some x
  let some hM := hM? | throwError "wcall: lost goal"
  let some hk := hk? | throwError "wcall: lost goal"
  setGoals [hM]
  evalTactic (← `(tactic| wframe))
  let rest ← gs.filterM fun x => do
    if x == hM || x == hk then return false
    if ← x.isAssigned then return false
    return true
  setGoals (rest ++ [hk])

/-- Step over the first call; side conditions come first. -/
elab "wcall " t:term : tactic => do
  callWith (← `(wp_call _ $t ?hM ?hk))

/-- The last call. -/
elab "wtail " t:term : tactic => do
  callWith (← `(wp_tail _ $t ?hM ?hk))

variable {P α : Type} {L : Multiset (Handle P)} {Q : α → Multiset (Handle P) → Prop}

/-! ## Calls of single steps, as specifications -/

theorem isUnique_spec {a : Nat} {t : VT P} :
    wp (lift (.isUnique a)) (uown a t) (fun (b : Bool) L' => b = true ∧ L' = uown a t) := by
  intro h F ho
  obtain ⟨c, h1, h2⟩ := ho.uown_cell
  exact ⟨h, true, _, by simp [Op.step, h1, h2], ho, wp_pure ⟨rfl, rfl⟩⟩

theorem tryUnwrap_spec {a : Nat} {p : P} {ts : List (VT P)} :
    wp (lift (.tryUnwrap a)) (uown a (.node p ts)) (fun (r : Option (Node P)) L' =>
      ∃ ks, r = some ⟨p, ks⟩ ∧ ts.length = ks.length ∧ L' = owns ks ts) := by
  intro h F ho
  obtain ⟨c, h1, h2⟩ := ho.uown_cell
  obtain ⟨h3, h4, h5⟩ := ho.take_out h1 h2
  refine ⟨h.put a none, some c.node, _, by simp [Op.step, h1, h2], h5, wp_pure ?_⟩
  exact ⟨c.node.kids, by rw [← h3], h4, rfl⟩

theorem open_spec {a : Nat} {p : P} {ts : List (VT P)} :
    wp (lift (.open a)) (uown a (.node p ts)) (fun (n : Node P) L' =>
      ∃ ks, n = ⟨p, ks⟩ ∧ ts.length = ks.length ∧ L' = uown a (.node p []) + owns ks ts) := by
  intro h F ho
  obtain ⟨h', n, h1, rfl, h3, h4⟩ := ho.open
  exact ⟨h', n, _, h1, by rw [add_assoc]; exact h4, wp_pure ⟨n.kids, rfl, h3, rfl⟩⟩

theorem close_spec {a : Nat} {p q : P} {ts : List (VT P)} {ks : List (Option Nat)}
    (hlen : ts.length = ks.length) :
    wp (lift (.close a ⟨q, ks⟩)) (uown a (.node p []) + owns ks ts)
      (fun _ L' => L' = uown a (.node q ts)) := by
  intro h F ho
  rw [add_assoc] at ho
  obtain ⟨h', h1, h2⟩ := ho.close (q := q) hlen
  exact ⟨h', (), _, h1, h2, wp_pure rfl⟩

theorem alloc_spec {p : P} {ks : List (Option Nat)} {ts : List (VT P)}
    (hlen : ts.length = ks.length) :
    wp (lift (.alloc ⟨p, ks⟩)) (owns ks ts) (fun a L' => L' = uown a (.node p ts)) := by
  intro h F ho
  exact ⟨_, _, _, rfl, ho.alloc hlen, wp_pure rfl⟩

theorem read_spec {a : Nat} {t : VT P} {u : Bool} {path : List Nat} {p : P} {ts : List (VT P)}
    (hp : t.sub path = some (.node p ts)) :
    wp (lift (.read a path)) {⟨some a, t, u⟩} (fun (n : Node P) L' =>
      n.data = p ∧ ts.length = n.kids.length ∧
      (∀ i (h1 : i < n.kids.length) (h2 : i < ts.length), (n.kids[i] = none ↔ ts[i] = .nil)) ∧
      L' = {⟨some a, t, u⟩}) := by
  intro h F ho
  have ho' := ho
  obtain ⟨n, h1, h2, h3, h4⟩ := ho'.read hp
  exact ⟨h, n, _, h1, ho, wp_pure ⟨h2, h3, h4, rfl⟩⟩

theorem incAt_spec {a : Nat} {t : VT P} {u : Bool} {path : List Nat} {p : P} {ts : List (VT P)}
    {i : Nat} (hp : t.sub path = some (.node p ts)) (hi : i < ts.length) :
    wp (lift (.incAt a path i)) {⟨some a, t, u⟩} (fun (r : Option Nat) L' =>
      L' = own r ts[i] + {⟨some a, t, u⟩}) := by
  intro h F ho
  obtain ⟨h', r, h1, h2⟩ := ho.incAt hp hi
  exact ⟨h', r, _, h1, by rw [add_assoc]; exact h2, wp_pure rfl⟩

end Verif.Heap
