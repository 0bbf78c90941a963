import Verif.Wild.Honest
import Verif.Wild.AvlMachine
import Verif.Wild.BTreeMachine
import Verif.Avl.Reach
import Verif.BTree.Reach
import Verif.Fixed.Reach
/-!
# Programs whose comparisons are honest but may panic

All their maps are reachable by programs in which nothing panics, so whatever is proved of those
holds of them.
-/
set_option linter.unusedVariables false
namespace Verif.Wild
universe w
variable {σ : Type w} {K V M : Type}

/-- A loop of insertions, each of which returns what `base` does or leaves the map alone. -/
theorem extendW_base {P : M → Prop} {ins : M → K → V → σ → Option (Ends M (M × Option V) × σ)}
    {base : M → K → V → Option (M × Option V)} {ext : M → List (K × V) → Option M}
    (h0 : ∀ m, ext m [] = some m)
    (h1 : ∀ m k v es m' o, base m k v = some (m', o) → ext m ((k, v) :: es) = ext m' es)
    (h : ∀ m, P m → ∀ k v s, ∃ r s', ins m k v s = some (r, s') ∧
      match r with
      | .unwound m' => m' = m
      | .done (m', o) => base m k v = some (m', o) ∧ P m') :
    ∀ (es : List (K × V)) {m : M}, P m → ∀ s, ∃ r s', extendW ins m es s = some (r, s') ∧
      match r with
      | .unwound m' => ∃ es1 e es2, es = es1 ++ e :: es2 ∧ ext m es1 = some m' ∧ P m'
      | .done m' => ext m es = some m' ∧ P m'
  | [], m, hm, s => ⟨.done m, s, rfl, h0 m, hm⟩
  | (k, v) :: es, m, hm, s => by
    obtain ⟨r, s1, e, hr⟩ := h m hm k v s
    rw [extendW]
    simp only [e]
    rcases r with m' | ⟨m', o⟩
    · have hr : m' = m := hr
      subst hr
      exact ⟨_, _, rfl, [], (k, v), es, rfl, h0 _, hm⟩
    · obtain ⟨hb, hp⟩ := hr
      obtain ⟨r, s2, e2, hr2⟩ := extendW_base h0 h1 h es hp s1
      refine ⟨r, s2, e2, ?_⟩
      rcases r with m2 | m2
      · obtain ⟨es1, x, es2, rfl, hx, hq⟩ := hr2
        exact ⟨(k, v) :: es1, x, es2, rfl, by rw [h1 _ _ _ _ _ _ hb]; exact hx, hq⟩
      · exact ⟨by rw [h1 _ _ _ _ _ _ hb]; exact hr2.1, hr2.2⟩

end Verif.Wild

namespace Verif.BTree.BTreeMap
open Verif.Wild Std
universe w
variable {σ : Type w} {K V : Type} [Ord K] [TransOrd K] {N : Nat}

theorem insertW_reach (hN : 1 ≤ N) {m : BTreeMap K V} (hm : Reachable N m) {c : Cmp σ K} {k : K}
    (hc : Honest c (compare k)) (v : V) (s : σ) :
    ∃ r s', m.insertW N c k v s = some (r, s') ∧
      match r with
      | .unwound m' => m' = m
      | .done (m', o) => m.insert N k v = some (m', o) ∧ Reachable N m' := by
  obtain ⟨r, s', e, hr⟩ := insertW_spec N c (hm.wf hN).inv k v s
  refine ⟨r, s', e, ?_⟩
  rcases r with m' | ⟨m', o⟩
  · exact hr.1
  · have h := insertW_honest N hc m v s _ _ e
    exact ⟨h, hm.insert h⟩

theorem extendW_reach (hN : 1 ≤ N) {m : BTreeMap K V} (hm : Reachable N m) {c : K → Cmp σ K}
    (hc : ∀ k, Honest (c k) (compare k)) (es : List (K × V)) (s : σ) :
    ∃ r s', m.extendW N c es s = some (r, s') ∧
      match r with
      | .unwound m' => ∃ es1 e es2, es = es1 ++ e :: es2 ∧ m.extend N es1 = some m' ∧ Reachable N m'
      | .done m' => m.extend N es = some m' ∧ Reachable N m' := by
  obtain ⟨r, s', e, hr⟩ := Wild.extendW_base (P := Reachable N) (base := insert N)
    (ext := fun m es => extend N m es) (ins := fun m k v s => m.insertW N (c k) k v s)
    (fun m => rfl) (fun m k v es m' o e => by simp only [extend, e])
    (fun m hm k v s => by
      obtain ⟨r, s', e, hr⟩ := insertW_reach hN hm (hc k) v s
      exact ⟨r, s', e, by rcases r with _ | ⟨_, _⟩ <;> exact hr⟩) es hm s
  exact ⟨r, s', e, by rcases r with _ | _ <;> exact hr⟩

theorem retainLoopW_reach (hN : 1 ≤ N) {c : K → Cmp σ K} (hc : ∀ k, Honest (c k) (compare k))
    (f : K → V → σ → Option (V × Bool) × σ) : ∀ (es : List (K × V)) {m m' : BTreeMap K V} {s s' : σ},
      Reachable N m → retainLoopW N c f es m s = some (some m', s') → Reachable N m'
  | [], m, m', s, s', hm, e => by cases e; exact hm
  | x :: es, m, m', s, s', hm, e => by
    rw [retainLoopW] at e
    rcases hf : f x.1 x.2 s with ⟨_ | ⟨v, _ | _⟩, s1⟩
    · rw [hf] at e; cases e
    · rw [hf] at e; exact retainLoopW_reach hN hc f es hm e
    · rw [hf] at e
      obtain ⟨r, s2, e2, hr⟩ := insertW_reach hN hm (hc x.1) v s1
      simp only [e2] at e
      rcases r with _ | ⟨m2, o⟩
      · cases e
      · exact retainLoopW_reach hN hc f es hr.2 e

theorem splitLoopW_reach (hN : 1 ≤ N) {c : K → Cmp σ K} (hc : ∀ k, Honest (c k) (compare k))
    (g : K → σ → Option Bool × σ) : ∀ (es : List (K × V)) {a b a' b' : BTreeMap K V} {s s' : σ},
      Reachable N a → Reachable N b → splitLoopW N c g es a b s = some (some (a', b'), s') →
      Reachable N a' ∧ Reachable N b'
  | [], a, b, a', b', s, s', ha, hb, e => by cases e; exact ⟨ha, hb⟩
  | x :: es, a, b, a', b', s, s', ha, hb, e => by
    rw [splitLoopW] at e
    rcases hg : g x.1 s with ⟨_ | _ | _, s1⟩
    · rw [hg] at e; cases e
    · rw [hg] at e
      obtain ⟨r, s2, e2, hr⟩ := insertW_reach hN hb (hc x.1) x.2 s1
      simp only [e2] at e
      rcases r with _ | ⟨m2, o⟩
      · cases e
      · exact splitLoopW_reach hN hc g es ha hr.2 e
    · rw [hg] at e
      obtain ⟨r, s2, e2, hr⟩ := insertW_reach hN ha (hc x.1) x.2 s1
      simp only [e2] at e
      rcases r with _ | ⟨m2, o⟩
      · cases e
      · exact splitLoopW_reach hN hc g es hr.2 hb e

/-- The comparisons of a command are honest.  `split_off` also uses `PartialOrd`, and `retain` a
closure; these may do anything. -/
def WCmd.Honest : WCmd σ K V → Prop
  | .getMut _ c _ => ∃ p, IsProbe p ∧ Wild.Honest c p
  | .remove _ c => ∃ p, IsProbe p ∧ Wild.Honest c p
  | .insert _ c k _ => Wild.Honest c (compare k)
  | .extend _ c _ => ∀ k, Wild.Honest (c k) (compare k)
  | .append _ _ _ c => ∀ k, Wild.Honest (c k) (compare k)
  | .splitOff _ _ _ c _ => ∀ k, Wild.Honest (c k) (compare k)
  | .retain _ _ c _ => ∀ k, Wild.Honest (c k) (compare k)
  | _ => True

theorem wstep_reach (hN : 1 ≤ N) {st : Maps K V} (h : ∀ i, Reachable N (st i)) (s : σ)
    (cmd : WCmd σ K V) (hc : cmd.Honest) :
    ∃ st' s', wstep N st s cmd = some (st', s') ∧ ∀ i, Reachable N (st' i) := by
  have hi := fun i => ((h i).wf hN).inv
  cases cmd with
  | get i c =>
    obtain ⟨r, s', e, -⟩ := getW_spec N c (hi i) s
    simp only [wstep, e]
    exact ⟨_, _, rfl, h⟩
  | contains i c => exact ⟨_, _, rfl, h⟩
  | getMut i c g =>
    obtain ⟨p, hp, hc⟩ := hc
    obtain ⟨r, s', e, hr⟩ := getMutW_spec N c (hi i) g s
    simp only [wstep, e]
    rcases r with m | ⟨m, o⟩
    · exact ⟨_, _, rfl, upd_all h i (hr.1 ▸ h i)⟩
    · have hm : (st i).getMut p g = (m, o) := by simpa using getMutW_honest hc (st i) g s _ _ e
      have := (h i).getMut (g := g) hp
      rw [hm] at this
      exact ⟨_, _, rfl, upd_all h i this⟩
  | insert i c k v =>
    obtain ⟨r, s', e, hr⟩ := insertW_reach hN (h i) hc v s
    simp only [wstep, e]
    rcases r with m | ⟨m, o⟩
    · have hr : m = st i := hr
      exact ⟨_, _, rfl, upd_all h i (hr ▸ h i)⟩
    · exact ⟨_, _, rfl, upd_all h i hr.2⟩
  | remove i c =>
    obtain ⟨p, hp, hc⟩ := hc
    obtain ⟨r, s', e, hr⟩ := removeW_spec N c hN (hi i) s
    simp only [wstep, e]
    rcases r with m | ⟨m, o⟩
    · exact ⟨_, _, rfl, upd_all h i (hr.1 ▸ h i)⟩
    · exact ⟨_, _, rfl, upd_all h i ((h i).remove hp (removeW_honest N hc (st i) s _ _ e))⟩
  | popFirst i =>
    obtain ⟨m, e, hm, -⟩ := popFirst_inv hN (hi i)
    simp only [wstep, e]
    exact ⟨_, _, rfl, upd_all h i ((h i).popFirst e)⟩
  | popLast i =>
    obtain ⟨m, e, hm, -⟩ := popLast_inv hN (hi i)
    simp only [wstep, e]
    exact ⟨_, _, rfl, upd_all h i ((h i).popLast e)⟩
  | clear i => exact ⟨_, _, rfl, upd_all h i .new⟩
  | clone i j => exact ⟨_, _, rfl, upd_all h j (h i)⟩
  | extend i c es =>
    obtain ⟨r, s', e, hr⟩ := extendW_reach hN (h i) hc es s
    simp only [wstep, e]
    rcases r with m | m
    · obtain ⟨_, _, _, _, _, hr⟩ := hr
      exact ⟨_, _, rfl, upd_all h i hr⟩
    · exact ⟨_, _, rfl, upd_all h i hr.2⟩
  | append i j o c =>
    rw [wstep]
    split
    · exact ⟨_, _, rfl, h⟩
    · obtain ⟨r, s', e, hr⟩ := extendW_reach hN (h i) hc (st j).abs s
      simp only [appendW, intoList_inv hN (hi j), e]
      rcases r with m | m
      · obtain ⟨_, _, _, _, _, hr⟩ := hr
        exact ⟨_, _, rfl, upd_all (upd_all h i hr) j .new⟩
      · exact ⟨_, _, rfl, upd_all (upd_all h i hr.2) j .new⟩
  | splitOff i j o c g =>
    obtain ⟨r, s', e, hr⟩ := splitOffW_spec hN o (hi i) c g s
    simp only [wstep, e]
    rcases r with m | ⟨a, b⟩
    · have hr : m = new := hr
      exact ⟨_, _, rfl, upd_all h i (hr ▸ .new)⟩
    · have hab : Reachable N a ∧ Reachable N b := by
        rw [splitOffW, intoList_inv hN (hi i)] at e
        dsimp only at e
        cases hs : splitLoopW N c g (st i).abs new new s with
        | none => rw [hs] at e; cases e
        | some x =>
          rw [hs] at e
          rcases x with ⟨_ | ⟨a', b'⟩, s2⟩
          · cases e
          · cases e; exact splitLoopW_reach hN hc g _ .new .new hs
      exact ⟨_, _, rfl, upd_all (upd_all h i hab.1) j hab.2⟩
  | retain i o c f =>
    obtain ⟨r, s', e, hr⟩ := retainW_spec hN o (hi i) c f s
    simp only [wstep, e]
    rcases r with m | m
    · have hr : m = new := hr
      exact ⟨_, _, rfl, upd_all h i (hr ▸ .new)⟩
    · have hab : Reachable N m := by
        rw [retainW, intoList_inv hN (hi i)] at e
        dsimp only at e
        cases hs : retainLoopW N c f (st i).abs new s with
        | none => rw [hs] at e; cases e
        | some x =>
          rw [hs] at e
          rcases x with ⟨_ | m', s2⟩
          · cases e
          · cases e; exact retainLoopW_reach hN hc f _ .new hs
      exact ⟨_, _, rfl, upd_all h i hab⟩

theorem wrun_reach (hN : 1 ≤ N) : ∀ (cs : List (WCmd σ K V)) {st : Maps K V} (s : σ),
    (∀ cmd ∈ cs, cmd.Honest) → (∀ i, Reachable N (st i)) →
      ∃ st' s', wrun N st s cs = some (st', s') ∧ ∀ i, Reachable N (st' i)
  | [], st, s, hc, h => ⟨_, _, rfl, h⟩
  | c :: cs, st, s, hc, h => by
    obtain ⟨st1, s1, e, h1⟩ := wstep_reach hN h s c (hc c (by simp))
    rw [wrun]
    simp only [e]
    exact wrun_reach hN cs s1 (fun x hx => hc x (by simp [hx])) h1

end Verif.BTree.BTreeMap

namespace Verif.Fixed.FMap
open Verif.Wild Std
universe w
variable {σ : Type w} {K V : Type} [Ord K] [TransOrd K] {lin : Bool}

theorem insertW_reach {m : FMap K V} (hm : Reachable lin m) {c : Cmp σ K} {k : K}
    (hc : Honest c (compare k)) (v : V) (s : σ) :
    ∃ r s', m.insertW lin c k v s = some (r, s') ∧
      match r with
      | .unwound m' => m' = m
      | .done (m', o) => m.insert lin k v = some (m', o) ∧ Reachable lin m' := by
  obtain ⟨r, s', e, hr⟩ := insertW_spec lin c hm.wf.inv k v s
  refine ⟨r, s', e, ?_⟩
  rcases r with m' | ⟨m', o⟩
  · exact hr.1
  · have h := insertW_honest lin hc m v s _ _ e
    exact ⟨h, hm.insert h⟩

theorem extendW_reach {m : FMap K V} (hm : Reachable lin m) {c : K → Cmp σ K}
    (hc : ∀ k, Honest (c k) (compare k)) (es : List (K × V)) (s : σ) :
    ∃ r s', m.extendW lin c es s = some (r, s') ∧
      match r with
      | .unwound m' => ∃ es1 e es2, es = es1 ++ e :: es2 ∧ m.extend lin es1 = some m' ∧
          Reachable lin m'
      | .done m' => m.extend lin es = some m' ∧ Reachable lin m' := by
  obtain ⟨r, s', e, hr⟩ := Wild.extendW_base (P := Reachable lin) (base := insert lin)
    (ext := fun m es => extend lin m es) (ins := fun m k v s => m.insertW lin (c k) k v s)
    (fun m => rfl) (fun m k v es m' o e => by simp only [extend, e])
    (fun m hm k v s => by
      obtain ⟨r, s', e, hr⟩ := insertW_reach hm (hc k) v s
      exact ⟨r, s', e, by rcases r with _ | ⟨_, _⟩ <;> exact hr⟩) es hm s
  exact ⟨r, s', e, by rcases r with _ | _ <;> exact hr⟩

/-- The comparisons of a command are honest. -/
def WCmd.Honest : WCmd σ K V → Prop
  | .getMut _ c _ => ∃ p, IsProbe p ∧ Wild.Honest c p
  | .remove _ c => ∃ p, IsProbe p ∧ Wild.Honest c p
  | .insert _ c k _ => Wild.Honest c (compare k)
  | .extend _ c _ => ∀ k, Wild.Honest (c k) (compare k)
  | _ => True

theorem wstep_reach {st : Maps K V} (h : ∀ i, Reachable lin (st i)) (s : σ)
    (cmd : WCmd σ K V) (hc : cmd.Honest) :
    ∃ st' s', wstep lin st s cmd = some (st', s') ∧ ∀ i, Reachable lin (st' i) := by
  have hi := fun i => (h i).wf.inv
  cases cmd with
  | get i c =>
    obtain ⟨r, s', e, -⟩ := getW_spec lin c (hi i) s
    simp only [wstep, e]
    exact ⟨_, _, rfl, h⟩
  | getMut i c g =>
    obtain ⟨p, hp, hc⟩ := hc
    obtain ⟨r, s', e, hr⟩ := getMutW_spec lin c (hi i) g s
    simp only [wstep, e]
    rcases r with m | ⟨m, o⟩
    · exact ⟨_, _, rfl, upd_all h i (hr.1 ▸ h i)⟩
    · exact ⟨_, _, rfl, upd_all h i ((h i).getMut hp (getMutW_honest lin hc (st i) g s _ _ e))⟩
  | insert i c k v =>
    obtain ⟨r, s', e, hr⟩ := insertW_reach (h i) hc v s
    simp only [wstep, e]
    rcases r with m | ⟨m, o⟩
    · have hr : m = st i := hr
      exact ⟨_, _, rfl, upd_all h i (hr ▸ h i)⟩
    · exact ⟨_, _, rfl, upd_all h i hr.2⟩
  | remove i c =>
    obtain ⟨p, hp, hc⟩ := hc
    obtain ⟨r, s', e, hr⟩ := removeW_spec lin c (hi i) s
    simp only [wstep, e]
    rcases r with m | ⟨m, o⟩
    · exact ⟨_, _, rfl, upd_all h i (hr.1 ▸ h i)⟩
    · exact ⟨_, _, rfl, upd_all h i ((h i).remove hp (removeW_honest lin hc (st i) s _ _ e))⟩
  | clear i => exact ⟨_, _, rfl, upd_all h i (h i).clear⟩
  | clone i j => exact ⟨_, _, rfl, upd_all h j (h i)⟩
  | extend i c es =>
    obtain ⟨r, s', e, hr⟩ := extendW_reach (h i) hc es s
    simp only [wstep, e]
    rcases r with m | m
    · obtain ⟨_, _, _, _, _, hr⟩ := hr
      exact ⟨_, _, rfl, upd_all h i hr⟩
    · exact ⟨_, _, rfl, upd_all h i hr.2⟩

theorem wrun_reach : ∀ (cs : List (WCmd σ K V)) {st : Maps K V} (s : σ),
    (∀ cmd ∈ cs, cmd.Honest) → (∀ i, Reachable lin (st i)) →
      ∃ st' s', wrun lin st s cs = some (st', s') ∧ ∀ i, Reachable lin (st' i)
  | [], st, s, hc, h => ⟨_, _, rfl, h⟩
  | c :: cs, st, s, hc, h => by
    obtain ⟨st1, s1, e, h1⟩ := wstep_reach h s c (hc c (by simp))
    rw [wrun]
    simp only [e]
    exact wrun_reach cs s1 (fun x hx => hc x (by simp [hx])) h1

end Verif.Fixed.FMap

namespace Verif.Avl.AvlMap
open Verif.Wild Std Verif.Avl.Tree
universe w
variable {σ : Type w} {K V : Type} [Ord K] [TransOrd K]

theorem insertW_reach {m : AvlMap K V} (hm : Reachable m) {c : Cmp σ K} {k : K}
    (hc : Honest c (compare k)) (v : V) (s : σ) :
    ∃ r s', m.insertW c k v s = some (r, s') ∧
      match r with
      | .unwound m' => m' = m
      | .done (m', o) => m.insert k v = some (m', o) ∧ Reachable m' := by
  obtain ⟨r, s', e, hr⟩ := insertW_spec c hm.wf.inv k v s
  refine ⟨r, s', e, ?_⟩
  rcases r with m' | ⟨m', o⟩
  · exact hr.1
  · have h := insertW_honest hc m v s _ _ e
    exact ⟨h, hm.insert h⟩

theorem extendW_reach {m : AvlMap K V} (hm : Reachable m) {c : K → Cmp σ K}
    (hc : ∀ k, Honest (c k) (compare k)) (es : List (K × V)) (s : σ) :
    ∃ r s', m.extendW c es s = some (r, s') ∧
      match r with
      | .unwound m' => ∃ es1 e es2, es = es1 ++ e :: es2 ∧ m.extend es1 = some m' ∧ Reachable m'
      | .done m' => m.extend es = some m' ∧ Reachable m' := by
  obtain ⟨r, s', e, hr⟩ := Wild.extendW_base (P := Reachable) (base := insert)
    (ext := fun m es => extend m es) (ins := fun m k v s => m.insertW (c k) k v s)
    (fun m => rfl) (fun m k v es m' o e => by simp only [extend, e])
    (fun m hm k v s => by
      obtain ⟨r, s', e, hr⟩ := insertW_reach hm (hc k) v s
      exact ⟨r, s', e, by rcases r with _ | ⟨_, _⟩ <;> exact hr⟩) es hm s
  exact ⟨r, s', e, by rcases r with _ | _ <;> exact hr⟩

/-- A merger of the source: avl.rs:887-942 `intersect`, `diff`, `sym_diff`, `union`. -/
inductive SetOp : Bool → Bool → (K × V → K × V → Option (K × V)) → Prop
  | intersect : SetOp false false (fun l _ => some l)
  | diff : SetOp true false (fun _ _ => none)
  | symDiff : SetOp true true (fun _ _ => none)
  | union : SetOp true true (fun _ r => some r)

/-- The comparisons of a command are honest. -/
def WCmd.Honest : WCmd σ K V → Prop
  | .getMut _ c _ => ∃ p, IsProbe p ∧ Wild.Honest c p
  | .remove _ c => ∃ p, IsProbe p ∧ Wild.Honest c p
  | .insert _ c k _ => Wild.Honest c (compare k)
  | .extend _ c _ => ∀ k, Wild.Honest (c k) (compare k)
  | .merge _ _ _ kl kr dec c => SetOp kl kr dec ∧ ∀ k, Wild.Honest (c k) (compare k)
  | _ => True

omit [TransOrd K] in
theorem merge_reach {l r m : AvlMap K V} (hl : Reachable l) (hr : Reachable r) {kl kr : Bool}
    {dec : K × V → K × V → Option (K × V)} (hd : SetOp kl kr dec)
    (e : (merge kl kr dec l.root r.root).map (fun t => (⟨t.size, t⟩ : AvlMap K V)) = some m) :
    Reachable m := by
  cases hd with
  | intersect => exact .intersect hl hr e
  | diff => exact .diff hl hr e
  | symDiff => exact .symDiff hl hr e
  | union => exact .union hl hr e

theorem wstep_reach {st : Maps K V} (h : ∀ i, Reachable (st i)) (s : σ)
    (cmd : WCmd σ K V) (ht : cmd.takes = false) (hc : cmd.Honest) :
    ∃ st' s', wstep st s cmd = some (st', s') ∧ ∀ i, Reachable (st' i) := by
  have hi := fun i => (h i).wf.inv
  cases cmd with
  | get i c => exact ⟨_, _, rfl, h⟩
  | getMut i c g =>
    obtain ⟨p, hp, hc⟩ := hc
    have hs := getMutW_spec c (hi i) g s
    have hm := getMutW_honest hc (st i) g s
    rw [wstep]
    generalize (st i).getMutW c g s = x at hs hm ⊢
    rcases x with ⟨m | ⟨m, b⟩, s'⟩
    · exact ⟨_, _, rfl, upd_all h i (hs.1 ▸ h i)⟩
    · have := (h i).getMut (g := g) hp
      rw [hm _ _ rfl] at this
      exact ⟨_, _, rfl, upd_all h i this⟩
  | insert i c k v =>
    obtain ⟨r, s', e, hr⟩ := insertW_reach (h i) hc v s
    simp only [wstep, e]
    rcases r with m | ⟨m, o⟩
    · have hr : m = st i := hr
      exact ⟨_, _, rfl, upd_all h i (hr ▸ h i)⟩
    · exact ⟨_, _, rfl, upd_all h i hr.2⟩
  | remove i c =>
    obtain ⟨p, hp, hc⟩ := hc
    obtain ⟨r, s', e, hr⟩ := removeW_spec c (hi i) s
    simp only [wstep, e]
    rcases r with m | ⟨m, o⟩
    · exact ⟨_, _, rfl, upd_all h i (hr.1 ▸ h i)⟩
    · exact ⟨_, _, rfl, upd_all h i ((h i).removeEntry hp (removeW_honest hc (st i) s _ _ e))⟩
  | popFirst i =>
    obtain ⟨m, e, -⟩ := popFirst_spec (h i).wf
    simp only [wstep, e]
    exact ⟨_, _, rfl, upd_all h i ((h i).popFirst e)⟩
  | popLast i =>
    obtain ⟨m, e, -⟩ := popLast_spec (h i).wf
    simp only [wstep, e]
    exact ⟨_, _, rfl, upd_all h i ((h i).popLast e)⟩
  | clear i => exact ⟨_, _, rfl, upd_all h i .new⟩
  | clone i j => exact ⟨_, _, rfl, upd_all h j (h i)⟩
  | extend i c es =>
    obtain ⟨r, s', e, hr⟩ := extendW_reach (h i) hc es s
    simp only [wstep, e]
    rcases r with m | m
    · obtain ⟨_, _, _, _, _, hr⟩ := hr
      exact ⟨_, _, rfl, upd_all h i hr⟩
    · exact ⟨_, _, rfl, upd_all h i hr.2⟩
  | merge l r d kl kr dec c =>
    obtain ⟨x, s', e, hr⟩ := newMergeW_spec (hi l) (hi r) kl kr dec c s
    simp only [wstep, e]
    rcases x with m | m
    · exact ⟨_, _, rfl, h⟩
    · exact ⟨_, _, rfl, upd_all h d (merge_reach (h l) (h r) hc.1
        (newMergeW_honest hc.2 kl kr dec (st l) (st r) s _ _ e))⟩
  | append => cases ht
  | splitOff => cases ht
  | retain => cases ht

theorem wrun_reach : ∀ (cs : List (WCmd σ K V)) {st : Maps K V} (s : σ),
    (∀ cmd ∈ cs, cmd.takes = false ∧ cmd.Honest) → (∀ i, Reachable (st i)) →
      ∃ st' s', wrun st s cs = some (st', s') ∧ ∀ i, Reachable (st' i)
  | [], st, s, hc, h => ⟨_, _, rfl, h⟩
  | c :: cs, st, s, hc, h => by
    obtain ⟨st1, s1, e, h1⟩ := wstep_reach h s c (hc c (by simp)).1 (hc c (by simp)).2
    rw [wrun]
    simp only [e]
    exact wrun_reach cs s1 (fun x hx => hc x (by simp [hx])) h1

end Verif.Avl.AvlMap
