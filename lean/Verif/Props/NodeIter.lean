import Verif.Fixed.NodeBack
import Verif.Props.Fixed
/-!
# The node iterators of `btree::core` from both ends (C68)
-/
set_option linter.unusedSectionVars false
namespace Verif.Props
open Verif.Fixed Verif.Demo
open Verif.BTree (Node ANode Sharing)
variable {K V : Type}

/-- The children and entries of a node in the order of the keys. -/
def nodeActs {C E : Type} : List C → List E → List (Act E C)
  | c :: ks, e :: es => .desc c :: .ret e :: nodeActs ks es
  | [c], [] => [.desc c]
  | _, es => es.map .ret

theorem alt_nodeActs {C E : Type} : ∀ (ks : List C) (es : List E),
    ks.length = es.length + 1 → alt false es ks = nodeActs ks es
  | [], es, h => by simp at h
  | [c], [], _ => by simp [alt, nodeActs]
  | [c], e :: es, h => by simp at h
  | c :: d :: ks, [], h => by simp at h
  | c :: d :: ks, e :: es, h => by
    rw [alt, alt, nodeActs, alt_nodeActs (d :: ks) es (by simpa using h)]

/-- C68, `NodeIter`.  On a node that has no children or one more than entries, any schedule of
`next` (`true`) and `next_back` (`false`) yields what consuming the sequence of its children and
entries from the two ends yields. -/
theorem C68_node_iter (n : Node K V) (h : n.kids = [] ∨ n.kids.length = n.elems.length + 1)
    (ds : List Bool) :
    (NB.new n).run ds = (Spec.dequeRun ds (nodeActs n.kids n.elems)).map (·.1) := by
  rw [NB.run_spec ds (NB.new_ok n h)]
  obtain ⟨es, ks⟩ := n
  rcases h with h | h
  · have : ks = [] := h
    subst this
    simp [NB.new, Node.kids, Node.elems, alt_nil, nodeActs]
  · have hk : ks ≠ [] := by rintro rfl; simp [Node.kids] at h
    simp only [NB.new, Node.kids, Node.elems] at h ⊢
    have : ks.length > 0 := by omega
    simp only [this, decide_true, Bool.not_true]
    rw [alt_nodeActs ks es h]

/-- C68, `NodeIntoIter`, owned or leased, for `next` alone: the children and entries of the
node in order, then `None`; entries are moved out of an owned node and cloned from a leased one.

Missing: `next_back` (`C68_into_back_false`). -/
theorem C68_into_partial (n : ANode K V) (own : Bool)
    (h : n.kids = [] ∨ n.kids.length = n.elems.length + 1) :
    ∃ w, iiOps.make (own, n) = some w ∧ ∀ j, w.run (List.replicate j true) =
      some ((Spec.dequeRun (List.replicate j true)
        (nodeActs (n.kids.map fun c => (own && c.own, c)) (n.elems.map fun e => (own, e)))).map
          (·.1)) := by
  obtain ⟨w, h1, h2, h3, h4, h5⟩ := II.fwd_new own n h
  refine ⟨w, h1, fun j => ?_⟩
  rw [h2.run, II.acts, h3, h4, h5]
  congr 4
  obtain ⟨b, es, ks⟩ := n
  simp only [ANode.kids, ANode.elems] at h ⊢
  rcases h with h | h
  · subst h; simp [alt_nil, nodeActs]
  · exact alt_nodeActs _ _ (by simpa using h)

/-- C68, `NodeIntoIter` of an inner node: after any number of calls of `next`, a first call of
`next_back` is right: it yields the last child, or nothing if all has been yielded.  Missing: the
calls after it, and leaves; those are wrong (`C68_into_back_false`). -/
theorem C68_into_back_partial (n : ANode K V) (own : Bool)
    (h : n.kids.length = n.elems.length + 1) :
    ∃ w, iiOps.make (own, n) = some w ∧ ∀ j, w.run (List.replicate j true ++ [false]) =
      some ((Spec.dequeRun (List.replicate j true ++ [false])
        (nodeActs (n.kids.map fun c => (own && c.own, c)) (n.elems.map fun e => (own, e)))).map
          (·.1)) := by
  obtain ⟨w, h1, h2, h3, h4, h5⟩ := II.fwd_new own n (Or.inr h)
  have hi : w.Inner := by
    have := h2.hee
    have := h2.hek
    exact ⟨by omega, by omega⟩
  refine ⟨w, h1, fun j => ?_⟩
  rw [h2.run_back j hi, II.acts, h3, h4, h5]
  congr 4
  exact alt_nodeActs _ _ (by simpa using h)
example := C68_into_back_partial (.mk true [(3, 0)] [.mk true [(1, 0)] [], .mk false [(4, 0)] []] :
  ANode Nat Nat) true rfl

/-- C68 fails for `NodeIntoIter`: whatever calls went before, `next_back` never yields an entry.
While the sequence of what is left ends in an entry it panics or reads a slot that is not
initialised, e.g. at once on every leaf. -/
theorem C68_into_back_false :
    (∀ w : II K V, w.Reach → ∀ w' e, w.nextBack ≠ some (w', some (.ret e))) ∧
    (∀ (n : ANode K V) (own : Bool) (w : II K V), n.kids = [] → n.elems ≠ [] →
      iiOps.make (own, n) = some w → w.run [false] = none) := by
  refine ⟨fun w h => h.nextBack_ret, ?_⟩
  intro n own w h1 h2 h3
  obtain ⟨b, es, ks⟩ := n
  have hk : ks = [] := h1
  subst hk
  simp only [iiOps, ANode.kids, ANode.elems] at h2 h3
  cases h3
  have : 0 < es.length := List.length_pos_iff.2 h2
  simp [II.run, II.nextBack, this]

/-- The keys an item shows, for the examples. -/
def actIds : Act (CKey × Nat) (Node CKey Nat) → Bool × List Nat
  | .ret e => (true, [e.1.id])
  | .desc c => (false, c.elems.map (·.1.id))

-- the root of `fm`, with four children, from both ends
example : ∃ r, fm.root = some r ∧ r.kids.length = r.elems.length + 1 ∧
    ((NB.new r).run [true, false, false, true, true, false, false, true]).map (Option.map actIds) =
      [some (false, [0, 1, 2, 3, 4, 5]), some (false, [22, 23, 24, 25, 26, 27, 28]),
       some (true, [21]), some (true, [6]), some (false, [7, 8, 9, 10, 11, 12, 13, 14]),
       some (false, [16, 17, 18, 19, 20]), some (true, [15]), none] :=
  ⟨_, getD_of_isSome (.mk [] []) (by decide +kernel), by decide +kernel, by decide +kernel⟩
example := C68_node_iter (.mk [(3, 0), (5, 0)] [.mk [(1, 0)] [], .mk [(4, 0)] [], .mk [(6, 0)] []] :
  Node Nat Nat) (Or.inr rfl) [true, false, false]
example := C68_into_partial (.mk true [(3, 0)] [.mk true [(1, 0)] [], .mk false [(4, 0)] []] :
  ANode Nat Nat) true (Or.inr rfl)
-- a child is yielded from the back, then an entry is not
example : ∃ w, iiOps.make (true, (.mk true [(3, 0)] [.mk true [(1, 0)] [], .mk false [(4, 0)] []] :
      ANode Nat Nat)) = some w ∧ ((w.run [false]).map List.length) = some 1 ∧
    (w.run [false, false]).isNone = true ∧ (w.run [false, true, false]).isNone = true :=
  ⟨_, rfl, by decide +kernel, by decide +kernel, by decide +kernel⟩

end Verif.Props
