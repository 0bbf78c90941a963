import Verif.BTree.Mut
/-!
# The tree without its values (C13: in-place mutation leaves keys and shape alone)
-/
namespace Verif.BTree
variable {K V W : Type _}

mutual
/-- The node with every value forgotten (specification). -/
def Node.skel : Node K V → Node K Unit
  | .mk es ks => .mk (es.map (fun e => (e.1, ()))) (Node.skels ks)
def Node.skels : List (Node K V) → List (Node K Unit)
  | [] => []
  | c :: ks => Node.skel c :: Node.skels ks
end

/-- The map with every value forgotten. -/
def BTreeMap.skel (m : BTreeMap K V) : BTreeMap K Unit := ⟨m.len, m.root.map Node.skel⟩

mutual
theorem Node.skel_mapIdx (g : Nat → K × V → K × W) (hg : ∀ i e, (g i e).1 = e.1) :
    ∀ (n : Nat) (t : Node K V), (t.mapIdx g n).skel = t.skel
  | n, .mk es ks => by
    rw [Node.mapIdx, Node.skel, Node.skel, Node.skels_mapIdxK g hg, Node.skel_mapIdxE g hg]
theorem Node.skels_mapIdxK (g : Nat → K × V → K × W) (hg : ∀ i e, (g i e).1 = e.1) :
    ∀ (n : Nat) (ks : List (Node K V)) (es : List (K × V)),
      Node.skels (Node.mapIdxK g n ks es) = Node.skels ks
  | n, [], es => by simp [Node.mapIdxK, Node.skels]
  | n, c :: ks, [] => by
    rw [Node.mapIdxK, Node.skels, Node.skels, Node.skel_mapIdx g hg, Node.skels_mapIdxK g hg]
  | n, c :: ks, e :: es => by
    rw [Node.mapIdxK, Node.skels, Node.skels, Node.skel_mapIdx g hg, Node.skels_mapIdxK g hg]
theorem Node.skel_mapIdxE (g : Nat → K × V → K × W) (hg : ∀ i e, (g i e).1 = e.1) :
    ∀ (n : Nat) (ks : List (Node K V)) (es : List (K × V)),
      (Node.mapIdxE g n ks es).map (fun e => (e.1, ())) = es.map (fun e => (e.1, ()))
  | n, [], es => by
    rw [Node.mapIdxE, List.map_map]
    have h2 := congrArg (List.map (fun x : K × V => (x.1, ()))) (List.zipIdx_map_fst n es)
    rw [List.map_map] at h2
    rw [← h2]
    apply List.map_congr_left
    intro x _
    simp [Function.comp, hg]
  | n, c :: ks, [] => by simp [Node.mapIdxE]
  | n, c :: ks, e :: es => by
    simp only [Node.mapIdxE, List.map_cons, hg]
    rw [Node.skel_mapIdxE g hg]
end

mutual
theorem Node.skel_getMut (p : K → Ordering) (g : V → V) : ∀ n : Node K V,
    (Node.getMut p g n).1.skel = n.skel
  | .mk es ks => by
    rw [Node.getMut]
    split
    · simp only [Node.skel]
      congr 1
      apply List.ext_getElem
      · simp
      · intro i h1 h2
        simp only [List.getElem_map, List.getElem_modify]
        split <;> rfl
    · simp only [Node.skel]
      rw [Node.skels_getMutAt]
theorem Node.skels_getMutAt (p : K → Ordering) (g : V → V) : ∀ (i : Nat) (ks : List (Node K V)),
    Node.skels (Node.getMutAt p g i ks).1 = Node.skels ks
  | _, [] => by simp [Node.getMutAt]
  | 0, c :: ks => by simp only [Node.getMutAt, Node.skels]; rw [Node.skel_getMut]
  | i + 1, c :: ks => by simp only [Node.getMutAt, Node.skels]; rw [Node.skels_getMutAt]
end

namespace BTreeMap

theorem skel_store (slots : List Nat) (w : Nat → V) (m : BTreeMap K V) :
    (m.store slots w).skel = m.skel := by
  unfold skel store
  cases m.root with
  | none => rfl
  | some n =>
    simp only [Option.map_some]
    rw [Node.store, Node.skel_mapIdx _ (fun i e => by split <;> rfl)]

theorem skel_getMut (p : K → Ordering) (g : V → V) (m : BTreeMap K V) :
    (m.getMut p g).1.skel = m.skel := by
  unfold getMut skel
  cases hr : m.root with
  | none => simp [hr]
  | some n => simp [Node.skel_getMut]

end BTreeMap
end Verif.BTree
