import Verif.Heap.SetOps
import Verif.Heap.Cost
/-!
# The lazy set-operation iterators only read, if the inner iterators do
-/
namespace Verif.Heap.SetOps
open Verif.Heap Verif.Lib

variable {P ι α : Type} {next : ι → Prog P (Option α × ι)}

theorem peek_reads (hn : ∀ i, (next i).ReadOnly) (s : Peek ι α) : (peek next s).ReadOnly := by
  unfold peek
  split
  · exact trivial
  · exact Prog.ReadOnly.map (hn _)

theorem pnext_reads (hn : ∀ i, (next i).ReadOnly) (s : Peek ι α) : (pnext next s).ReadOnly := by
  unfold pnext
  split
  · exact trivial
  · exact Prog.ReadOnly.map (hn _)

theorem pick_reads [Ord α] (hn : ∀ i, (next i).ReadOnly) (s : MergeIter ι α) (a b : Option α) :
    (pick next s a b).ReadOnly := by
  have hl : (takeL next s).ReadOnly := Prog.ReadOnly.map (pnext_reads hn _)
  have hr : (takeR next s).ReadOnly := Prog.ReadOnly.map (pnext_reads hn _)
  have hb : (takeB next s).ReadOnly :=
    Prog.ReadOnly.bind (fun _ => Prog.ReadOnly.map (pnext_reads hn _)) (pnext_reads hn _)
  unfold pick
  split
  · exact trivial
  · exact hr
  · exact hl
  · split
    · exact hl
    · exact hb
    · exact hr

theorem mnext_reads [Ord α] (hn : ∀ i, (next i).ReadOnly) (s : MergeIter ι α) :
    (mnext next s).ReadOnly :=
  Prog.ReadOnly.bind (fun _ => Prog.ReadOnly.bind (fun _ => pick_reads hn _ _ _)
    (peek_reads hn _)) (peek_reads hn _)

theorem setOpNext_reads [Ord α] (hn : ∀ i, (next i).ReadOnly) (F : Nat) :
    ∀ (n : Nat) (s : MergeIter ι α), (setOpNext next F n s).ReadOnly := by
  intro n
  induction n with
  | zero => intro s; exact trivial
  | succ n ih =>
    intro s
    refine Prog.ReadOnly.bind (fun x => ?_) (mnext_reads hn s)
    split
    · exact trivial
    · split
      · exact trivial
      · exact ih _

theorem setOpRun_reads [Ord α] (hn : ∀ i, (next i).ReadOnly) (F fuel : Nat) :
    ∀ (n : Nat) (s : MergeIter ι α), (setOpRun next F fuel n s).ReadOnly := by
  intro n
  induction n with
  | zero => intro s; exact trivial
  | succ n ih =>
    intro s
    exact Prog.ReadOnly.bind (fun _ => Prog.ReadOnly.map (ih _)) (setOpNext_reads hn _ _ _)

end Verif.Heap.SetOps
