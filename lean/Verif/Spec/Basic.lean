/-!
# Specification layer

A map is a list of entries strictly ascending by key.  The operations below are
the *meaning* of the public operations; they mention no tree and no helper of the
model.  Keys are only assumed to be totally preordered (`Ord` in Rust allows keys
that compare `Equal` and are still distinguishable).
-/
namespace Verif

/-- Entries of a map: key and value. -/
abbrev Entry (K V : Type _) := K × V

/-- Strictly ascending by key. -/
def Sorted {K V} [Ord K] (l : List (K × V)) : Prop :=
  l.Pairwise (fun a b => compare a.1 b.1 = .lt)

/-- A *probe* is what a borrowed search key `q` can be used for: comparing it with
stored keys, `p k = q.cmp(k.borrow())`.  The laws say that the order of the borrowed
form is consistent with the order of the keys (the documented contract of
`Borrow`). -/
structure IsProbe {K} [Ord K] (p : K → Ordering) : Prop where
  /-- `q ≤ a < b` implies `q < b` -/
  mono : ∀ a b, compare a b = .lt → p a ≠ .gt → p b = .lt
  /-- equal keys are not distinguished -/
  congr : ∀ a b, compare a b = .eq → p a = p b

namespace Spec

variable {K V : Type _} [Ord K]

/-- The entry whose key compares equal to the probe. -/
def find (p : K → Ordering) (l : List (K × V)) : Option (K × V) :=
  l.find? (fun e => p e.1 == .eq)

/-- Store `(k,v)`: smaller keys, then the new pair, then larger keys. -/
def insert (k : K) (v : V) (l : List (K × V)) : List (K × V) :=
  l.filter (fun e => compare k e.1 == .gt) ++ (k, v) ::
    l.filter (fun e => compare k e.1 == .lt)

/-- Successive insertion. -/
def insertAll (l es : List (K × V)) : List (K × V) :=
  es.foldl (fun l e => insert e.1 e.2 l) l

/-- Delete the entry equal to the probe. -/
def erase (p : K → Ordering) (l : List (K × V)) : List (K × V) :=
  l.filter (fun e => p e.1 != .eq)

/-- Entries with key `< q`. -/
def below (p : K → Ordering) (l : List (K × V)) : List (K × V) :=
  l.filter (fun e => p e.1 == .gt)

/-- Entries with key `≥ q`. -/
def atLeast (p : K → Ordering) (l : List (K × V)) : List (K × V) :=
  l.filter (fun e => p e.1 != .gt)

/-- Entries with key `> q`. -/
def above (p : K → Ordering) (l : List (K × V)) : List (K × V) :=
  l.filter (fun e => p e.1 == .lt)

/-- Is some stored key equal to `k`? -/
def hasKey (k : K) (l : List (K × V)) : Bool :=
  l.any (fun e => compare k e.1 == .eq)

/-- Left entries whose key is in the right map. -/
def inter (a b : List (K × V)) : List (K × V) := a.filter (fun e => hasKey e.1 b)

/-- Left entries whose key is not in the right map. -/
def diff (a b : List (K × V)) : List (K × V) := a.filter (fun e => !hasKey e.1 b)

/-- Both, the right entry winning. -/
def union (a b : List (K × V)) : List (K × V) := insertAll a b

/-- Entries whose key is in exactly one of the two. -/
def symDiff (a b : List (K × V)) : List (K × V) := insertAll (diff a b) (diff b a)

end Spec

/-! ### Double-ended consumption of a list under a schedule -/

/-- One call of `next` (`true`) or `next_back` (`false`) on the list of elements not
yet yielded: what is yielded and what remains. -/
def Spec.dequeStep {α} (front : Bool) (l : List α) : Option α × List α :=
  if front then (l.head?, l.tail) else (l.getLast?, l.dropLast)

/-- The results of a whole schedule of `next`/`next_back` calls, paired with the
number of elements remaining after each call. -/
def Spec.dequeRun {α} : List Bool → List α → List (Option α × Nat)
  | [], _ => []
  | d :: ds, l =>
    ((Spec.dequeStep d l).1, (Spec.dequeStep d l).2.length) ::
      Spec.dequeRun ds (Spec.dequeStep d l).2

/-- Bounds of a range query (`std::ops::Bound`), in terms of probes. -/
inductive Bnd (K : Type _) where
  | unbounded
  | included (p : K → Ordering)
  | excluded (p : K → Ordering)

/-- `k` satisfies the lower bound. -/
def Bnd.okLo {K} : Bnd K → K → Bool
  | .unbounded, _ => true
  | .included p, k => p k != .gt      -- q ≤ k
  | .excluded p, k => p k == .lt      -- q < k

/-- `k` satisfies the upper bound. -/
def Bnd.okHi {K} : Bnd K → K → Bool
  | .unbounded, _ => true
  | .included p, k => p k != .lt      -- k ≤ q
  | .excluded p, k => p k == .gt      -- k < q

/-- The probe of a bound is lawful. -/
def Bnd.Lawful {K} [Ord K] : Bnd K → Prop
  | .unbounded => True
  | .included p => IsProbe p
  | .excluded p => IsProbe p

/-- Entries within both bounds, in order. -/
def Spec.range {K V} (lo hi : Bnd K) (l : List (K × V)) : List (K × V) :=
  l.filter (fun e => lo.okLo e.1 && hi.okHi e.1)

end Verif

namespace Verif

/-- Call a stateful closure `f` once per entry of `es`, in that order: the final state and
the entries it kept (with the value as the closure left it). -/
def Spec.calls {σ K V : Type _} (f : σ → K → V → σ × V × Bool) :
    σ → List (K × V) → σ × List (K × V)
  | s, [] => (s, [])
  | s, e :: es =>
    let x := f s e.1 e.2
    let y := Spec.calls f x.1 es
    (y.1, if x.2.2 then (e.1, x.2.1) :: y.2 else y.2)

/-- `Iterator::cmp` of the standard library: lexicographic comparison of two sequences. -/
def Spec.lexCmp {α : Type _} (cmp : α → α → Ordering) : List α → List α → Ordering
  | [], [] => .eq
  | [], _ :: _ => .lt
  | _ :: _, [] => .gt
  | a :: as, b :: bs =>
    match cmp a b with
    | .eq => Spec.lexCmp cmp as bs
    | o => o

/-- `Iterator::partial_cmp` of the standard library. -/
def Spec.lexPartialCmp {α : Type _} (cmp : α → α → Option Ordering) :
    List α → List α → Option Ordering
  | [], [] => some .eq
  | [], _ :: _ => some .lt
  | _ :: _, [] => some .gt
  | a :: as, b :: bs =>
    match cmp a b with
    | some .eq => Spec.lexPartialCmp cmp as bs
    | o => o

end Verif
