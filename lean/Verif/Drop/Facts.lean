import Verif.Drop.Avl
import Verif.Drop.BTree
import Verif.Drop.Fixed
import Verif.Drop.RawSpec
import Verif.Fixed.Reach
/-!
# Facts for the properties about panicking `Drop`
-/
set_option linter.unusedVariables false
namespace Verif.Drop
open Std Verif.Wild Verif.Unwind
universe w
variable {σ : Type w} {K V M W : Type}

/-- Insertion of the value that is there exchanges the key only. -/
theorem insert_same [Ord K] [TransOrd K] (k : K) : ∀ {l : List (K × V)}, Sorted l → ∀ {e : K × V},
    Spec.find (compare k) l = some e →
    Spec.insert k e.2 l = l.map (fun x => if compare k x.1 = .eq then (k, x.2) else x)
  | [], _, e, h => by cases h
  | x :: l, hs, e, h => by
    have hs' := List.pairwise_cons.1 hs
    have hlt : compare k x.1 ≠ .gt → ∀ y ∈ l, compare k y.1 = .lt := fun hx y hy =>
      (isProbe_compare k).mono x.1 y.1 (hs'.1 y hy) hx
    have hm : (∀ y ∈ l, compare k y.1 = .lt) →
        l.map (fun x => if compare k x.1 = .eq then (k, x.2) else x) = l := fun h =>
      (List.map_congr_left (fun y hy => by simp [h y hy])).trans (List.map_id l)
    cases hc : compare k x.1 with
    | gt =>
      have h' : Spec.find (compare k) l = some e := by
        simpa [Spec.find, List.find?_cons, hc] using h
      have ih := insert_same k hs'.2 h'
      simp only [Spec.insert, List.filter_cons, hc, List.map_cons] at ih ⊢
      simpa using ih
    | eq =>
      have h' : x = e := by simpa [Spec.find, List.find?_cons, hc] using h
      subst h'
      have hl := hlt (by simp [hc])
      have f1 : l.filter (fun e => compare k e.1 == .gt) = [] :=
        List.filter_eq_nil_iff.2 (fun y hy => by simp [hl y hy])
      have f2 : l.filter (fun e => compare k e.1 == .lt) = l :=
        List.filter_eq_self.2 (fun y hy => by simp [hl y hy])
      simp [Spec.insert, List.filter_cons, hc, f1, f2, hm hl]
    | lt =>
      have hl := hlt (by simp [hc])
      have h' : Spec.find (compare k) l = some e := by
        simpa [Spec.find, List.find?_cons, hc] using h
      have := List.mem_of_find?_eq_some h'
      have h2 := List.find?_some h'
      simp [hl e this] at h2

theorem exchanged [Ord K] [TransOrd K] {k : K} {o : V} {L L' : List (K × V)} (hs : Sorted L)
    (h : L' = Spec.insert k o L) (ho : some o = (Spec.find (compare k) L).map (·.2)) :
    (∃ e ∈ L, compare k e.1 = .eq) ∧
      L' = L.map (fun e => if compare k e.1 = .eq then (k, e.2) else e) := by
  rcases hf : Spec.find (compare k) L with _ | x
  · rw [hf] at ho; cases ho
  · rw [hf] at ho
    simp only [Option.map_some, Option.some.injEq] at ho
    subst ho
    exact ⟨⟨x, List.mem_of_find?_eq_some hf, by simpa using List.find?_some hf⟩,
      h.trans (insert_same k hs hf)⟩

/-- If equal keys are identical, exchanging a key changes nothing. -/
theorem exchange_id [Ord K] (hK : ∀ a b : K, compare a b = .eq → a = b) (k : K) (L : List (K × V)) :
    L.map (fun e => if compare k e.1 = .eq then (k, e.2) else e) = L :=
  (List.map_congr_left (fun x hx => by
    split
    · rename_i he; rw [hK _ _ he]; rfl
    · rfl)).trans (List.map_id _)

/-- A panic during `extend` leaves what the entries before it make, the next one being cut short or
complete.  `plain` is `extend` when nothing panics. -/
theorem extend_prefix {k : Kit σ K V M W} {Good : M → Prop} {Cut : M → K → V → M → Prop}
    {plain : M → List (K × V) → Option M} {d : Dr σ K} {dv : Dr σ V} (h0 : ∀ m, plain m [] = some m)
    (hins : ∀ a b m s, Good m → ∃ q s', k.insert d a b m s = some (q, s') ∧ match q with
      | .unwound m' => Cut m a b m'
      | .done y => Good y.1 ∧ ∀ es, plain m ((a, b) :: es) = plain y.1 es) :
    ∀ (es : List (K × V)) (m : M) (s : σ), Good m →
      ∃ q s', k.extend d dv m es s = some (q, s') ∧ match q with
        | .unwound m' => ∃ l1 e l2, es = l1 ++ e :: l2 ∧
            ((∃ m1, plain m l1 = some m1 ∧ Cut m1 e.1 e.2 m') ∨
              plain m (l1 ++ [e]) = some m' ∧ Rude dv)
        | .done m' => plain m es = some m'
  | [], m, s, hm => ⟨_, _, rfl, h0 _⟩
  | (a, b) :: es, m, s, hm => by
    obtain ⟨q, s', e, hq⟩ := hins a b m s hm
    simp only [Kit.extend, extendW, e]
    rcases q with m' | ⟨m', o⟩
    · exact ⟨_, _, rfl, [], (a, b), es, rfl, .inl ⟨m, h0 m, hq⟩⟩
    · dsimp only
      rcases hd : dropOpt dv o s' with ⟨_ | _, s2⟩
      · obtain ⟨q, s3, e2, h2⟩ := extend_prefix (dv := dv) h0 hins es m' s2 hq.1
        refine ⟨q, s3, e2, ?_⟩
        rcases q with m2 | m2
        · obtain ⟨l1, x, l2, rfl, h3⟩ := h2
          refine ⟨(a, b) :: l1, x, l2, rfl, ?_⟩
          rcases h3 with ⟨m1, h3, h4⟩ | ⟨h3, h4⟩
          · exact .inl ⟨m1, by rw [hq.2, h3], h4⟩
          · exact .inr ⟨by rw [List.cons_append, hq.2, h3], h4⟩
        · dsimp only at h2 ⊢
          rw [hq.2, h2]
      · exact ⟨_, _, rfl, [], (a, b), es, rfl, .inr ⟨by
          rw [List.nil_append, hq.2, h0], rude_of_dropOpt hd⟩⟩

end Verif.Drop

namespace Verif.Fixed.Raw
open Verif.BTree Verif.BTree.Node
variable {α K V : Type}

mutual
/-- The slots of a node of the other model. -/
def Ref.Fits : Ref α → Node K V → Prop
  | .mk _ _ es ks, .mk es' ks' => es.length = es'.length ∧ FitsAll ks ks'
def FitsAll : List (Ref α) → List (Node K V) → Prop
  | [], [] => True
  | c :: ks, c' :: ks' => c.Fits c' ∧ FitsAll ks ks'
  | _, _ => False
end

theorem FitsAll.length : ∀ {ks : List (Ref α)} {ks' : List (Node K V)}, FitsAll ks ks' →
    ks.length = ks'.length
  | [], [], _ => rfl
  | c :: ks, c' :: ks', h => by
    rw [FitsAll] at h
    rw [List.length_cons, List.length_cons, h.2.length]
  | [], _ :: _, h => by simp [FitsAll] at h
  | _ :: _, [], h => by simp [FitsAll] at h

theorem FitsAll.shape {P : Node K V → Prop} (hP : ∀ {r : Ref α} {n : Node K V}, P n → r.Fits n → r.Shape) :
    ∀ {ks : List (Ref α)} {ks' : List (Node K V)}, (∀ c ∈ ks', P c) → FitsAll ks ks' → ShapeAll ks
  | [], _, _, _ => trivial
  | c :: ks, c' :: ks', hk, h => by
    rw [FitsAll] at h
    rw [ShapeAll]
    exact ⟨hP (hk c' (by simp)) h.1, FitsAll.shape hP (fun c hc => hk c (by simp [hc])) h.2⟩
  | _ :: _, [], _, h => by simp [FitsAll] at h

theorem Ref.Fits.shape {N : Nat} : ∀ {h lo : Nat} {r : Ref α} {n : Node K V}, Ok N lo h n → r.Fits n →
    r.Shape
  | 0, lo, .mk id own es ks, .mk es' ks', ho, hf => by
    rw [Ref.Fits] at hf
    have hk : ks = [] := by
      have := hf.2.length
      rw [ho.1] at this
      exact List.length_eq_zero_iff.1 this
    subst hk
    rw [Ref.Shape]
    exact ⟨.inl rfl, trivial⟩
  | h + 1, lo, .mk id own es ks, .mk es' ks', ho, hf => by
    rw [Ref.Fits] at hf
    rw [Ref.Shape]
    exact ⟨.inr (by rw [hf.2.length, hf.1]; exact ho.1),
      FitsAll.shape (P := Ok N N h) (fun hc hf => hf.shape hc) ho.2.2.2 hf.2⟩

end Verif.Fixed.Raw
