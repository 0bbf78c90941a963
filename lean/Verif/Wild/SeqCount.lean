import Verif.Wild.Count
import Verif.Wild.Seq
/-!
# How many comparisons `retain` and `split_off` of `BTreeMap` make

Both insert the entries again, one by one (btree.rs:902-938).  The closure of `retain` and the
comparison `key > k` of `split_off` run on the same state; `d` bounds what a call of theirs adds.
-/
set_option linter.unusedVariables false
namespace Verif.BTree
open Verif.Wild Node
universe w
variable {σ : Type w} {K V : Type} {N : Nat} {μ : σ → Nat}
namespace BTreeMap

theorem retainLoopW_count {c : K → Cmp σ K} (hc : ∀ k, Ticks (c k) μ)
    {f : K → V → σ → Option (V × Bool) × σ} {d h : Nat} (hf : ∀ k v s, μ (f k v s).2 ≤ μ s + d) :
    ∀ (es : List (K × V)) {m : BTreeMap K V}, m.Inv N → m.len + es.length < 2 * (N + 1) ^ (h + 1) →
      ∀ s : σ, Upto μ (es.length * ((2 * N + 1) * (h + 1) + d)) s (retainLoopW N c f es m s)
  | [], m, hm, hh, s => .some (by omega)
  | e :: es, m, hm, hh, s => by
    simp only [List.length_cons] at hh ⊢
    rw [retainLoopW, Nat.succ_mul]
    have h1 := hf e.1 e.2 s
    rcases hx : f e.1 e.2 s with ⟨_ | ⟨v, _ | _⟩, s1⟩ <;> rw [hx] at h1 <;> simp only at h1 ⊢
    · exact .some (by omega)
    · intro r s' e2
      have := retainLoopW_count (h := h) hc hf es hm (by omega) s1 r s' e2
      omega
    · obtain ⟨x, s2, e2, hx2⟩ := insertW_spec N (c e.1) hm e.1 v s1
      have h2 := insertW_count (hc e.1) e.1 v (hm.low (h := h) (by omega)) s1 _ _ e2
      simp only [e2]
      rcases x with _ | ⟨m1, o1⟩
      · exact .some (by omega)
      · have := put_len hm hx2.1 hx2.2
        intro r s' e3
        have := retainLoopW_count (h := h) hc hf es hx2.1 (by omega) s2 r s' e3
        omega

theorem retainW_count (hN : 1 ≤ N) (o : Sharing K V) {c : K → Cmp σ K} (hc : ∀ k, Ticks (c k) μ)
    {f : K → V → σ → Option (V × Bool) × σ} {d h : Nat} (hf : ∀ k v s, μ (f k v s).2 ≤ μ s + d)
    {m : BTreeMap K V} (hm : m.Inv N) (hh : m.len < 2 * (N + 1) ^ (h + 1)) (s : σ) :
    Upto μ (m.len * ((2 * N + 1) * (h + 1) + d)) s (m.retainW N o c f s) := by
  have := retainLoopW_count hc hf m.abs (inv_new N) (h := h)
    (by rw [← hm.len]; simpa [new] using hh) s
  rw [← hm.len] at this
  simp only [retainW, intoList_inv hN hm]
  rcases e : retainLoopW N c f m.abs new s with _ | ⟨_ | _, s'⟩
  · exact .none
  · exact .some (this _ _ e)
  · exact .some (this _ _ e)

theorem splitLoopW_count {c : K → Cmp σ K} (hc : ∀ k, Ticks (c k) μ)
    {g : K → σ → Option Bool × σ} {d h : Nat} (hg : ∀ k s, μ (g k s).2 ≤ μ s + d) :
    ∀ (es : List (K × V)) {a b : BTreeMap K V}, a.Inv N → b.Inv N →
      a.len + es.length < 2 * (N + 1) ^ (h + 1) → b.len + es.length < 2 * (N + 1) ^ (h + 1) →
      ∀ s : σ, Upto μ (es.length * ((2 * N + 1) * (h + 1) + d)) s (splitLoopW N c g es a b s)
  | [], a, b, ha, hb, la, lb, s => .some (by omega)
  | e :: es, a, b, ha, hb, la, lb, s => by
    simp only [List.length_cons] at la lb ⊢
    rw [splitLoopW, Nat.succ_mul]
    have h1 := hg e.1 s
    rcases hx : g e.1 s with ⟨_ | _ | _, s1⟩ <;> rw [hx] at h1 <;> simp only at h1 ⊢
    · exact .some (by omega)
    · obtain ⟨x, s2, e2, hx2⟩ := insertW_spec N (c e.1) hb e.1 e.2 s1
      have h2 := insertW_count (hc e.1) e.1 e.2 (hb.low (h := h) (by omega)) s1 _ _ e2
      simp only [e2]
      rcases x with _ | ⟨m1, o1⟩
      · exact .some (by omega)
      · have := put_len hb hx2.1 hx2.2
        intro r s' e3
        have := splitLoopW_count (h := h) hc hg es ha hx2.1 (by omega) (by omega) s2 r s' e3
        omega
    · obtain ⟨x, s2, e2, hx2⟩ := insertW_spec N (c e.1) ha e.1 e.2 s1
      have h2 := insertW_count (hc e.1) e.1 e.2 (ha.low (h := h) (by omega)) s1 _ _ e2
      simp only [e2]
      rcases x with _ | ⟨m1, o1⟩
      · exact .some (by omega)
      · have := put_len ha hx2.1 hx2.2
        intro r s' e3
        have := splitLoopW_count (h := h) hc hg es hx2.1 hb (by omega) (by omega) s2 r s' e3
        omega

theorem splitOffW_count (hN : 1 ≤ N) (o : Sharing K V) {c : K → Cmp σ K} (hc : ∀ k, Ticks (c k) μ)
    {g : K → σ → Option Bool × σ} {d h : Nat} (hg : ∀ k s, μ (g k s).2 ≤ μ s + d)
    {m : BTreeMap K V} (hm : m.Inv N) (hh : m.len < 2 * (N + 1) ^ (h + 1)) (s : σ) :
    Upto μ (m.len * ((2 * N + 1) * (h + 1) + d)) s (m.splitOffW N o c g s) := by
  have hh' : (new : BTreeMap K V).len + m.abs.length < 2 * (N + 1) ^ (h + 1) := by
    rw [← hm.len]; simpa [new] using hh
  have := splitLoopW_count hc hg m.abs (inv_new N) (inv_new N) (h := h) hh' hh' s
  rw [← hm.len] at this
  simp only [splitOffW, intoList_inv hN hm]
  rcases e : splitLoopW N c g m.abs new new s with _ | ⟨_ | _, s'⟩
  · exact .none
  · exact .some (this _ _ e)
  · exact .some (this _ _ e)

end BTreeMap
end Verif.BTree
