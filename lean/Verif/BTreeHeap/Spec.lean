import Verif.BTreeHeap.Model
import Verif.Heap.Tac
/-!
# The node functions of `btree.rs` on reference-counted memory, against those on values

Each function, run on contents that stand for the node `nd`, does not panic if the function on
values does not, leaves the handles of everybody else alone, and returns contents that stand for
what `Verif.BTree.Model` computes from `nd`.
-/
namespace Verif.BTreeH
open Heap
open BTree (Node)
variable {K V β : Type}

mutual
/-- The value of a node. -/
def vt : Node K V → VT (ND K V)
  | .mk es ks => .node es (vts ks)
/-- The values of children. -/
def vts : List (Node K V) → List (VT (ND K V))
  | [] => []
  | c :: cs => vt c :: vts cs
end

theorem vts_map : ∀ ks : List (Node K V), vts ks = ks.map vt
  | [] => by simp [vts]
  | c :: cs => by simp [vts, vts_map cs]

@[simp] theorem vts_length (ks : List (Node K V)) : (vts ks).length = ks.length := by
  simp [vts_map]

theorem vt_mk (es : List (K × V)) (ks : List (Node K V)) : vt (.mk es ks) = .node es (vts ks) := by
  simp [vt]

theorem vt_eta (nd : Node K V) : vt nd = .node nd.elems (vts nd.kids) := by
  cases nd; simp [vt]

theorem dep_mk {d : Nat} {es : List (K × V)} {ks : List (Node K V)} :
    (vt (.mk es ks)).Dep (d + 1) ↔ ∀ c ∈ ks, (vt c).Dep d := by
  rw [vt_mk, vts_map]
  constructor
  · intro h c hc
    cases h with
    | node h => exact h _ (List.mem_map_of_mem hc)
  · intro h
    refine .node ?_
    intro t ht
    obtain ⟨c, hc, rfl⟩ := List.mem_map.1 ht
    exact h c hc

theorem dep_pos {d : Nat} {nd : Node K V} (h : (vt nd).Dep d) : ∃ d', d = d' + 1 := by
  rw [vt_eta] at h
  cases h with
  | node h => exact ⟨_, rfl⟩

theorem dep_kids {d : Nat} {nd : Node K V} (h : (vt nd).Dep (d + 1)) :
    ∀ c ∈ nd.kids, (vt c).Dep d := by
  cases nd
  exact dep_mk.1 h

/-! ## Lists of links -/

section
variable {P : Type}

theorem owns_append : ∀ {k1 k2 : List (Option Nat)} {t1 t2 : List (VT P)}, t1.length = k1.length →
    owns (k1 ++ k2) (t1 ++ t2) = owns k1 t1 + owns k2 t2
  | [], k2, [], t2, _ => by simp
  | k :: ks, k2, t :: ts, t2, h => by
    simp only [List.cons_append, owns_cons]
    rw [owns_append (by simpa using h), add_assoc]

theorem owns_get : ∀ {ks : List (Option Nat)} {ts : List (VT P)} {i : Nat} {k : Option Nat}
    {t : VT P}, ks[i]? = some k → ts[i]? = some t →
    owns ks ts = own k t + owns (ks.eraseIdx i) (ts.eraseIdx i)
  | [], _, i, k, t, h, _ => by simp at h
  | _ :: _, [], i, k, t, _, h => by simp at h
  | k0 :: ks, t0 :: ts, 0, k, t, h1, h2 => by
    simp at h1 h2; subst h1 h2; simp
  | k0 :: ks, t0 :: ts, i + 1, k, t, h1, h2 => by
    simp only [List.getElem?_cons_succ] at h1 h2
    simp only [owns_cons, List.eraseIdx_cons_succ]
    rw [owns_get h1 h2]; ac_rfl

theorem owns_set : ∀ {ks : List (Option Nat)} {ts : List (VT P)} {i : Nat} {k : Option Nat}
    {t : VT P}, i < ks.length → i < ts.length →
    owns (ks.set i k) (ts.set i t) = own k t + owns (ks.eraseIdx i) (ts.eraseIdx i)
  | [], _, i, k, t, h, _ => by simp at h
  | _ :: _, [], i, k, t, _, h => by simp at h
  | k0 :: ks, t0 :: ts, 0, k, t, h1, h2 => by simp
  | k0 :: ks, t0 :: ts, i + 1, k, t, h1, h2 => by
    simp only [List.set_cons_succ, owns_cons, List.eraseIdx_cons_succ]
    rw [owns_set (by simpa using h1) (by simpa using h2)]; ac_rfl

theorem owns_take_drop (i : Nat) {ks : List (Option Nat)} {ts : List (VT P)}
    (h : ts.length = ks.length) :
    owns ks ts = owns (ks.take i) (ts.take i) + owns (ks.drop i) (ts.drop i) := by
  rw [← owns_append (by simp [h]), List.take_append_drop, List.take_append_drop]

end

theorem vts_append (a b : List (Node K V)) : vts (a ++ b) = vts a ++ vts b := by simp [vts_map]
theorem vts_set (a : List (Node K V)) (i : Nat) (c : Node K V) :
    vts (a.set i c) = (vts a).set i (vt c) := by simp [vts_map, List.map_set]
theorem vts_take (a : List (Node K V)) (i : Nat) : vts (a.take i) = (vts a).take i := by
  simp [vts_map]
theorem vts_drop (a : List (Node K V)) (i : Nat) : vts (a.drop i) = (vts a).drop i := by
  simp [vts_map]
theorem vts_get (a : List (Node K V)) (i : Nat) : (vts a)[i]? = (a[i]?).map vt := by
  simp [vts_map]

/-! ## Contents -/

/-- Contents stand for a node (with the handles `owns x.kids (vts nd.kids)`). -/
structure Fits (x : HN K V) (nd : Node K V) : Prop where
  data : x.data = nd.elems
  len : nd.kids.length = x.kids.length

/-- What is required of a function on contents. -/
abbrev Turns (nd' : Node K V) (Q : β → Multiset (Handle (ND K V)) → Prop) :
    HN K V × β → Multiset (Handle (ND K V)) → Prop :=
  fun y L => ∃ L2, Fits y.1 nd' ∧ L = owns y.1.kids (vts nd'.kids) + L2 ∧ Q y.2 L2

theorem mutArc_spec {D a : Nat} {c c' : Node K V} {f : HN K V → Prog (ND K V) (HN K V × β)}
    {Q : β → Multiset (Handle (ND K V)) → Prop} {G : Multiset (Handle (ND K V))}
    (hd : (vt c).Dep D)
    (hf : ∀ x, Fits x c → wp (f x) (owns x.kids (vts c.kids) + G) (Turns c' Q)) :
    wp (mutArc D a f) (own (some a) (vt c) + G) (fun y L => ∃ L2,
      L = uown y.1 (vt c') + L2 ∧ Q y.2 L2) := by
  unfold mutArc
  rw [vt_eta] at hd ⊢
  wcall wp_makeMut hd
  rintro a' _ rfl
  wcall open_spec
  rintro _ _ ⟨ks, rfl, hl, rfl⟩
  have hg := hf ⟨c.elems, ks⟩ ⟨rfl, by simpa using hl⟩
  dsimp only at hg
  wcall hg
  rintro ⟨⟨es', ks'⟩, y⟩ _ ⟨L2, hfit, rfl, hq⟩
  dsimp only
  have hl' : (vts c'.kids).length = ks'.length := by simpa using hfit.len
  wcall close_spec hl'
  rintro _ _ rfl
  refine wp_pure ⟨L2, ?_, hq⟩
  have := hfit.data
  simp only at this
  rw [vt_eta, this]

theorem mutKid_spec {D i : Nat} {ks : List (Option Nat)} {kt : List (Node K V)} {c c' : Node K V}
    {f : HN K V → Prog (ND K V) (HN K V × β)} {Q : β → Multiset (Handle (ND K V)) → Prop}
    {G : Multiset (Handle (ND K V))}
    (hl : kt.length = ks.length) (hc : kt[i]? = some c) (hd : (vt c).Dep D)
    (hf : ∀ x, Fits x c → wp (f x) (owns x.kids (vts c.kids) + G) (Turns c' Q)) :
    wp (mutKid D ks i f) (owns ks (vts kt) + G) (fun y L => ∃ L2,
      y.1.length = ks.length ∧ L = owns y.1 (vts (kt.set i c')) + L2 ∧ Q y.2 L2) := by
  have hi : i < kt.length := (List.getElem?_eq_some_iff.1 hc).1
  have hk : ks[i]? = some ks[i] := List.getElem?_eq_getElem (by omega)
  have ht : (vts kt)[i]? = some (vt c) := by rw [vts_get, hc]; rfl
  refine wp_own_cases (r := ks[i]) (t := vt c)
    (owns (ks.eraseIdx i) ((vts kt).eraseIdx i) + G) (by rw [owns_get hk ht]; ac_rfl) ?_ ?_
  · intro _ h; rw [vt_eta] at h; cases h
  · intro a q ts ha h
    rw [← h]
    unfold mutKid
    rw [hk, ha]
    dsimp only [Option.join_some]
    wcall mutArc_spec hd hf
    rintro ⟨a', y⟩ _ ⟨L2, rfl, hq⟩
    dsimp only
    refine wp_forget (a := a') (t := vt c') (L2 + owns (ks.eraseIdx i) ((vts kt).eraseIdx i))
      (by ac_rfl) ?_
    refine wp_pure ⟨L2, by simp, ?_, hq⟩
    rw [vts_set, owns_set (by omega) (by simpa using hi)]
    ac_rfl

theorem mutKid_spec0 {D i : Nat} {ks : List (Option Nat)} {kt : List (Node K V)} {c c' : Node K V}
    {f : HN K V → Prog (ND K V) (HN K V × β)} {Q : β → Multiset (Handle (ND K V)) → Prop}
    (hl : kt.length = ks.length) (hc : kt[i]? = some c) (hd : (vt c).Dep D)
    (hf : ∀ x, Fits x c → wp (f x) (owns x.kids (vts c.kids)) (Turns c' Q)) :
    wp (mutKid D ks i f) (owns ks (vts kt)) (fun y L => ∃ L2,
      y.1.length = ks.length ∧ L = owns y.1 (vts (kt.set i c')) + L2 ∧ Q y.2 L2) := by
  have := mutKid_spec (G := 0) hl hc hd (Q := Q) (f := f) (c' := c')
    (fun x hx => by rw [add_zero]; exact hf x hx)
  rwa [add_zero] at this

theorem kidLen_spec {i : Nat} {ks : List (Option Nat)} {kt : List (Node K V)} {c : Node K V}
    (hl : kt.length = ks.length) (hc : kt[i]? = some c) :
    wp (kidLen (K := K) (V := V) ks i) (owns ks (vts kt)) (fun y L =>
      y = c.elems.length ∧ L = owns ks (vts kt)) := by
  have hi : i < kt.length := (List.getElem?_eq_some_iff.1 hc).1
  have hk : ks[i]? = some ks[i] := List.getElem?_eq_getElem (by omega)
  have ht : (vts kt)[i]? = some (vt c) := by rw [vts_get, hc]; rfl
  have e := owns_get hk ht
  refine wp_own_cases (r := ks[i]) (t := vt c)
    (owns (ks.eraseIdx i) ((vts kt).eraseIdx i)) e ?_ ?_
  · intro _ h; rw [vt_eta] at h; cases h
  · intro a q ts ha h
    rw [ha, h] at e
    unfold kidLen
    rw [hk, ha]
    dsimp only [Option.join_some]
    wcall read_spec (u := false) (p := q) (ts := ts) (t := .node q ts) (by simp [VT.sub])
    rintro n _ ⟨h1, h2, h3, rfl⟩
    refine wp_pure ⟨?_, e.symm⟩
    rw [vt_eta] at h
    cases h
    rw [h1]

end Verif.BTreeH
