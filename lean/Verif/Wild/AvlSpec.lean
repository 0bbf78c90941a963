import Verif.Wild.Avl
/-!
# What a lawless comparison can and cannot do to `AvlMap`
-/
set_option linter.unusedVariables false
namespace Verif.Avl
open Verif.Wild
universe w
variable {σ : Type w} {K V : Type}

namespace Tree
variable (c : Cmp σ K)

/-! ### Lookup -/

theorem getW_spec : ∀ (t : Tree K V) (s : σ),
    match (getW c t s).1 with
    | .unwound _ => Panics c t.toList
    | .done e => Found c t.toList e
  | nil, s => by simp [getW, Found]
  | node k v lh rh l r, s => by
    rw [getW]
    rcases h : c k s with ⟨_ | o, s'⟩
    · exact ⟨(k, v), by simp [toList], s, by rw [h]⟩
    · have hl := getW_spec l s'
      have hr := getW_spec r s'
      cases o with
      | eq =>
        rintro x ⟨⟩
        exact ⟨by simp [toList], s, by rw [h]⟩
      | lt =>
        dsimp only
        generalize (getW c l s').1 = x at hl ⊢
        cases x with
        | unwound => exact Panics.mono hl (by simp +contextual [toList])
        | done e => exact fun y hy => ⟨by simp [toList, (hl y hy).1], (hl y hy).2⟩
      | gt =>
        dsimp only
        generalize (getW c r s').1 = x at hr ⊢
        cases x with
        | unwound => exact Panics.mono hr (by simp +contextual [toList])
        | done e => exact fun y hy => ⟨by simp [toList, (hr y hy).1], (hr y hy).2⟩

theorem getMutW_spec (g : V → V) : ∀ (t : Tree K V), Bal t → ∀ s : σ,
    match (getMutW c g t s).1 with
    | .unwound t' => t' = t ∧ Panics c t.toList
    | .done (t', b) => Bal t' ∧ height t' = height t ∧ Wrote c g t.toList b t'.toList ∧
        (b = false → t' = t)
  | nil, _, s => by simp [getMutW, Wrote, Bal]
  | node k v lh rh l r, hb, s => by
    obtain ⟨h1, h2, h3, h4, hl, hr⟩ := hb
    rw [getMutW]
    rcases h : c k s with ⟨_ | o, s'⟩
    · exact ⟨rfl, (k, v), by simp [toList], s, by rw [h]⟩
    · have il := getMutW_spec g l hl s'
      have ir := getMutW_spec g r hr s'
      cases o with
      | eq =>
        exact ⟨⟨h1, h2, h3, h4, hl, hr⟩, rfl, ⟨toList l, (k, v), toList r, rfl, rfl, s, by rw [h]⟩,
          by simp⟩
      | lt =>
        dsimp only
        rcases e : getMutW c g l s' with ⟨t' | ⟨t', b⟩, s''⟩
        · rw [e] at il
          obtain ⟨rfl, hp⟩ := il
          exact ⟨rfl, Panics.mono hp (by simp +contextual [toList])⟩
        · rw [e] at il
          obtain ⟨i1, i2, i3, i4⟩ := il
          refine ⟨⟨by rw [i2, h1], h2, h3, h4, i1, hr⟩, rfl, ?_, fun hb => by rw [i4 hb]⟩
          simpa [toList] using i3.ctx [] ((k, v) :: toList r)
      | gt =>
        dsimp only
        rcases e : getMutW c g r s' with ⟨t' | ⟨t', b⟩, s''⟩
        · rw [e] at ir
          obtain ⟨rfl, hp⟩ := ir
          exact ⟨rfl, Panics.mono hp (by simp +contextual [toList])⟩
        · rw [e] at ir
          obtain ⟨i1, i2, i3, i4⟩ := ir
          refine ⟨⟨h1, by rw [i2, h2], h3, h4, hl, i1⟩, rfl, ?_, fun hb => by rw [i4 hb]⟩
          simpa [toList] using i3.ctx (toList l ++ [(k, v)]) []

/-! ### Insertion -/

theorem insW_spec (k : K) (v : V) : ∀ t : Tree K V, Bal t → ∀ s : σ,
    ∃ r s', insW c k v t s = some (r, s') ∧
      match r with
      | .unwound t' => t' = t ∧ Panics c t.toList
      | .done (t', old, tl) => Bal t' ∧ height t' = height t + (if tl then 1 else 0) ∧
          (tl = true → height t' = 1 ∨ balOf t' ≠ 0) ∧ Put c k v t.toList old t'.toList
  | nil, _, s => ⟨.done (mk k v nil nil, none, true), s, rfl, by simp [mk, Bal],
      by simp [mk, height_node], by simp [mk, height_node], [], [], rfl, rfl⟩
  | node nk nv lh rh l r, hb, s => by
    obtain ⟨h1, h2, h3, h4, hl, hr⟩ := hb
    rw [insW]
    rcases h : c nk s with ⟨_ | o, s'⟩
    · exact ⟨_, _, rfl, rfl, (nk, nv), by simp [toList], s, by rw [h]⟩
    · cases o with
      | eq =>
        exact ⟨_, _, rfl, ⟨h1, h2, h3, h4, hl, hr⟩, by simp [height_node], by simp,
          toList l, nk, toList r, rfl, rfl, s, by rw [h]⟩
      | lt =>
        obtain ⟨x, s'', e, hx⟩ := insW_spec k v l hl s'
        simp only [e]
        rcases x with l' | ⟨l', old, tl⟩
        · obtain ⟨rfl, hp⟩ := hx
          exact ⟨_, _, rfl, rfl, Panics.mono hp (by simp +contextual [toList])⟩
        · obtain ⟨hB, hH, hT, hP⟩ := hx
          obtain ⟨t', tl', e', hB', hL', hH', hT'⟩ := afterInsLf_spec (k := nk) (v := nv) hB hr
            (lh := lh) (rh := rh) (tl := tl) (by rw [hH, h1]) h2 h3 h4 hT
          simp only [e', Option.map_some]
          refine ⟨_, _, rfl, hB', by rw [hH']; simp [height_node], fun h => Or.inr (hT' h), ?_⟩
          rw [hL']
          simpa [toList] using hP.ctx [] ((nk, nv) :: toList r)
      | gt =>
        obtain ⟨x, s'', e, hx⟩ := insW_spec k v r hr s'
        simp only [e]
        rcases x with r' | ⟨r', old, tl⟩
        · obtain ⟨rfl, hp⟩ := hx
          exact ⟨_, _, rfl, rfl, Panics.mono hp (by simp +contextual [toList])⟩
        · obtain ⟨hB, hH, hT, hP⟩ := hx
          obtain ⟨t', tl', e', hB', hL', hH', hT'⟩ := afterInsRt_spec (k := nk) (v := nv) hl hB
            (lh := lh) (rh := rh) (tl := tl) h1 (by rw [hH, h2]) h3 h4 hT
          simp only [e', Option.map_some]
          refine ⟨_, _, rfl, hB', by rw [hH']; simp [height_node], fun h => Or.inr (hT' h), ?_⟩
          rw [hL']
          simpa [toList] using hP.ctx (toList l ++ [(nk, nv)]) []

/-! ### Removal -/

theorem rmHere_spec {k : K} {v : V} {lh rh : Int} {l r : Tree K V}
    (hb : Bal (node k v lh rh l r)) :
    ∃ t' sh, rmHere k v lh rh l r = some (t', some (k, v), sh) ∧ Bal t' ∧
      height t' = max lh rh + 1 - (if sh then 1 else 0) ∧ toList t' = toList l ++ toList r := by
  obtain ⟨h1, h2, h3, h4, hl, hr⟩ := hb
  have hl0 := height_nonneg hl
  have hr0 := height_nonneg hr
  cases r with
  | nil =>
    cases l with
    | nil => exact ⟨_, _, rfl, trivial, by simp at h1 h2 ⊢; omega, rfl⟩
    | node =>
      have : rh = 0 := h2
      exact ⟨_, true, rfl, hl, by rw [← h1, if_pos rfl]; omega, by simp [toList]⟩
  | node rk rv rlh rrh rl rr =>
    cases l with
    | nil =>
      have : lh = 0 := h1
      exact ⟨_, true, rfl, hr, by rw [← h2, if_pos rfl]; omega, by simp [toList]⟩
    | node lk lv llh lrh ll lr =>
      obtain ⟨r', kv, sh, e, hB, hH⟩ := rmLeftmost_shape _ hr
      obtain ⟨hc1, hc⟩ := rmLeftmost_toList e
      obtain ⟨⟨sk, sv⟩, rest, hcons⟩ : ∃ x L, toList (node rk rv rlh rrh rl rr) = x :: L := by
        simp only [toList]; cases toList rl <;> simp
      rw [hcons] at hc hc1
      simp only [List.head?_cons] at hc
      subst hc
      obtain ⟨t2, sh2, e2, hB2, hH2⟩ := afterRmRt_spec (k := sk) (v := sv) hl hB
        (lh := lh) (rh := rh) (sh := sh) h1 (by rw [hH, ← h2]) h3 h4
      refine ⟨t2, sh2, by simp only [rmHere, e, e2, Option.map_some], hB2, hH2, ?_⟩
      rw [afterRmRt_toList e2, hc1, hcons]; rfl

theorem rmW_spec : ∀ t : Tree K V, Bal t → ∀ s : σ,
    ∃ r s', rmW c t s = some (r, s') ∧
      match r with
      | .unwound t' => t' = t ∧ Panics c t.toList
      | .done (t', kv, sh) => Bal t' ∧ height t' = height t - (if sh then 1 else 0) ∧
          Cut c t.toList kv t'.toList
  | nil, h, s => ⟨.done (nil, none, false), s, rfl, h, by simp, rfl⟩
  | node k v lh rh l r, hb, s => by
    have hb' := hb
    obtain ⟨h1, h2, h3, h4, hl, hr⟩ := hb
    rw [rmW]
    rcases h : c k s with ⟨_ | o, s'⟩
    · exact ⟨_, _, rfl, rfl, (k, v), by simp [toList], s, by rw [h]⟩
    · cases o with
      | eq =>
        obtain ⟨t', sh, e, b1, b2, b3⟩ := rmHere_spec hb'
        simp only [e, Option.map_some]
        exact ⟨_, _, rfl, b1, by rw [b2]; simp [height_node], toList l, toList r, rfl, b3, s, by rw [h]⟩
      | lt =>
        obtain ⟨x, s'', e, hx⟩ := rmW_spec l hl s'
        simp only [e]
        rcases x with l' | ⟨l', kv, sh⟩
        · obtain ⟨rfl, hp⟩ := hx
          exact ⟨_, _, rfl, rfl, Panics.mono hp (by simp +contextual [toList])⟩
        · obtain ⟨hB, hH, hP⟩ := hx
          obtain ⟨t2, sh2, e2, hB2, hH2⟩ := afterRmLf_spec (k := k) (v := v) hB hr
            (lh := lh) (rh := rh) (sh := sh) (by rw [hH, ← h1]) h2 h3 h4
          simp only [e2, Option.map_some]
          refine ⟨_, _, rfl, hB2, by simpa using hH2, ?_⟩
          rw [afterRmLf_toList e2]
          simpa [toList] using hP.ctx [] ((k, v) :: toList r)
      | gt =>
        obtain ⟨x, s'', e, hx⟩ := rmW_spec r hr s'
        simp only [e]
        rcases x with r' | ⟨r', kv, sh⟩
        · obtain ⟨rfl, hp⟩ := hx
          exact ⟨_, _, rfl, rfl, Panics.mono hp (by simp +contextual [toList])⟩
        · obtain ⟨hB, hH, hP⟩ := hx
          obtain ⟨t2, sh2, e2, hB2, hH2⟩ := afterRmRt_spec (k := k) (v := v) hl hB
            (lh := lh) (rh := rh) (sh := sh) h1 (by rw [hH, ← h2]) h3 h4
          simp only [e2, Option.map_some]
          refine ⟨_, _, rfl, hB2, by simpa using hH2, ?_⟩
          rw [afterRmRt_toList e2]
          simpa [toList] using hP.ctx (toList l ++ [(k, v)]) []

/-! ### Splitting and merging -/

theorem splitW_spec : ∀ t : Tree K V, Bal t → ∀ s : σ,
    ∃ r s', splitW c t s = some (r, s') ∧
      match r with
      | none => Panics c t.toList
      | some (l, kv, r) => Bal l ∧ Bal r ∧ toList t = toList l ++ (kv.toList ++ toList r) ∧
          (∀ e, kv = some e → Equals c e.1)
  | nil, h, s => ⟨some (nil, none, nil), s, rfl, trivial, trivial, rfl, by simp⟩
  | node k v lh rh l r, hb, s => by
    obtain ⟨h1, h2, h3, h4, hl, hr⟩ := hb
    rw [splitW]
    rcases h : c k s with ⟨_ | o, s'⟩
    · exact ⟨_, _, rfl, (k, v), by simp [toList], s, by rw [h]⟩
    · cases o with
      | eq =>
        refine ⟨_, _, rfl, hl, hr, rfl, ?_⟩
        rintro e ⟨⟩; exact ⟨s, by rw [h]⟩
      | lt =>
        obtain ⟨x, s'', e, hx⟩ := splitW_spec l hl s'
        simp only [e]
        rcases x with _ | ⟨l1, kv, r1⟩
        · exact ⟨_, _, rfl, Panics.mono hx (by simp +contextual [toList])⟩
        · obtain ⟨b1, b2, b3, b4⟩ := hx
          obtain ⟨t, e', hB, -⟩ := join_shape r1 k v r b2 hr
          simp only [e', Option.map_some]
          refine ⟨_, _, rfl, b1, hB, ?_, b4⟩
          simp [toList, b3, join_toList e']
      | gt =>
        obtain ⟨x, s'', e, hx⟩ := splitW_spec r hr s'
        simp only [e]
        rcases x with _ | ⟨l1, kv, r1⟩
        · exact ⟨_, _, rfl, Panics.mono hx (by simp +contextual [toList])⟩
        · obtain ⟨b1, b2, b3, b4⟩ := hx
          obtain ⟨t, e', hB, -⟩ := join_shape l k v l1 hl b1
          simp only [e', Option.map_some]
          refine ⟨_, _, rfl, hB, b2, ?_, b4⟩
          simp [toList, b3, join_toList e']

/-- What a merge makes of the entries: some of the left ones (`A`) and some of the right ones
(`B`) are taken to be alone, and the others are matched in pairs (`M`) that compared equal. -/
def Merged (keepL keepR : Bool) (dec : K × V → K × V → Option (K × V)) (c : K → Cmp σ K)
    (L R out : List (K × V)) : Prop :=
  ∃ (A B : List (K × V)) (M : List ((K × V) × (K × V))),
    (A ++ M.map (·.1)).Perm L ∧ (B ++ M.map (·.2)).Perm R ∧
    ((if keepL then A else []) ++ ((if keepR then B else []) ++
      M.filterMap (fun x => dec x.1 x.2))).Perm out ∧
    ∀ x ∈ M, Equals (c x.1.1) x.2.1

theorem perm2 {α : Type _} {a1 a2 m1 m2 x1 x2 : List α} (h1 : (a1 ++ m1).Perm x1)
    (h2 : (a2 ++ m2).Perm x2) : ((a1 ++ a2) ++ (m1 ++ m2)).Perm (x1 ++ x2) := by
  refine List.Perm.trans ?_ (h1.append h2)
  simp only [List.append_assoc]
  exact List.Perm.append_left a1 (List.perm_append_comm_assoc _ _ _)

theorem Merged.append {keepL keepR : Bool} {dec : K × V → K × V → Option (K × V)}
    {c : K → Cmp σ K} {L R out L' R' out' : List (K × V)}
    (h : Merged keepL keepR dec c L R out) (h' : Merged keepL keepR dec c L' R' out') :
    Merged keepL keepR dec c (L ++ L') (R ++ R') (out ++ out') := by
  obtain ⟨A, B, M, h1, h2, h3, h4⟩ := h
  obtain ⟨A', B', M', h1', h2', h3', h4'⟩ := h'
  refine ⟨A ++ A', B ++ B', M ++ M', by simpa using perm2 h1 h1', by simpa using perm2 h2 h2',
    ?_, ?_⟩
  · refine List.Perm.trans ?_ (perm2 h3 h3')
    have e : ∀ (b : Bool) (x y : List (K × V)), (if b = true then x ++ y else []) =
        (if b = true then x else []) ++ (if b = true then y else []) := by
      intro b x y; cases b <;> rfl
    rw [e, e, List.filterMap_append]
    exact List.Perm.append_left _ (perm2 (List.Perm.refl _) (List.Perm.refl _))
  · intro x hx
    rcases List.mem_append.1 hx with hx | hx
    · exact h4 x hx
    · exact h4' x hx

theorem mergeW_spec (keepL keepR : Bool) (dec : K × V → K × V → Option (K × V)) (c : K → Cmp σ K) :
    ∀ (t1 t2 : Tree K V), Bal t1 → Bal t2 → ∀ s : σ,
      ∃ r s', mergeW keepL keepR dec c t1 t2 s = some (r, s') ∧
        match r with
        | none => ∃ e ∈ t1.toList, Panics (c e.1) t2.toList
        | some t => Bal t ∧ Merged keepL keepR dec c t1.toList t2.toList t.toList
  | nil, t2, _, h2, s => by
    refine ⟨some (if keepR then t2 else nil), s, by rw [mergeW], ?_, [], t2.toList, [],
      by simp [toList], by simp, ?_, by simp⟩
    · cases keepR
      · trivial
      · exact h2
    · cases keepR <;> simp [toList]
  | node k v lh rh l r, nil, h1, _, s => by
    refine ⟨some (if keepL then node k v lh rh l r else nil), s, by rw [mergeW], ?_,
      (node k v lh rh l r).toList, [], [], by simp, by simp [toList], ?_, by simp⟩
    · cases keepL
      · trivial
      · exact h1
    · cases keepL <;> simp [toList]
  | node k v lh rh l r, node k2 v2 lh2 rh2 l2 r2, h1, h2, s => by
    rw [mergeW]
    obtain ⟨x, s1, e1, hx⟩ := splitW_spec (c k) _ h2 s
    generalize node k2 v2 lh2 rh2 l2 r2 = t2 at h2 e1 hx ⊢
    obtain ⟨-, -, -, -, hl, hr⟩ := h1
    simp only [e1]
    rcases x with _ | ⟨lt, kv2, gt⟩
    · exact ⟨_, _, rfl, (k, v), by simp [toList], hx⟩
    · obtain ⟨b1, b2, b3, b4⟩ := hx
      obtain ⟨y, s2, e2, hy⟩ := mergeW_spec keepL keepR dec c l lt hl b1 s1
      simp only [e2]
      rcases y with _ | l'
      · obtain ⟨e, he, hp⟩ := hy
        exact ⟨_, _, rfl, e, by simp [toList, he], hp.mono (by rw [b3]; simp +contextual)⟩
      · obtain ⟨z, s3, e3, hz⟩ := mergeW_spec keepL keepR dec c r gt hr b2 s2
        simp only [e3]
        rcases z with _ | r'
        · obtain ⟨e, he, hp⟩ := hz
          exact ⟨_, _, rfl, e, by simp [toList, he], hp.mono (by rw [b3]; simp +contextual)⟩
        · obtain ⟨t, e4, hB⟩ := join2_shape l' (resolve keepL dec (k, v) kv2) r' hy.1 hz.1
          simp only [e4, Option.map_some]
          refine ⟨_, _, rfl, hB, ?_⟩
          rw [join2_toList e4, b3, toList, List.append_assoc]
          refine hy.2.append ?_
          have mid : Merged keepL keepR dec c [(k, v)] kv2.toList (resolve keepL dec (k, v) kv2).toList := by
            cases kv2 with
            | none =>
              refine ⟨[(k, v)], [], [], by simp, by simp, ?_, by simp⟩
              cases keepL <;> simp [resolve]
            | some e2 =>
              refine ⟨[], [], [((k, v), e2)], by simp, by simp, ?_, ?_⟩
              · cases hd : dec (k, v) e2 <;> cases keepL <;> cases keepR <;> simp [hd, resolve]
              · intro x hx
                simp only [List.mem_singleton] at hx
                subst hx
                exact b4 e2 rfl
          exact mid.append hz.2

end Tree
open Tree

/-! ### The map -/

namespace AvlMap
variable (c : Cmp σ K)

/-- The part of the representation invariant that does not depend on the order of the keys. -/
structure Inv (m : AvlMap K V) : Prop where
  bal : m.root.Bal
  len_eq : m.len = m.abs.length

theorem WF.inv [Ord K] {m : AvlMap K V} (h : m.WF) : m.Inv := ⟨h.bal, h.len_eq⟩

theorem inv_new : (new : AvlMap K V).Inv := ⟨trivial, rfl⟩

theorem inv_size {t : Tree K V} (h : t.Bal) : (⟨t.size, t⟩ : AvlMap K V).Inv :=
  ⟨h, size_eq t⟩

theorem getW_spec (m : AvlMap K V) (s : σ) :
    match (m.getW c s).1 with
    | .unwound _ => Panics c m.abs
    | .done e => Found c m.abs e := Tree.getW_spec c m.root s

theorem getMutW_spec {m : AvlMap K V} (hm : m.Inv) (g : V → V) (s : σ) :
    match (m.getMutW c g s).1 with
    | .unwound m' => m' = m ∧ Panics c m.abs
    | .done (m', b) => m'.Inv ∧ Wrote c g m.abs b m'.abs ∧ (b = false → m' = m) := by
  have h := Tree.getMutW_spec c g m.root hm.bal s
  rw [getMutW]
  generalize Tree.getMutW c g m.root s = x at h ⊢
  rcases x with ⟨t | ⟨t, b⟩, s'⟩
  · obtain ⟨rfl, hp⟩ := h
    exact ⟨rfl, hp⟩
  · obtain ⟨h1, h2, h3, h4⟩ := h
    refine ⟨⟨h1, ?_⟩, h3, fun hb => by rw [h4 hb]⟩
    have := h3.length
    show m.len = t.toList.length
    rw [this]; exact hm.len_eq

theorem insertW_spec {m : AvlMap K V} (hm : m.Inv) (k : K) (v : V) (s : σ) :
    ∃ r s', m.insertW c k v s = some (r, s') ∧
      match r with
      | .unwound m' => m' = m ∧ Panics c m.abs
      | .done (m', o) => m'.Inv ∧ Put c k v m.abs o m'.abs := by
  obtain ⟨r, s', e, hr⟩ := Tree.insW_spec c k v m.root hm.bal s
  simp only [insertW, e]
  rcases r with t | ⟨t, o, b⟩
  · obtain ⟨rfl, hp⟩ := hr
    exact ⟨_, _, rfl, rfl, hp⟩
  · obtain ⟨h1, h2, h3, h4⟩ := hr
    refine ⟨_, _, rfl, ⟨h1, ?_⟩, h4⟩
    show m.len + _ = t.toList.length
    rw [h4.length, hm.len_eq]; rfl

theorem removeW_spec {m : AvlMap K V} (hm : m.Inv) (s : σ) :
    ∃ r s', m.removeW c s = some (r, s') ∧
      match r with
      | .unwound m' => m' = m ∧ Panics c m.abs
      | .done (m', e) => m'.Inv ∧ Cut c m.abs e m'.abs := by
  obtain ⟨r, s', e, hr⟩ := Tree.rmW_spec c m.root hm.bal s
  simp only [removeW, e]
  rcases r with t | ⟨t, kv, b⟩
  · obtain ⟨rfl, hp⟩ := hr
    exact ⟨_, _, rfl, rfl, hp⟩
  · obtain ⟨h1, h2, h3⟩ := hr
    have hl := h3.length
    have hm' := hm.len_eq
    have hm'' : m.len = m.root.toList.length := hm'
    cases kv with
    | none => exact ⟨_, _, rfl, ⟨h1, by simp at hl; show m.len = t.toList.length; omega⟩, h3⟩
    | some kv =>
      simp only [Option.isSome_some, if_true] at hl
      have h0 : m.len ≠ 0 := by omega
      refine ⟨.done (⟨m.len - 1, t⟩, some kv), s', by simp [popWith, h0], ⟨h1, ?_⟩, h3⟩
      show m.len - 1 = t.toList.length
      omega

theorem appendW_spec {m other : AvlMap K V} (hm : m.Inv) (ho : other.Inv) (c : K → Cmp σ K) (s : σ) :
    ∃ r s', m.appendW other c s = some (r, s') ∧
      match r with
      | .unwound (m', o') => m' = ⟨m.len, .nil⟩ ∧ o' = ⟨other.len, .nil⟩ ∧
          ∃ e ∈ m.abs, Panics (c e.1) other.abs
      | .done (m', o') => m'.Inv ∧ o' = new ∧
          Merged true true (fun _ r => some r) c m.abs other.abs m'.abs := by
  obtain ⟨r, s', e, hr⟩ := mergeW_spec true true (fun _ r => some r) c m.root other.root hm.bal ho.bal s
  simp only [appendW, e]
  rcases r with _ | t
  · exact ⟨_, _, rfl, rfl, rfl, hr⟩
  · exact ⟨_, _, rfl, inv_size hr.1, rfl, hr.2⟩

theorem newMergeW_spec {l r : AvlMap K V} (hl : l.Inv) (hr : r.Inv) (keepL keepR : Bool)
    (dec : K × V → K × V → Option (K × V)) (c : K → Cmp σ K) (s : σ) :
    ∃ x s', newMergeW keepL keepR dec l r c s = some (x, s') ∧
      match x with
      | .unwound _ => ∃ e ∈ l.abs, Panics (c e.1) r.abs
      | .done m => m.Inv ∧ Merged keepL keepR dec c l.abs r.abs m.abs := by
  obtain ⟨x, s', e, hx⟩ := mergeW_spec keepL keepR dec c l.root r.root hl.bal hr.bal s
  simp only [newMergeW, e]
  rcases x with _ | t
  · exact ⟨_, _, rfl, hx⟩
  · exact ⟨_, _, rfl, inv_size hx.1, hx.2⟩

theorem splitOffW_spec {m : AvlMap K V} (hm : m.Inv) (ck : K → Cmp σ K) (s : σ) :
    ∃ r s', m.splitOffW c ck s = some (r, s') ∧
      match r with
      | .unwound m' => (m' = ⟨m.len, .nil⟩ ∧ Panics c m.abs) ∨
          (m'.Inv ∧ ∃ e L, m.abs = m'.abs ++ e :: L ∧ Panics (ck e.1) L)
      | .done (a, b) => a.Inv ∧ b.root.Bal ∧
          ((b.Inv ∧ m.abs = a.abs ++ b.abs) ∨
            ∃ e L o, m.abs = a.abs ++ e :: L ∧ Equals c e.1 ∧ Put (ck e.1) e.1 e.2 L o b.abs ∧
              b.len = L.length + 1) := by
  obtain ⟨x, s', e, hx⟩ := splitW_spec c m.root hm.bal s
  have hm' : m.len = m.root.toList.length := hm.len_eq
  simp only [splitOffW, e]
  rcases x with _ | ⟨lhs, kv, rhs⟩
  · exact ⟨_, _, rfl, .inl ⟨rfl, hx⟩⟩
  · obtain ⟨b1, b2, b3, b4⟩ := hx
    have hsz := size_eq lhs
    have hlen := congrArg List.length b3
    simp only [List.length_append] at hlen
    have hlt : ¬ m.len < lhs.size := by omega
    simp only [if_neg hlt]
    rcases kv with _ | ⟨k, v⟩
    · simp only [Option.toList_none, List.nil_append, List.length_nil] at hlen b3
      refine ⟨_, _, rfl, inv_size b1, b2, .inl ⟨⟨b2, ?_⟩, b3⟩⟩
      show m.len - lhs.size = rhs.toList.length
      omega
    · simp only [Option.toList_some, List.singleton_append, List.length_singleton] at hlen b3
      obtain ⟨y, s'', e', hy⟩ := insW_spec (ck k) k v rhs b2 s'
      simp only [e']
      rcases y with t | ⟨t, o, tl⟩
      · exact ⟨_, _, rfl, .inr ⟨inv_size b1, (k, v), rhs.toList, b3, hy.2⟩⟩
      · refine ⟨_, _, rfl, inv_size b1, hy.1, .inr ⟨(k, v), rhs.toList, o, b3, b4 _ rfl, hy.2.2.2, ?_⟩⟩
        show m.len - lhs.size = rhs.toList.length + 1
        omega

end AvlMap
end Verif.Avl
