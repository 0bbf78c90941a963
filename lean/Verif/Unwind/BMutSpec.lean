import Verif.Unwind.BMut
/-!
# Mutable iteration over a `BTreeMap` when `Clone` panics: proofs
-/
set_option linter.unusedVariables false
set_option linter.unusedSectionVars false
namespace Verif.Unwind
open Verif.Wild
universe w
variable {σ : Type w} {K V : Type}

/-- What has been yielded is in order from both ends. -/
theorem Follows.sublist {α : Type} {loss : List α → Prop} {crash : Prop} {l : List α} {n ds es}
    (h : Follows loss crash l n ds es) : (gotten true ds es ++ (gotten false ds es).reverse).Sublist l := by
  induction h with
  | nil => simp [gotten]
  | none _ ih => simpa [gotten, Ev.item] using ih
  | @some l l' x n d ds es h1 h2 ih =>
    cases d with
    | true =>
      simp only [Off, if_true] at h1
      subst h1
      simpa [gotten, Ev.item] using ih
    | false =>
      simp only [Off, Bool.false_eq_true, if_false] at h1
      subst h1
      have := ih.append (List.Sublist.refl [x])
      simpa [gotten, Ev.item] using this
  | @lost l l' a n d ds es h1 _ _ ih =>
    have h3 : l'.Sublist l := by
      cases d <;> simp only [Off, Bool.false_eq_true, if_false, if_true] at h1 <;> subst h1 <;> simp
    simpa [gotten, Ev.item] using ih.trans h3
  | crash => simp [gotten, Ev.item]

/-- Without a panic the calls are those on a deque. -/
theorem Follows.quiet {α : Type} {loss : List α → Prop} {l : List α} {n ds es}
    (h : Follows loss False l n ds es) (hq : quiet es = true) :
    es = (Spec.dequeRun ds l).map fun r => Ev.got r.1 (r.2 + n) := by
  induction h with
  | nil => rfl
  | none _ ih =>
    rename_i d _ _ _
    simp only [Unwind.quiet, List.all_cons, Bool.true_and] at hq
    rw [ih hq]
    cases d <;> simp [Spec.dequeRun, Spec.dequeStep]
  | @some l l' x n d ds es h1 h2 ih =>
    simp only [Unwind.quiet, List.all_cons, Bool.true_and] at hq
    rw [ih hq]
    cases d with
    | true =>
      simp only [Off, if_true] at h1
      subst h1
      simp [Spec.dequeRun, Spec.dequeStep]
    | false =>
      simp only [Off, Bool.false_eq_true, if_false] at h1
      subst h1
      simp [Spec.dequeRun, Spec.dequeStep]
  | lost => simp [Unwind.quiet] at hq
  | crash h => exact h.elim

namespace BTreeMut
open Verif.BTree
variable {I E C J : Type}

section spec
variable {full : Bool} {elemsOf : C → List E} {kidsOf : C → List C} {ht : C → Nat} {cont : C → List E}
  {ok : C → Prop}

/-- A child whose clone panics. -/
def Fails (mk : C → σ → Bool × σ) (kid : C) : Prop := ∃ s, (mk kid s).1 = true

theorem descendC_spec (h : NodeSpec full elemsOf kidsOf ht cont ok) (mk : C → σ → Bool × σ) :
    ∀ (n : Nat) (e : NIter E C) (rest : List (NIter E C)) (s : σ), e.Ok full ok →
      (∀ x ∈ rest, x.Ok full ok) → (e.lf = true ∨ e.kids = []) →
      (e.kids.map ht).foldr max 0 < n →
      match descendC (borrowedOps elemsOf kidsOf ht) mk n e rest s with
      | none => False
      | some (.unwound w, _) => (∀ x ∈ w, x.Ok full ok) ∧ ∃ kid, ok kid ∧ Fails mk kid ∧
          e.items cont ++ witems cont rest = cont kid ++ witems cont w
      | some (.done (e', rest'), _) =>
        e'.Ok full ok ∧ (∀ x ∈ rest', x.Ok full ok) ∧ e'.lf = false ∧
          e'.items cont ++ witems cont rest' = e.items cont ++ witems cont rest := by
  intro n
  induction n with
  | zero => intro e rest s _ _ _ hf; omega
  | succ n ih =>
    intro e rest s he hr hl hf
    obtain ⟨es, ks, lf, rt⟩ := e
    simp only at hl hf
    have hcond : (ks.isEmpty || lf) = true := by
      rcases hl with hl | hl <;> simp [hl]
    rw [descendC]
    have e1 : (borrowedOps elemsOf kidsOf ht).nextKid ⟨es, ks, lf, rt⟩ =
        some (⟨es, ks.tail, false, rt⟩, ks.head?) := by
      simp only [borrowedOps, hcond, if_true]
    rw [e1]
    obtain ⟨hko, hsh⟩ := he
    simp only at hko hsh
    cases ks with
    | nil =>
      refine ⟨⟨by simp, ?_⟩, hr, rfl, ?_⟩
      · exact Or.inl ⟨rfl, by simpa using hsh⟩
      · simp [NIter.items]
    | cons c ks =>
      have hlf : lf = true := by simpa using hl
      subst hlf
      have hsh : ∃ rt' : Bool, ks.length + 1 = es.length + rt'.toNat ∧
          (full = true → rt' = rt) := by
        rcases hsh with ⟨h, -⟩ | ⟨-, rt', h1, h2⟩
        · simp at h
        · exact ⟨rt', by simp at h1; omega, h2⟩
      obtain ⟨rt', h1, h2⟩ := hsh
      have hok : ok c := hko c (by simp)
      obtain ⟨m1, m2, m3⟩ := h.make_ok hok
      simp only [List.head?_cons, List.tail_cons]
      have hkeep := keep_ok (cont := cont) (o := borrowedOps elemsOf kidsOf ht) (fun _ => rfl)
        (e := ⟨es, ks, false, rt⟩) hr (by
          by_cases hk : ks = []
          · subst hk
            simp only [List.length_nil] at h1
            by_cases he : es = []
            · exact Or.inl ⟨he, rfl⟩
            · exact Or.inr ⟨by simp, Or.inl ⟨rfl, he⟩⟩
          · exact Or.inr ⟨fun d hd => hko d (by simp [hd]), Or.inr ⟨hk, rt', by simpa using h1, h2⟩⟩)
      have hit : NIter.items cont ⟨es, c :: ks, true, rt⟩ ++ witems cont rest =
          cont c ++ witems cont ((borrowedOps elemsOf kidsOf ht).keep ⟨es, ks, false, rt⟩ rest) := by
        rw [hkeep.2]; simp [NIter.items, ilv_cons]
      rcases hmk : mk c s with ⟨_ | _, s'⟩
      · have hlt : ht c < n + 1 := foldr_max_lt hf (by simp)
        have := ih ((borrowedOps elemsOf kidsOf ht).make c)
          ((borrowedOps elemsOf kidsOf ht).keep ⟨es, ks, false, rt⟩ rest) s' m1 hkeep.1 m3 (by
          show ((kidsOf c).map ht).foldr max 0 < n
          have := h.ht_pos c hok
          apply foldr_max_lt' (by omega)
          intro x hx
          simp only [List.mem_map] at hx
          obtain ⟨d, hd, rfl⟩ := hx
          have := (h.kid c hok d hd).2
          omega)
        rw [m2, ← hit] at this
        exact this
      · exact ⟨hkeep.1, c, hok, ⟨s, by rw [hmk]⟩, hit⟩

theorem nextC_spec (h : NodeSpec full elemsOf kidsOf ht cont ok) (mk : C → σ → Bool × σ)
    {it : InnerIter (NIter E C)} (s : σ)
    (hw : ∀ x ∈ it.work, x.Ok full ok) (hlen : (witems cont it.work).length ≤ it.len) :
    match nextC (borrowedOps elemsOf kidsOf ht) mk it s with
    | none => False
    | some (.unwound it', _) => (∀ x ∈ it'.work, x.Ok full ok) ∧ it'.len = it.len ∧
        ∃ kid, ok kid ∧ Fails mk kid ∧ witems cont it.work = cont kid ++ witems cont it'.work
    | some (.done (none, it'), _) => (∀ x ∈ it'.work, x.Ok full ok) ∧ it'.len = it.len ∧
        witems cont it.work = [] ∧ witems cont it'.work = []
    | some (.done (some x, it'), _) => (∀ x ∈ it'.work, x.Ok full ok) ∧ it'.len + 1 = it.len ∧
        witems cont it.work = x :: witems cont it'.work := by
  obtain ⟨work, len⟩ := it
  cases work with
  | nil => exact ⟨hw, rfl, rfl, rfl⟩
  | cons e rest =>
    have he : e.Ok full ok := hw e (by simp)
    have hr : ∀ x ∈ rest, x.Ok full ok := fun x hx => hw x (by simp [hx])
    simp only [witems_cons] at hlen ⊢
    simp only [nextC]
    by_cases hlf : e.lf = true
    · have e0 : (borrowedOps elemsOf kidsOf ht).needsLf e = true := hlf
      have hd := descendC_spec h mk ((borrowedOps elemsOf kidsOf ht).fuel e) e rest s he hr
        (Or.inl hlf) (by simp [borrowedOps])
      rw [if_pos e0]
      revert hd
      rcases descendC (borrowedOps elemsOf kidsOf ht) mk _ e rest s with _ | ⟨w | ⟨e', rest'⟩, s'⟩ <;>
        simp only <;> intro hd
      · exact hd
      · exact ⟨hd.1, trivial, hd.2⟩
      · obtain ⟨d2, d3, d4, d6⟩ := hd
        rw [← d6] at hlen ⊢
        obtain ⟨x, it', y1, y2, y3, y4⟩ := h.yieldElem d2 d3 d4 hlen
        rw [yieldC, y1]
        exact ⟨y2, y3, y4⟩
    · have e0 : ¬ (borrowedOps elemsOf kidsOf ht).needsLf e = true := hlf
      rw [if_neg e0]
      obtain ⟨x, it', y1, y2, y3, y4⟩ := h.yieldElem he hr (by simpa using hlf) hlen
      rw [yieldC, y1]
      exact ⟨y2, y3, y4⟩

/-- An outcome seen through `view`. -/
def mapE (view : I → J) : Ends (InnerIter I) (Option E × InnerIter I) →
    Ends (InnerIter J) (Option E × InnerIter J)
  | .unwound it => .unwound (it.map view)
  | .done r => .done (r.1, r.2.map view)

variable {o : NodeIterOps I E C} {o' : NodeIterOps J E C} {view : I → J}

theorem descendC_sim (h : Sim o o' (fun _ => True) view id) (mk : C → σ → Bool × σ) :
    ∀ (n : Nat) (i : I) (rest : List I) (s : σ), descendC o' mk n (view i) (rest.map view) s =
      (descendC o mk n i rest s).map fun x =>
        ((match x.1 with
          | .unwound w => .unwound (w.map view)
          | .done r => .done (view r.1, r.2.map view)), x.2) := by
  intro n
  induction n with
  | zero => intro i rest s; rfl
  | succ n ih =>
    intro i rest s
    have h1 := h.nextKid i trivial
    simp only [descendC, h1]
    cases hk : o.nextKid i with
    | none => rfl
    | some r =>
      obtain ⟨i', r⟩ := r
      cases r with
      | none => rfl
      | some c =>
        simp only [Option.map_some, id]
        rcases mk c s with ⟨_ | _, s'⟩
        · simp only
          have := h.make c
          simp only [id] at this
          rw [this, h.keep trivial]
          exact ih _ _ _
        · simp only [h.keep trivial, Option.map_some]

theorem nextC_sim (h : Sim o o' (fun _ => True) view id) (mk : C → σ → Bool × σ) (it : InnerIter I)
    (s : σ) : nextC o' mk (it.map view) s = (nextC o mk it s).map fun x => (mapE view x.1, x.2) := by
  obtain ⟨work, len⟩ := it
  have hy : ∀ i rest (s : σ), yieldC o' len (view i) (rest.map view) s =
      (yieldC o len i rest s).map fun x => (mapE view x.1, x.2) := by
    intro i rest s
    simp only [yieldC, (h.yieldElem len (i := i) (rest := rest) trivial (by simp)).1, Option.map_map]
    rfl
  cases work with
  | nil => rfl
  | cons i rest =>
    simp only [InnerIter.map, nextC, List.map_cons, h.needsLf i trivial, h.fuel i trivial,
      descendC_sim h mk]
    split
    · rcases descendC o mk (o.fuel i) i rest s with _ | ⟨w | ⟨e', rest'⟩, s'⟩
      · rfl
      · rfl
      · exact hy _ _ _
    · exact hy _ _ _

theorem stepC_spec (h : NodeSpec true elemsOf kidsOf ht cont ok) (mk : C → σ → Bool × σ) (d : Bool)
    {it : InnerIter (NIter E C)} (s : σ)
    (hw : ∀ x ∈ it.work, x.Ok true ok) (hlen : (witems cont it.work).length ≤ it.len) :
    match stepC (borrowedOps elemsOf kidsOf ht) mk d it s with
    | none => False
    | some (.unwound it', _) => (∀ x ∈ it'.work, x.Ok true ok) ∧ it'.len = it.len ∧
        ∃ kid, ok kid ∧ Fails mk kid ∧ Off d (cont kid) (witems cont it'.work) (witems cont it.work)
    | some (.done (none, it'), _) => (∀ x ∈ it'.work, x.Ok true ok) ∧ it'.len = it.len ∧
        witems cont it.work = [] ∧ witems cont it'.work = []
    | some (.done (some x, it'), _) => (∀ x ∈ it'.work, x.Ok true ok) ∧ it'.len + 1 = it.len ∧
        Off d [x] (witems cont it'.work) (witems cont it.work) := by
  cases d with
  | true => simpa only [stepC, Off, if_true, List.singleton_append] using nextC_spec h mk s hw hlen
  | false =>
    simp only [stepC, Off, Bool.false_eq_true, if_false]
    have hwf := witems_flip (cont := cont) hw
    have hok : ∀ x ∈ (it.rev.map NIter.flip).work, x.Ok true ok := by
      intro x hx
      simp only [InnerIter.map, InnerIter.rev, List.mem_map, List.mem_reverse] at hx
      obtain ⟨y, hy, rfl⟩ := hx
      exact (hw y hy).flip
    have hn := nextC_spec h.flip mk s hok (by
      simp only [InnerIter.map, InnerIter.rev] at hwf ⊢; rw [hwf]; simpa using hlen)
    rw [nextC_sim (mirror_sim elemsOf kidsOf ht) mk it.rev s] at hn
    have back : ∀ {it3 : InnerIter (NIter E C)}, (∀ x ∈ (it3.map NIter.flip).work, x.Ok true ok) →
        (∀ x ∈ it3.rev.work, x.Ok true ok) ∧
        witems (fun c => (cont c).reverse) (it3.map NIter.flip).work =
          (witems cont it3.rev.work).reverse := by
      intro it3 n2
      have hok3 : ∀ x ∈ it3.rev.work, x.Ok true ok := by
        intro x hx
        simp only [InnerIter.rev, List.mem_reverse] at hx
        have := n2 x.flip (by simp [InnerIter.map]; exact ⟨x, hx, rfl⟩)
        simpa using this.flip
      refine ⟨hok3, ?_⟩
      have := witems_flip (cont := cont) hok3
      simpa [InnerIter.rev, InnerIter.map] using this
    have e0 : witems (fun c => (cont c).reverse) (it.rev.map NIter.flip).work =
        (witems cont it.work).reverse := hwf
    rw [e0] at hn
    revert hn
    rcases nextC (borrowedOps elemsOf kidsOf ht).mirror mk it.rev s with
      _ | ⟨it3 | ⟨_ | x, it3⟩, s'⟩ <;> simp only [Option.map_some, Option.map_none, mapE, flip] <;>
      intro hn
    · exact hn
    · obtain ⟨n1, n2, kid, n3, n4, n5⟩ := hn
      obtain ⟨b1, b2⟩ := back n1
      rw [b2] at n5
      refine ⟨b1, n2, kid, n3, n4, ?_⟩
      have := congrArg List.reverse n5
      simpa using this
    · obtain ⟨n1, n2, n3, n4⟩ := hn
      obtain ⟨b1, b2⟩ := back n1
      rw [b2] at n4
      exact ⟨b1, n2, by simpa using n3, by simpa using n4⟩
    · obtain ⟨n1, n2, n3⟩ := hn
      obtain ⟨b1, b2⟩ := back n1
      rw [b2] at n3
      refine ⟨b1, n2, ?_⟩
      have := congrArg List.reverse n3
      simpa using this

/-- The calls consume what is there from the two ends, a panic losing what is below the child whose
clone panicked. -/
theorem evs_follows (h : NodeSpec true elemsOf kidsOf ht cont ok) (mk : C → σ → Bool × σ)
    (ds : List Bool) (it : InnerIter (NIter E C)) (s : σ) (n : Nat)
    (hw : ∀ x ∈ it.work, x.Ok true ok) (hlen : it.len = (witems cont it.work).length + n) :
    Follows (fun a => ∃ kid, ok kid ∧ Fails mk kid ∧ a = cont kid) False (witems cont it.work) n ds
      (evs InnerIter.len (stepC (borrowedOps elemsOf kidsOf ht) mk) ds it s) := by
  induction ds generalizing it s n with
  | nil => exact .nil
  | cons d ds ih =>
    have hs := stepC_spec h mk d s hw (by omega)
    rw [evs]
    revert hs
    rcases stepC (borrowedOps elemsOf kidsOf ht) mk d it s with _ | ⟨it' | ⟨_ | x, it'⟩, s'⟩ <;>
      simp only <;> intro hs
    · exact hs.elim
    · obtain ⟨h1, h2, kid, h3, h4, h5⟩ := hs
      have hl := Off_length h5
      have hih := ih it' s' (n + (cont kid).length) h1 (by omega)
      have := Follows.lost (loss := fun a => ∃ kid, ok kid ∧ Fails mk kid ∧ a = cont kid) (n := n) h5
        ⟨kid, h3, h4, rfl⟩ hih
      rw [h2, hlen]; exact this
    · obtain ⟨h1, h2, h3, h4⟩ := hs
      rw [h3] at hlen ⊢
      have hih := ih it' s' n h1 (by rw [h4]; simpa [h2] using hlen)
      rw [h4] at hih
      rw [h2, hlen]
      simp only [List.length_nil, Nat.zero_add]
      exact .none hih
    · obtain ⟨h1, h2, h3⟩ := hs
      have hl := Off_length h3
      simp only [List.length_singleton] at hl
      have hih := ih it' s' n h1 (by omega)
      have : it'.len = (witems cont it'.work).length + n := by omega
      rw [this]
      exact .some h3 hih

end spec

/-! ### Marked nodes -/

@[simp] theorem forget_disown (n : ANode K V) : (disown n).forget = n.forget := by
  obtain ⟨b, es, ks⟩ := n; rfl

theorem forget_mutKids (n : ANode K V) : (mutKids n).map ANode.forget = n.kids.map ANode.forget := by
  unfold mutKids
  split
  · rfl
  · rw [List.map_map]; congr 1; funext c; exact forget_disown c

theorem ilv_map {D : Type} (f : C → D) (cont : D → List E) : ∀ (ks : List C) (es : List E),
    ilv cont (ks.map f) es = ilv (fun c => cont (f c)) ks es
  | [], es => by simp
  | c :: ks, [] => by simp [ilv, ilv_map f cont ks []]
  | c :: ks, e :: es => by simp [ilv, ilv_map f cont ks es]

/-- A node on which iteration works. -/
def NOk (c : ANode K V) : Prop := ∃ h, IterOk true h c.forget

/-- The entries below a node. -/
abbrev ncont (c : ANode K V) : List (K × V) := c.forget.toList

theorem mutSpec : NodeSpec true (ANode.elems (K := K) (V := V)) mutKids (fun c => c.forget.depth)
    ncont NOk where
  ne c h := (anodeSpec true).ne c h
  len c h := by
    have := (anodeSpec true).len c h
    have e : (mutKids c).length = c.kids.length := by
      have := congrArg List.length (forget_mutKids c)
      simpa using this
    rcases this with h | h | h
    · refine .inl (List.length_eq_zero_iff.1 (by rw [e, h]; rfl))
    · exact .inr (.inl (by rw [e, h]))
    · exact absurd h.1 (by simp)
  kid c h d hd := by
    have : d.forget ∈ c.kids.map ANode.forget := by
      rw [← forget_mutKids]; exact List.mem_map_of_mem hd
    obtain ⟨d0, h1, h2⟩ := List.mem_map.1 this
    have := (anodeSpec true).kid c h d0 h1
    rw [h2] at this
    exact this
  ht_pos c h := (anodeSpec true).ht_pos c h
  cont_eq c h := by
    have h1 := (anodeSpec true).cont_eq c h
    have h2 := ilv_map ANode.forget Node.toList (mutKids c) c.elems
    rw [forget_mutKids, ilv_map] at h2
    exact h1.trans h2

/-- Without the marks. -/
def vw (e : NIter (K × V) (ANode K V)) : NIter (K × V) (Node K V) :=
  ⟨e.elems, e.kids.map ANode.forget, e.lf, e.rt⟩

theorem vw_items (e : NIter (K × V) (ANode K V)) : (vw e).items Node.toList = e.items ncont := by
  obtain ⟨es, ks, lf, rt⟩ := e
  simp only [vw, NIter.items]
  cases lf with
  | true => exact ilv_map _ _ _ _
  | false => cases es <;> simp only [ilvE, ilv_map, Bool.false_eq_true, if_false]

theorem vw_witems (w : List (NIter (K × V) (ANode K V))) :
    witems Node.toList (w.map vw) = witems ncont w := by
  induction w with
  | nil => rfl
  | cons e w ih => simp only [List.map_cons, witems_cons, vw_items, ih]

theorem vw_ok {N : Nat} (hN : 1 ≤ N) {e : NIter (K × V) (ANode K V)} (h : (vw e).Ok true (KidOk N)) :
    e.Ok true NOk := by
  obtain ⟨es, ks, lf, rt⟩ := e
  obtain ⟨h1, h2⟩ := h
  simp only [vw] at h1 h2
  refine ⟨fun c hc => ?_, ?_⟩
  · obtain ⟨h, hk⟩ := h1 c.forget (List.mem_map_of_mem hc)
    exact ⟨_, hk.iterOk hN true hN⟩
  · simpa using h2

theorem getSlice_map {α β : Type} (f : α → β) (l : List α) (a b : Nat) :
    getSlice (l.map f) a b = (getSlice l a b).map f := by
  unfold getSlice
  simp only [List.length_map]
  split
  · rw [← List.map_take, ← List.map_drop]
  · rfl

mutual
theorem mkWorkC_spec (c : Cl σ K V) : ∀ (up : Bool) (lb ub : Bnd K) (n : ANode K V) (s : σ),
    match mkWorkC c up lb ub n s with
    | none => mkWork lb ub n.forget = none
    | some (.unwound _, _) => Bad c
    | some (.done w, _) => mkWork lb ub n.forget = some (w.map vw)
  | up, lb, ub, .mk own es ks, s => by
    have hat := fun lb ub i s => mkWorkAtC_spec c (up || !own) lb ub i ks s
    rw [mkWorkC, ANode.forget, mkWork, ANode.forgets_eq]
    rw [ANode.forgets_eq] at hat
    simp only
    rcases hc : cloneIf c (up || !own) es s with ⟨_ | _, s'⟩
    · simp only
      generalize findRangeEdges lb ub es = ed
      by_cases hb : ed.lbE ≤ ed.ubE ∧ ed.ubE ≤ es.length
      · simp only [if_pos hb]
        have hks : (if (up || !own) = true then ks.map disown else ks).map ANode.forget =
            ks.map ANode.forget := by
          split
          · rw [List.map_map]; congr 1; funext c; exact forget_disown c
          · rfl
        rw [← hks, getSlice_map]
        rw [← hks] at hat
        generalize (if (up || !own) = true then ks.map disown else ks) = ks' at hat
        generalize getSlice ks' ed.lbK ed.ubK = kids
        generalize (es.take ed.ubE).drop ed.lbE = elems
        simp only [List.isEmpty_map, List.length_map]
        have h1 : match (if (ed.lp && !kids.isEmpty) = true then
              if (kids.length == 1 && ed.rp) = true then
                if elems.isEmpty = true then mkWorkAtC c (up || !own) lb ub ed.lbK ks s' else none
              else mkWorkAtC c (up || !own) lb .unbounded ed.lbK ks s'
            else some (.done [], s')) with
            | none => (if (ed.lp && !kids.isEmpty) = true then
                if (kids.length == 1 && ed.rp) = true then
                  if elems.isEmpty = true then mkWorkAt lb ub ed.lbK (ks'.map ANode.forget) else none
                else mkWorkAt lb .unbounded ed.lbK (ks'.map ANode.forget)
              else some []) = none
            | some (.unwound _, _) => Bad c
            | some (.done w, _) => (if (ed.lp && !kids.isEmpty) = true then
                if (kids.length == 1 && ed.rp) = true then
                  if elems.isEmpty = true then mkWorkAt lb ub ed.lbK (ks'.map ANode.forget) else none
                else mkWorkAt lb .unbounded ed.lbK (ks'.map ANode.forget)
              else some []) = some (w.map vw) := by
          by_cases a1 : (ed.lp && !kids.isEmpty) = true
          · by_cases a2 : (kids.length == 1 && ed.rp) = true
            · by_cases a3 : elems.isEmpty = true
              · simp only [if_pos a1, if_pos a2, if_pos a3]; exact hat _ _ _ _
              · simp only [if_pos a1, if_pos a2, if_neg a3]
            · simp only [if_pos a1, if_neg a2]; exact hat _ _ _ _
          · simp only [if_neg a1]; rfl
        revert h1
        generalize (if (ed.lp && !kids.isEmpty) = true then
              if (kids.length == 1 && ed.rp) = true then
                if elems.isEmpty = true then mkWorkAtC c (up || !own) lb ub ed.lbK ks s' else none
              else mkWorkAtC c (up || !own) lb .unbounded ed.lbK ks s'
            else some (.done [], s')) = R1
        generalize (if (ed.lp && !kids.isEmpty) = true then
                if (kids.length == 1 && ed.rp) = true then
                  if elems.isEmpty = true then mkWorkAt lb ub ed.lbK (ks'.map ANode.forget) else none
                else mkWorkAt lb .unbounded ed.lbK (ks'.map ANode.forget)
              else some []) = N1
        intro h1
        rcases R1 with _ | ⟨u | w1, s1⟩
        · simp only at h1; rw [h1]
        · exact h1
        · simp only at h1
          rw [h1]
          simp only
          have hk1 : (if ed.lp = true then (kids.map ANode.forget).tail else kids.map ANode.forget) =
              (if ed.lp = true then kids.tail else kids).map ANode.forget := by
            split
            · rw [List.map_tail]
            · rfl
          rw [hk1]
          generalize (if ed.lp = true then kids.tail else kids) = kids1
          have hk2 : (if ed.rp = true then (kids1.map ANode.forget).dropLast
              else kids1.map ANode.forget) =
              (if ed.rp = true then kids1.dropLast else kids1).map ANode.forget := by
            split
            · rw [List.map_dropLast]
            · rfl
          rw [hk2]
          generalize (if ed.rp = true then kids1.dropLast else kids1) = kids2
          simp only [List.isEmpty_map]
          have h2 : match (if (ed.rp && !kids1.isEmpty) = true then
                mkWorkAtC c (up || !own) (if ed.lp = true then .unbounded else lb) ub (ed.ubK - 1) ks s1
              else some (.done [], s1)) with
              | none => (if (ed.rp && !kids1.isEmpty) = true then
                  mkWorkAt (if ed.lp = true then .unbounded else lb) ub (ed.ubK - 1)
                    (ks'.map ANode.forget)
                else some []) = none
              | some (.unwound _, _) => Bad c
              | some (.done w, _) => (if (ed.rp && !kids1.isEmpty) = true then
                  mkWorkAt (if ed.lp = true then .unbounded else lb) ub (ed.ubK - 1)
                    (ks'.map ANode.forget)
                else some []) = some (w.map vw) := by
            by_cases a1 : (ed.rp && !kids1.isEmpty) = true
            · simp only [if_pos a1]; exact hat _ _ _ _
            · simp only [if_neg a1]; rfl
          revert h2
          generalize (if (ed.rp && !kids1.isEmpty) = true then
                mkWorkAtC c (up || !own) (if ed.lp = true then .unbounded else lb) ub (ed.ubK - 1) ks s1
              else some (.done [], s1)) = R2
          generalize (if (ed.rp && !kids1.isEmpty) = true then
                  mkWorkAt (if ed.lp = true then .unbounded else lb) ub (ed.ubK - 1)
                    (ks'.map ANode.forget)
                else some []) = N2
          intro h2
          rcases R2 with _ | ⟨u | w2, s2⟩
          · simp only at h2; rw [h2]
          · exact h2
          · simp only at h2
            rw [h2]
            simp only [List.map_append]
            congr 3
            split <;> rfl
      · simp only [if_neg hb]
    · exact bad_of_cloneIf hc
theorem mkWorkAtC_spec (c : Cl σ K V) : ∀ (up : Bool) (lb ub : Bnd K) (i : Nat) (ks : List (ANode K V))
    (s : σ),
    match mkWorkAtC c up lb ub i ks s with
    | none => mkWorkAt lb ub i (ANode.forgets ks) = none
    | some (.unwound _, _) => Bad c
    | some (.done w, _) => mkWorkAt lb ub i (ANode.forgets ks) = some (w.map vw)
  | _, _, _, _, [], s => by simp [mkWorkAtC, ANode.forgets, mkWorkAt]
  | up, lb, ub, 0, n :: _, s => by
    rw [mkWorkAtC, ANode.forgets, mkWorkAt]
    exact mkWorkC_spec c up lb ub n s
  | up, lb, ub, i + 1, _ :: ks, s => by
    rw [mkWorkAtC, ANode.forgets, mkWorkAt]
    exact mkWorkAtC_spec c up lb ub i ks s
end

/-! ### The map -/

/-- An entry without its slot. -/
def noSlot (e : K × (Nat × V)) : K × V := (e.1, e.2.2)

/-- Among what is lost are the entries of a node whose clone panics. -/
def Lost (c : Cl σ K V) (a : List (K × (Nat × V))) : Prop :=
  ∃ es s, es ≠ [] ∧ es.Sublist (a.map noSlot) ∧ (c es s).1 = true

variable [Ord K] [Std.TransOrd K] {N : Nat}

theorem lost_of {c : Cl σ K V} {a : List (K × (Nat × V))}
    (h : ∃ kid, NOk kid ∧ Fails (mkC (unl c)) kid ∧ a = ncont kid) : Lost c a := by
  obtain ⟨kid, h1, ⟨s, h2⟩, rfl⟩ := h
  refine ⟨kid.elems.map noSlot, s, ?_, ?_, ?_⟩
  · have := mutSpec.ne kid h1
    simpa using this
  · refine List.Sublist.map _ ?_
    obtain ⟨own, es, ks⟩ := kid
    simp only [ANode.elems, ncont, ANode.forget, Node.toList_mk]
    exact elems_sublist _ _
  · unfold mkC cloneIf at h2
    split at h2
    · exact h2
    · cases h2

theorem _root_.Verif.Unwind.Follows.weaken {α : Type} {l1 l2 : List α → Prop} (hl : ∀ a, l1 a → l2 a) {crash : Prop}
    {l : List α} {n ds es} (h : Follows l1 crash l n ds es) : Follows l2 crash l n ds es := by
  induction h with
  | nil => exact .nil
  | none _ ih => exact .none ih
  | some h1 _ ih => exact .some h1 ih
  | lost h1 h2 _ ih => exact .lost h1 (hl _ h2) ih
  | crash h1 h2 => exact .crash h1 h2

theorem iterMutC_spec (hN : 1 ≤ N) {m : BTreeMap K V} (hm : BTreeMap.WF N m) (c : Cl σ K V)
    (o : Sharing K (Nat × V)) (s : σ) :
    match iterMutC c m o s with
    | (.unwound _, _) => Bad c
    | (.done it, _) => (∀ x ∈ it.work, x.Ok true NOk) ∧ it.len = m.len ∧
        witems ncont it.work = m.label.abs := by
  have hl := hm.label
  unfold iterMutC
  unfold BTreeMap.WF at hl
  unfold BTreeMap.abs
  cases hr : m.label.root with
  | none =>
    rw [hr] at hl
    refine ⟨by simp, ?_, rfl⟩
    exact hl.symm
  | some n =>
    rw [hr] at hl
    obtain ⟨⟨h, h1⟩, h2, h3⟩ := hl
    simp only
    rcases hc : mkC (unl c) (o.annot n) s with ⟨_ | _, s'⟩
    · have hok : NOk (o.annot n) := ⟨h + 1, by rw [o.forget_annot]; exact h1.iterOk hN true (Nat.le_refl 1)⟩
      obtain ⟨m1, m2, m3⟩ := mutSpec.make_ok hok
      simp only [List.mem_singleton, forall_eq, witems_cons, witems_nil, List.append_nil]
      refine ⟨m1, trivial, ?_⟩
      have : (mutOps.make (o.annot n)).items ncont = ncont (o.annot n) := m2
      rw [this, ncont, o.forget_annot]
    · have := bad_of_cloneIf hc
      obtain ⟨es, s, h⟩ := this
      exact ⟨_, s, h⟩

theorem rangeMutC_spec {Q : Type} [Ord Q] [Std.TransOrd Q] (hN : 1 ≤ N) {m : BTreeMap K V}
    (hm : BTreeMap.WF N m) (c : Cl σ K V) (o : Sharing K (Nat × V)) {f : K → Q}
    (hf : ∀ a b, compare (f a) (f b) = compare a b) (lb ub : QBnd Q) (s : σ)
    (hb : lb.bad ub = false) (hx : ¬ BTreeMap.BothExclude f lb ub m.label.abs) :
    match rangeMutC c f m o lb ub s with
    | none => False
    | some (.unwound _, _) => Bad c
    | some (.done it, _) => (∀ x ∈ it.work, x.Ok true NOk) ∧ it.len = m.len ∧
        witems ncont it.work = Spec.range (lb.bnd f) (ub.bnd f) m.label.abs := by
  obtain ⟨it, h1, h2, h3, h4⟩ := (BTreeMap.range_spec hN hm.label hf lb ub).2 hb hx
  unfold rangeMutC
  unfold BTreeMap.range at h1
  rw [if_neg (by simp [hb])] at h1 ⊢
  cases hr : m.label.root with
  | none =>
    rw [hr] at h1
    cases h1
    exact ⟨by simp, rfl, by rw [← h4]; rfl⟩
  | some n =>
    rw [hr] at h1
    have hk := mkWorkC_spec (unl c) false (lb.bnd f) (ub.bnd f) (o.annot n) s
    rw [o.forget_annot] at hk
    revert hk
    simp only
    rcases mkWorkC (unl c) false (lb.bnd f) (ub.bnd f) (o.annot n) s with _ | ⟨u | w, s'⟩ <;>
      simp only <;> intro hk
    · simp only [hk] at h1; cases h1
    · obtain ⟨es, s, h⟩ := hk
      exact ⟨_, s, h⟩
    · simp only [hk, Option.map_some, Option.some.injEq] at h1
      subst h1
      simp only at h3 h4
      rw [vw_witems] at h4
      refine ⟨fun x hx => vw_ok hN (h3 _ (List.mem_map_of_mem hx)), trivial, h4⟩

/-! ### Writing -/

mutual
theorem mapIdx_congr {W : Type} {g g' : Nat → K × V → K × W} : ∀ (n : Nat) (t : Node K V),
    (∀ x ∈ t.toList.zipIdx n, g x.2 x.1 = g' x.2 x.1) → t.mapIdx g n = t.mapIdx g' n
  | n, .mk es ks, h => by
    rw [Node.toList_mk] at h
    obtain ⟨h1, h2⟩ := mapIdx_congrL n ks es h
    rw [Node.mapIdx, Node.mapIdx, h1, h2]
theorem mapIdx_congrL {W : Type} {g g' : Nat → K × V → K × W} : ∀ (n : Nat) (ks : List (Node K V))
    (es : List (K × V)), (∀ x ∈ (Node.inter ks es).zipIdx n, g x.2 x.1 = g' x.2 x.1) →
    Node.mapIdxE g n ks es = Node.mapIdxE g' n ks es ∧ Node.mapIdxK g n ks es = Node.mapIdxK g' n ks es
  | n, [], es, h => by
    simp only [Node.inter_nil] at h
    simp only [Node.mapIdxE, Node.mapIdxK, and_true]
    exact List.map_congr_left h
  | n, c :: ks, [], h => by
    simp only [Node.inter, List.zipIdx_append, List.mem_append] at h
    have h1 := mapIdx_congr n c (fun x hx => h x (.inl hx))
    have h2 := mapIdx_congrL (n + c.toList.length) ks [] (fun x hx => h x (.inr hx))
    simp only [Node.mapIdxE, Node.mapIdxK, h1, h2.2, and_self]
  | n, c :: ks, e :: es, h => by
    simp only [Node.inter, List.zipIdx_append, List.mem_append, List.zipIdx_cons, List.mem_cons] at h
    have h1 := mapIdx_congr n c (fun x hx => h x (.inl hx))
    have h2 := mapIdx_congrL (n + c.toList.length + 1) ks es (fun x hx => h x (.inr (.inr hx)))
    have h3 := h (e, n + c.toList.length) (.inr (.inl rfl))
    simp only at h3
    simp only [Node.mapIdxE, Node.mapIdxK, h1, h2.1, h2.2, h3, and_self]
end

theorem dequeRun_all {α : Type} : ∀ l : List α,
    (Spec.dequeRun (List.replicate l.length true) l).filterMap (·.1) = l
  | [] => rfl
  | x :: l => by
    simp only [List.length_cons, List.replicate_succ, Spec.dequeRun, Spec.dequeStep]
    simpa using dequeRun_all l

/-- A map that differs in its values can be built as well. -/
theorem reachable_store (hN : 1 ≤ N) {m : BTreeMap K V} (h : Reachable N m) (sl : List Nat)
    (w : Nat → V) : Reachable N (m.store sl w) := by
  let w' : Nat → V := fun i =>
    if i ∈ sl then w i else match m.abs[i]? with | some e => e.2 | none => w i
  obtain ⟨slots, m', h1, -, h2, -⟩ := BTreeMap.iterMutRun_spec hN (h.wf hN)
    (List.replicate m.abs.length true) w'
  have h3 : slots = m.abs.zipIdx.map (·.2) := by
    rw [h2]
    have := dequeRun_all m.abs.zipIdx
    rw [List.length_zipIdx] at this
    conv => rhs; rw [← this]
    rw [List.map_filterMap]
  have h4 : m' = m.store slots w' := by
    unfold BTreeMap.iterMutRun at h1
    rcases hr : nodeOps.run (List.replicate m.abs.length true) m.label.iter with _ | ys
    · rw [hr] at h1; cases h1
    · rw [hr] at h1
      simp only [Option.map_some, Option.some.injEq, Prod.mk.injEq] at h1
      rw [← h1.2.2, h1.2.1]
  have h5 : m.store slots w' = m.store sl w := by
    unfold BTreeMap.store
    congr 1
    cases hr : m.root with
    | none => rfl
    | some n =>
      simp only [Option.map_some, Option.some.injEq]
      have hab : m.abs = n.toList := by simp [BTreeMap.abs, hr]
      refine mapIdx_congr 0 n ?_
      rintro ⟨e, i⟩ hx
      rw [← hab] at hx
      have hi : i ∈ slots := by rw [h3]; exact List.mem_map_of_mem hx
      have he : m.abs[i]? = some e := by
        have := List.mem_zipIdx_iff_getElem?.1 hx
        exact this
      simp only [hi, if_true, w', he]
      split <;> rfl
  rw [← h5, ← h4]
  exact h.iterMut h1

end BTreeMut
end Verif.Unwind
