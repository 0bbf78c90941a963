import Verif.BTreeHeap.MapCost
import Verif.FixedHeap.Cost
import Verif.FixedHeap.MapSpec
/-!
# How many nodes the operations of `btree::fixed::BTreeMap` allocate
-/
set_option linter.unusedSectionVars false
namespace Verif.FixedH
open Heap Heap.Machine BTreeH Fixed Std
open BTree (Node)

variable {K V Q : Type}

/-! ## Iterators -/

section
variable {P S I E C X : Type} {Φ : ∀ {α : Type}, Prog P α → Prop}

/-- The parts of an iterator have the property. -/
structure GEach (Φ : ∀ {α : Type}, Prog P α → Prop) (o : GOps P S I E C) : Prop where
  next : ∀ w, Φ (o.next w)
  make : ∀ s k, Φ (o.make s k)
  done : ∀ w, Φ (o.done w)

variable {o : GOps P S I E C} (hΦ : Closed Φ) (ho : GEach Φ o)
include hΦ ho

theorem GEach.loop : ∀ n s ws len, Φ (o.loop n s ws len) := by
  intro n
  induction n with
  | zero => intro s ws len; exact hΦ.panic
  | succ n ih =>
    intro s ws len
    cases ws with
    | nil => exact hΦ.pure _
    | cons w ws =>
      refine hΦ.bind (ho.next w) fun x => ?_
      split
      · exact Closed.ite hΦ.panic (hΦ.pure _)
      · exact hΦ.bind (ho.make _ _) fun _ => ih _ _ _
      · exact hΦ.bind (ho.done _) fun _ => ih _ _ _

theorem GEach.step (n : Nat) (d : Bool) (s : S) (it : Inner I) : Φ (o.step n d s it) :=
  Closed.ite (hΦ.bind (ho.loop hΦ _ _ _ _) fun _ => hΦ.pure _)
    (hΦ.bind (ho.loop hΦ _ _ _ _) fun _ => hΦ.pure _)

theorem GEach.run {yld : S → E → Option (S × X)} (n : Nat) : ∀ ds s it,
    Φ (o.run yld n ds s it) := by
  intro ds
  induction ds with
  | nil => intro s it; exact hΦ.pure _
  | cons d ds ih =>
    intro s it
    refine hΦ.bind (ho.step hΦ _ _ _ _) fun x => ?_
    split
    · exact hΦ.bind (ih _ _) fun _ => hΦ.pure _
    · split
      · exact hΦ.panic
      · exact hΦ.bind (ih _ _) fun _ => hΦ.pure _

end

/-! ## Operations that only read -/

theorem getAt_reads (lin : Bool) (a : Nat) (p : K → Ordering) : ∀ n path,
    (getAt lin a p n path : Prog (ND K V) _).ReadOnly := by
  intro n
  induction n with
  | zero => intro path; exact trivial
  | succ n ih =>
    intro path
    refine Prog.ReadOnly.bind (fun x => ?_) (Prog.ReadOnly.lift trivial)
    split
    · exact trivial
    · split <;> exact trivial
    · exact Prog.ReadOnly.ite (ih _) (by exact trivial)

theorem get_reads (lin : Bool) (m : HMap) (p : K → Ordering) :
    (FHMap.get lin m p : Prog (ND K V) _).ReadOnly := by
  unfold FHMap.get
  split
  · exact trivial
  · exact Prog.ReadOnly.map (getAt_reads _ _ _ _ _)

theorem shared_reads (a : Nat) : GEach (fun p => p.ReadOnly) (sharedOps (K := K) (V := V) a) where
  next w := trivial
  make s k := Prog.ReadOnly.bind (fun x => Prog.ReadOnly.ite (by exact trivial) (by exact trivial))
    (Prog.ReadOnly.lift trivial)
  done w := trivial

theorem iterRun_reads (n : Nat) (ds : List Bool) (r : Option Nat) (len : Nat) :
    (iterRun n ds r len : Prog (ND K V) _).ReadOnly := by
  unfold iterRun
  split
  · exact Prog.ReadOnly.map ((shared_reads _).run closed_reads _ _ _ _)
  · exact Prog.ReadOnly.bind (fun _ => Prog.ReadOnly.map ((shared_reads _).run closed_reads _ _ _ _))
      ((shared_reads _).make _ _)

/-! ## Operations that allocate nothing -/

theorem own_noAlloc (D : Nat) : GEach (fun p => p.NoAlloc) (ownOps (K := K) (V := V) D) where
  next w := by
    cases w with
    | owned es ks ex ee kx ek =>
      refine Closed.ite (Φ := fun p => p.NoAlloc) ?_ (Closed.ite (Φ := fun p => p.NoAlloc) ?_ trivial)
      · split
        · exact trivial
        · exact Prog.NoAlloc.map (tryKid_noAlloc _)
      · split <;> exact trivial
    | leased a ex ee kx ek =>
      refine Closed.ite (Φ := fun p => p.NoAlloc) ?_ (Closed.ite (Φ := fun p => p.NoAlloc) ?_ trivial)
      · exact Prog.NoAlloc.bind (fun x => Prog.NoAlloc.map (tryKid_noAlloc _))
          (Prog.NoAlloc.lift nofun)
      · refine Prog.NoAlloc.bind (fun x => ?_) (Prog.NoAlloc.lift nofun)
        split <;> exact trivial
  make s k := by
    cases k with
    | ok n => exact trivial
    | err a => exact Prog.NoAlloc.bind (fun _ => by exact trivial) (Prog.NoAlloc.lift nofun)
  done w := by
    cases w with
    | owned => exact forAll_noAlloc _ _
    | leased => exact drop_noAlloc _ _

theorem dropWork_noAlloc (D : Nat) : ∀ w : List (OI K V), (dropWork D w).NoAlloc
  | [] => trivial
  | e :: w => Prog.NoAlloc.bind (fun _ => dropWork_noAlloc D w) ((own_noAlloc D).done e)

theorem intoNew_noAlloc (D : Nat) (r : Option Nat) (len : Nat) :
    (intoNew D r len : Prog (ND K V) _).NoAlloc := by
  unfold intoNew
  split
  · exact trivial
  · exact Prog.NoAlloc.bind (fun _ => Prog.NoAlloc.map ((own_noAlloc D).make _ _)) (tryKid_noAlloc _)

theorem intoRun_noAlloc (D n : Nat) (ds : List Bool) (r : Option Nat) (len : Nat) :
    (intoRun D n ds r len : Prog (ND K V) _).NoAlloc :=
  Prog.NoAlloc.bind (fun _ => Prog.NoAlloc.bind (fun _ => Prog.NoAlloc.map (dropWork_noAlloc _ _))
    ((own_noAlloc D).run closed_noAlloc _ _ _ _)) (intoNew_noAlloc _ _ _)

/-! ## The height -/

/-- The number of levels of the tree. -/
theorem dep_lvl [Ord K] {m : FMap K V} (h : m.WF) {nd : Node K V}
    (hr : m.root = some nd) :
    ∃ d, (vt nd).Dep (d + 1) ∧ d + 1 ≤ lvl MIN m.len ∧ d + 1 ≤ m.len := by
  obtain ⟨ht, h1⟩ := h.shape nd hr
  have h3 := BTree.ok_size_root h1
  have h6 := h.len
  simp only [FMap.toList, hr] at h6
  rw [← h6] at h3
  have h4 : 2 ^ ht ≤ (MIN + 1) ^ ht := Nat.pow_le_pow_left (by decide) _
  have h5 : ht < 2 ^ ht := Nat.lt_two_pow_self
  refine ⟨ht, dep_of_ok h1, Nat.succ_le_succ ?_, by omega⟩
  exact Nat.le_log_of_pow_le (by decide) (by omega)

/-! ## Operations -/

section
variable {I : Mem (ND K V) → Prop} {c : Nat} (f : Frugal I c) {lin : Bool} {m : FMap K V}
  {r : Option Nat}
include f

theorem spends_getMut [Ord K] (h : m.WF) {p : K → Ordering} {g : V → V} {m' b}
    (e : m.getMut lin p g = some (m', b)) :
    Spends I (FHMap.getMut lin ⟨m.len, r⟩ p g) (own r (vtO m.root))
      (fun x L => FR x.1 m' L ∧ x.2 = b) (fun _ => c * lvl MIN m.len) := by
  have hq := hgetMut_spec (r := r) (fun nd hr => dep_len h hr) e
  refine Spends_root (fun hr hm => ?_) (fun a nd hr hm => ?_)
  · subst hr
    exact Spends.of_cost .pure hq
  · subst hr
    simp only [FMap.getMut, hm] at e
    obtain ⟨z, e1, -⟩ := Option.map_eq_some_iff.1 e
    rw [hm] at hq
    obtain ⟨d, h1, h2, h3⟩ := dep_lvl h hm
    have hd := dep_len h hm
    have hbody : ∀ x, Fits x nd → wp (FixedH.getMut lin m.len p g (d + 1) x)
        (owns x.kids (vts nd.kids) + 0) (Turns z.1 (fun b L => b = z.2 ∧ L = 0)) := by
      intro x hx
      rw [add_zero]
      exact getMut_spec h1 hd hx e1
    have hw := mutArc_spec (a := a) hd hbody
    rw [add_zero] at hw
    refine Spends.of_le_bind (m := fun _ _ => 0) (mutArc_le fun x => getMut_le h3)
      (cost_mutArc f (b := fun _ => c * d) fun x => cost_getMut f _ _ _ _ _ _) hw (fun _ => .pure) hq ?_
    intro x y
    have := Nat.mul_le_mul_left c h2
    rw [Nat.mul_add] at this
    omega

theorem cost_afterRoot (len a : Nat) (y : HIns K V) :
    Cost I (FHMap.afterRoot len a y) (fun _ => match y with | .split _ _ => 1 | _ => 0) := by
  cases y with
  | replaced o => exact .pure
  | absorbed => exact .pure
  | split b kv =>
    simp only [FHMap.afterRoot]
    split
    · exact Cost.map (f.alloc _) (fun _ => Nat.le_refl _)
    · exact .panic

omit f in
theorem afterRoot_none {len a : Nat} {y : HIns K V} {h h' : Mem (ND K V)} {x}
    (e : (FHMap.afterRoot len a y).exec h = some (h', some x)) :
    (match y with | .replaced _ => True | _ => x.2 = none) := by
  cases y with
  | replaced o => trivial
  | absorbed => cases e; rfl
  | split b kv =>
    simp only [FHMap.afterRoot] at e
    split at e
    · obtain ⟨_, _, -, e⟩ := Prog.exec_bind_some e
      cases e; rfl
    · cases e

theorem spends_insert [Ord K] (h : m.WF) {k : K} {v : V} {m' old}
    (e : m.insert lin k v = some (m', old)) :
    Spends I (FHMap.insert lin ⟨m.len, r⟩ k v) (own r (vtO m.root))
      (fun x L => FR x.1 m' L ∧ x.2 = old)
      (fun x => c * lvl MIN m.len + (if x.2.isNone then lvl MIN m.len + 1 else 0)) := by
  have hq := hinsert_spec (r := r) h e
  refine Spends_root (fun hr hm => ?_) (fun a nd hr hm => ?_)
  · subst hr
    refine Spends.of_cost ?_ hq
    unfold FHMap.insert
    dsimp only
    split
    · exact .panic
    · refine Cost.map (f.alloc _) fun _ => ?_
      simp only [Option.isNone_none, if_true]
      omega
  · subst hr
    rw [hm] at hq
    obtain ⟨d, h1, h2, h3⟩ := dep_lvl h hm
    have hd := dep_len h hm
    obtain ⟨ht, hok⟩ := h.shape nd hm
    simp only [FMap.insert, hm] at e
    cases er : Fixed.ins lin k v nd with
    | none => rw [er] at e; cases e
    | some res =>
      have hbody : ∀ x, Fits x nd → wp (ins lin m.len k v (d + 1) x)
          (owns x.kids (vts nd.kids) + 0) (Turns (resNode res) (InsR res)) := by
        intro x hx
        rw [add_zero]
        exact ins_spec h1 hd hx hok er
      have hw := mutArc_spec (a := a) hd hbody
      rw [add_zero] at hw
      refine Spends.of_le_bind' (mutArc_le fun x => ins_le h3)
        (cost_mutArc f (b := fun y => c * d + HIns.splits d y) fun x => cost_ins f _ _ _ _ _ _) hw
        (fun x => cost_afterRoot f _ _ _) hq ?_
      intro x y h0 h' e
      have h4 := Nat.mul_le_mul_left c h2
      rw [Nat.mul_add] at h4
      have e2 := afterRoot_none e
      obtain ⟨x1, x2⟩ := x
      cases x2 with
      | replaced o => simp only [HIns.splits]; omega
      | absorbed =>
        dsimp only at e2
        rw [e2]; simp only [HIns.splits, Option.isNone_none, if_true]; omega
      | split b kv =>
        dsimp only at e2
        rw [e2]; simp only [HIns.splits, Option.isNone_none, if_true]; omega

theorem cost_rmRoot {len a : Nat} {g : HN K V → Prog (ND K V) (HN K V × Option (HRem K V))}
    (hg : ∀ x, Cost I (g x) (fun _ => a)) (x : HN K V) :
    Cost I (FHMap.rmRoot len g x) (fun _ => a) := by
  refine Cost.sbind (b := 0) (hg x) (fun y => ?_) (Nat.le_refl _)
  split
  · exact .pure
  · refine Cost.ite .panic (Cost.zbind ?_ fun _ => .pure)
    refine Cost.ite (Cost.ite .pure ?_) .pure
    split
    · exact .panic
    · exact .pure

theorem cost_rmAndRebal {k : HMap} {a : Nat} {g : HN K V → Prog (ND K V) (HN K V × Option (HRem K V))}
    (hg : ∀ x, Cost I (g x) (fun _ => a)) : Cost I (FHMap.rmAndRebal k g) (fun _ => c + a) := by
  unfold FHMap.rmAndRebal
  split
  · exact .pure
  · refine Cost.sbind (a := c + a) (b := 0)
      (cost_mutArc f (b := fun _ => a) fun x => cost_rmRoot f hg x) (fun x => ?_) (Nat.le_refl _)
    split
    · exact .pure
    · exact .pure
    · exact Cost.zbind (cost_drop f.dec _ _) fun _ => .pure

omit f in
theorem rmAndRebal_le {k : HMap} {g g' : HN K V → Prog (ND K V) (HN K V × Option (HRem K V))}
    (hg : ∀ x, (g x).Le (g' x)) : (FHMap.rmAndRebal k g).Le (FHMap.rmAndRebal k g') := by
  unfold FHMap.rmAndRebal
  split
  · exact Prog.Le.refl _
  · exact Prog.Le.bind (fun _ => Prog.Le.refl _) (mutArc_le fun x =>
      Prog.Le.bind (fun _ => Prog.Le.refl _) (hg x))

theorem spends_remove [Ord K] (h : m.WF) {p : K → Ordering} {m' old}
    (e : m.remove lin p = some (m', old)) :
    Spends I (FHMap.remove lin ⟨m.len, r⟩ p) (own r (vtO m.root))
      (fun x L => FR x.1 m' L ∧ x.2 = old) (fun _ => c * (3 * lvl MIN m.len)) := by
  have hq := hremove_spec (r := r) (fun nd hr => dep_len h hr) e
  refine Spends_root (fun hr hm => ?_) (fun a nd hr hm => ?_)
  · subst hr
    exact Spends.of_cost .pure hq
  · subst hr
    obtain ⟨d, h1, h2, h3⟩ := dep_lvl h hm
    have hw := hrm_spec (r := some a) (fun nd hr => dep_len h hr) (n := d + 1)
      (fun nd' hm' => by rw [hm] at hm'; cases hm'; exact h1) e
    rw [hm] at hq hw
    refine Spends.of_le (Prog.Le.bind (fun _ => Prog.Le.refl _)
      (rmAndRebal_le fun x => remove_le h3)) ?_ hw hq
    refine Cost.map (cost_rmAndRebal f (cost_remove f _ _ _ d)) (fun _ => ?_)
    have h4 := Nat.mul_le_mul_left c (Nat.mul_le_mul_left 3 h2)
    have h5 : 3 * c * d = c * (3 * d) := by rw [Nat.mul_comm 3 c, Nat.mul_assoc]
    rw [Nat.mul_add, Nat.mul_add] at h4
    omega

omit f in
theorem insert_len [Ord K] {k : K} {v : V} {z} (e : m.insert lin k v = some z) :
    z.1.len ≤ m.len + 1 := by
  unfold FMap.insert at e
  repeat' split at e
  all_goals cases e <;> dsimp only <;> omega

/-- Insertions one by one, into a map that grows to `len + es.length` entries. -/
theorem spends_extend [Ord K] [TransOrd K] (es : List (K × V)) : ∀ {m : FMap K V} {r m'}, m.WF →
    m.extend lin es = some m' →
    Spends I (FHMap.extend lin ⟨m.len, r⟩ es) (own r (vtO m.root)) (fun x L => FR x m' L)
      (fun _ => es.length * (c * lvl MIN (m.len + es.length) + (lvl MIN (m.len + es.length) + 1)))
      := by
  induction es with
  | nil =>
    intro m r m' h e
    cases e
    exact Spends.of_cost (.pure) (wp_pure ⟨r, rfl, rfl⟩)
  | cons e es ih =>
    intro m r m' h he
    obtain ⟨m1, e1, h1, -⟩ := FMap.insert_spec (lin := lin) h e.1 e.2
    simp only [FMap.extend, e1] at he
    have hl := insert_len e1
    have hl0 : lvl MIN m.len ≤ lvl MIN (m.len + (es.length + 1)) := lvl_mono (by omega)
    have hl1 : lvl MIN (m1.len + es.length) ≤ lvl MIN (m.len + (es.length + 1)) :=
      lvl_mono (by dsimp only at hl; omega)
    have hc0 := Nat.mul_le_mul_left c hl0
    have hc1 := Nat.mul_le_mul_left c hl1
    refine Spends.bind (m := fun _ _ => es.length * (c * lvl MIN (m.len + (es.length + 1)) +
      (lvl MIN (m.len + (es.length + 1)) + 1))) (spends_insert f h e1) ?_ ?_
    · rintro x L ⟨⟨r', h2, rfl⟩, -⟩
      rw [h2]
      refine (ih h1 he).conseq (fun _ _ h => h) (fun _ _ _ => ?_)
      exact Nat.mul_le_mul_left _ (by omega)
    · intro x y
      rw [List.length_cons, Nat.add_mul, Nat.one_mul]
      split <;> omega

/-! ### Mutable iterators -/

theorem mut_costs (hc : c = 0) (D : Nat) :
    GEach (fun p => Cost I p (fun _ => 0)) (mutOps (K := K) (V := V) D) where
  next w := .pure
  make s k := Cost.zbind (cost_openAt f hc _ _ _) fun _ => Cost.ite .panic .pure
  done e := .pure

theorem cost_iterMutRun (hc : c = 0) (D n : Nat) (g : Nat → K → V → V) (ds : List Bool)
    (r : Option Nat) (len : Nat) : Cost I (iterMutRun D n g ds r len) (fun _ => 0) := by
  have ho := mut_costs (K := K) (V := V) f hc D
  unfold iterMutRun
  split
  · exact Cost.zbind (ho.run closed_cost _ _ _ _) fun _ => .pure
  · exact Cost.zbind (ho.make _ _) fun _ => Cost.zbind (ho.run closed_cost _ _ _ _) fun _ =>
      Cost.zbind (cost_close f _) fun _ => .pure

end

/-! ## Commands -/

/-- How many nodes a command may allocate on a map of `n` entries, if each node on the way costs
`c`; `none`: nothing is claimed. -/
def allocs (c : Nat) : FOne K V Q → Nat → Option Nat
  | .insert _ _, n => some (c * lvl MIN n + (lvl MIN n + 1))
  | .remove _, n => some (c * (3 * lvl MIN n))
  | .getMut _ _, n => some (c * lvl MIN n)
  | .extend es, n => some (es.length *
      (c * lvl MIN (n + es.length) + (lvl MIN (n + es.length) + 1)))
  | .iterMut _ _, _ => if c = 0 then some 0 else none
  | .clone, _ | .intoIter _, _ => if c = 0 then none else some 0
  | _, _ => some 0

/-- Fewer nodes if an insertion replaces a value. -/
def less (n : Nat) (cmd : FOne K V Q) (b : Nat) : FRes K V → Nat
  | .val (some _) =>
    match cmd with
    | .insert _ _ => b - (lvl MIN n + 1)
    | _ => b
  | _ => b

theorem less_le (n : Nat) (cmd : FOne K V Q) (b : Nat) (o : FRes K V) : less n cmd b o ≤ b := by
  unfold less
  split
  · split <;> omega
  · exact Nat.le_refl _

theorem less_eq {n : Nat} {cmd : FOne K V Q} (h : ∀ k v, cmd ≠ .insert k v) (b : Nat)
    (o : FRes K V) : less n cmd b o = b := by
  unfold less
  split
  · split
    · exact absurd rfl (h _ _)
    · rfl
  · rfl

section
variable [Ord K] [TransOrd K] [Ord Q] [TransOrd Q] {lin : Bool} {b : K → Q}

theorem one_spends {I : Mem (ND K V) → Prop} {c : Nat} (f : Frugal I c)
    (hc : c ≠ 0 → ∀ h, I h) (hb : ∀ a c, compare (b a) (b c) = compare a c)
    {s : HMap} {m : FMap K V} {L} (hI : m.WF) (hR : FR s m L)
    (cmd : FOne K V Q) {k : Nat} (hk : allocs c cmd m.len = some k) :
    ∃ P, Spends I ((fixedM K V lin b).one s cmd) L P (fun x => less m.len cmd k x.2.2) := by
  obtain ⟨y, ey, -⟩ := (fixedV_total (lin := lin) hb).one cmd hI
  have hw := (fixedM_sound (lin := lin) hb).one hI hR ey
  have hp : ∀ q : Q, Verif.IsProbe (probe b q) := Verif.isProbe_borrow b hb
  obtain ⟨r, rfl, rfl⟩ := hR
  have hT : c ≠ 0 → I = fun _ => True := fun h => funext fun x => eq_true (hc h x)
  cases cmd with
  | clone =>
    refine ⟨_, Spends.of_cost ?_ hw⟩
    have h0 : c ≠ 0 := by rintro rfl; cases hk
    rw [hT h0]
    refine Prog.NoAlloc.cost (Prog.NoAlloc.map (Prog.NoAlloc.map ?_))
    cases r with
    | none => exact trivial
    | some a => exact Prog.NoAlloc.map (Prog.NoAlloc.lift nofun)
  | intoIter ds =>
    refine ⟨_, Spends.of_cost ?_ hw⟩
    have h0 : c ≠ 0 := by rintro rfl; cases hk
    rw [hT h0]
    exact Prog.NoAlloc.cost (Prog.NoAlloc.map (intoRun_noAlloc _ _ _ _ _))
  | drop =>
    cases hk
    exact ⟨_, Spends.of_cost (Cost.zbind (cost_drop f.dec _ _) fun _ => .pure) hw⟩
  | clear =>
    cases hk
    exact ⟨_, Spends.of_cost (Cost.zbind (Cost.zbind (cost_drop f.dec _ _) fun _ => .pure)
      fun _ => .pure) hw⟩
  | insert k v =>
    cases hk
    obtain ⟨m', e, -⟩ := FMap.insert_spec (lin := lin) hI k v
    refine ⟨fun _ _ => True, Spends.map (spends_insert f hI e) (fun _ _ _ => trivial) ?_⟩
    intro x L _
    cases hx : x.2 <;> simp [less]
  | remove q =>
    cases hk
    obtain ⟨m', e, -⟩ := FMap.remove_spec (lin := lin) hI (hp q)
    exact ⟨fun _ _ => True, Spends.map (spends_remove f hI e) (fun _ _ _ => trivial)
      (fun x L _ => by rw [less_eq nofun])⟩
  | getMut q g =>
    cases hk
    obtain ⟨m', e, -⟩ := FMap.getMut_spec (lin := lin) hI (hp q) g
    exact ⟨fun _ _ => True, Spends.map (spends_getMut f hI e) (fun _ _ _ => trivial)
      (fun _ _ _ => Nat.le_refl _)⟩
  | extend es =>
    cases hk
    obtain ⟨m', e, -⟩ := FMap.extend_spec (lin := lin) hI es
    exact ⟨fun _ _ => True, Spends.map (spends_extend f es hI e) (fun _ _ _ => trivial)
      (fun _ _ _ => Nat.le_refl _)⟩
  | iterMut g ds =>
    have h0 : c = 0 := by by_contra h; rw [allocs, if_neg h] at hk; cases hk
    exact ⟨_, Spends.of_cost (Cost.zbind (Cost.zbind ((cost_iterMutRun f h0 _ _ _ _ _ _).le
      (fun _ => Nat.zero_le _)) fun _ => .pure) fun _ => .pure) hw⟩
  | get q => exact ⟨_, Spends.of_cost (Prog.ReadOnly.map (get_reads _ _ _)).cost hw⟩
  | len | isEmpty => exact ⟨_, Spends.of_cost .pure hw⟩
  | iter ds => exact ⟨_, Spends.of_cost (Prog.ReadOnly.map (iterRun_reads _ _ _ _)).cost hw⟩

theorem remove_len {m : FMap K V} {p : K → Ordering} {z} (e : m.remove lin p = some z) :
    z.1.len ≤ m.len := by
  unfold FMap.remove at e
  split at e
  · cases e; exact Nat.le_refl _
  obtain ⟨y, e1, rfl⟩ := Option.map_eq_some_iff.1 e
  unfold FMap.rmAndRebal at e1
  repeat' split at e1
  all_goals first
    | (cases e1; done)
    | (cases e1; dsimp only; omega)
    | (obtain ⟨w, -, rfl⟩ := Option.map_eq_some_iff.1 e1; dsimp only; omega)

theorem getMut_len {m : FMap K V} {p : K → Ordering} {g : V → V} {z}
    (e : m.getMut lin p g = some z) : z.1.len = m.len := by
  unfold FMap.getMut at e
  split at e
  · cases e; rfl
  · obtain ⟨y, -, rfl⟩ := Option.map_eq_some_iff.1 e; rfl

/-- Commands that add one entry at most. -/
def single : FOne K V Q → Bool
  | .extend _ => false
  | _ => true

theorem one_size {m : FMap K V} (cmd : FOne K V Q) (hs : single cmd) {y}
    (e : (fixedV K V lin b).one m cmd = some y) :
    (∀ m' ∈ y.1, m'.len ≤ m.len + 1) ∧ ∀ m' ∈ y.2.1, m'.len ≤ m.len + 1 := by
  cases cmd with
  | clone => cases e; simp
  | drop => cases e; simp
  | intoIter => obtain ⟨z, -, rfl⟩ := Option.map_eq_some_iff.1 e; simp
  | clear => cases e; simp [FMap.clear, FMap.new]
  | insert k v =>
    obtain ⟨z, e1, rfl⟩ := Option.map_eq_some_iff.1 e
    simp [insert_len e1]
  | remove p =>
    obtain ⟨z, e1, rfl⟩ := Option.map_eq_some_iff.1 e
    have := remove_len e1
    simp
    omega
  | getMut p g =>
    obtain ⟨z, e1, rfl⟩ := Option.map_eq_some_iff.1 e
    simp [getMut_len e1]
  | iterMut g ds =>
    obtain ⟨z, -, rfl⟩ := Option.map_eq_some_iff.1 e
    simp [written]
  | len | isEmpty => cases e; simp
  | get p | iter ds =>
    obtain ⟨z, -, rfl⟩ := Option.map_eq_some_iff.1 e
    simp
  | extend => cases hs

/-! ## Programs -/

omit [Ord K] [TransOrd K] [Ord Q] [TransOrd Q] in
theorem allocs_isSome (c : Nat) (cmd : FOne K V Q) (n : Nat) :
    (allocs c cmd n).isSome = (allocs c cmd 0).isSome := by
  cases cmd <;> simp only [allocs, Option.isSome_some] <;> split <;> rfl

theorem fixed_budget {I : Mem (ND K V) → Prop} {c : Nat} (f : Frugal I c)
    (hc : c ≠ 0 → ∀ h, I h) (hb : ∀ a c, compare (b a) (b c) = compare a c) :
    Budget (fixedM K V lin b) (fixedV K V lin b) FMap.WF FR I (·.len) (fun c => c = .new)
      (fun cmd => single cmd ∧ (allocs c cmd 0).isSome) (fun cmd n => (allocs c cmd n).getD 0) where
  mono cmd m n h := by
    have h0 := lvl_mono (N := MIN) h
    have h1 := Nat.mul_le_mul_left c h0
    have h3 := Nat.mul_le_mul_left c (Nat.mul_le_mul_left 3 h0)
    cases cmd with
    | extend es =>
      simp only [allocs, Option.getD_some]
      have h4 := lvl_mono (N := MIN) (Nat.add_le_add_right h es.length)
      have h5 := Nat.mul_le_mul_left c h4
      exact Nat.mul_le_mul_left _ (by omega)
    | _ =>
      simp only [allocs, Option.getD_some, Nat.le_refl] <;>
      first
      | exact Nat.le_refl _
      | (split <;> exact Nat.le_refl _)
      | omega
  make c' h := by
    subst h
    refine ⟨.pure, ?_⟩
    rintro y ⟨⟩ m hm
    simp only [List.mem_singleton] at hm
    subst hm
    exact Nat.zero_le _
  one {s m L} cmd h hI hR := by
    have h := h.2
    rw [← allocs_isSome c cmd m.len] at h
    obtain ⟨k, hk⟩ := Option.isSome_iff_exists.1 h
    obtain ⟨Q, hq⟩ := one_spends f hc hb hI hR cmd hk
    exact ⟨Q, hq.conseq (fun _ _ h => h) (fun x L _ => by
      rw [hk, Option.getD_some]; exact less_le _ _ _ _)⟩
  size {m} cmd h hI y e := one_size cmd h.1 e
  look s s' c := nomatch c

theorem fixed_run {I : Mem (ND K V) → Prop} {c : Nat} (f : Frugal I c) (hc : c ≠ 0 → ∀ h, I h)
    (h0 : I .empty) (hb : ∀ a c, compare (b a) (b c) = compare a c)
    (cs : List (Cmd (Make K V) (FOne K V Q) Empty Empty))
    (hs : ∀ x ∈ cs, x.All (· = .new) (fun cmd => single cmd ∧ (allocs c cmd 0).isSome)
      (fun _ => False)) :
    ∃ h rs obs, (Machine.run (fixedM K V lin b) cs []).exec .empty = some (h, some (rs, obs)) ∧
      h.next ≤ cost1 (fun cmd n => (allocs c cmd n).getD 0) cs.length cs := by
  obtain ⟨-, obs, -, h, rs, e⟩ := shown_of (fixedV_total hb) (fixedM_sound (lin := lin) hb) cs
  obtain ⟨-, hn⟩ := budget_run (fixedV_total hb) (fixedM_sound hb) (fixed_budget f hc hb)
    cs hs (N := 0) Sim.init h0 (by simp) e
  refine ⟨h, rs, obs, e, ?_⟩
  rw [Nat.zero_add] at hn
  exact Nat.le_trans hn (Nat.le_of_eq (Nat.zero_add _))

end

/-- Commands on maps by shared reference, but not `clone`. -/
def isShared : Cmd (Make K V) (FOne K V Q) Empty Empty → Prop
  | .one _ (.get _) | .one _ .len | .one _ .isEmpty | .one _ (.iter _) => True
  | _ => False

theorem fixed_quiet [Ord K] [Ord Q] {lin : Bool} {b : K → Q}
    {c : Cmd (Make K V) (FOne K V Q) Empty Empty} (hc : isShared c) :
    Quiet (fixedM K V lin b) c := by
  cases c with
  | make | two => exact hc.elim
  | look i j c => cases c
  | one i c =>
    intro s
    cases c with
    | get p => exact quiet_one (get_reads _ _ _)
    | len | isEmpty => exact ⟨trivial, by rintro h h' x ⟨⟩; exact ⟨rfl, rfl⟩⟩
    | iter ds => exact quiet_one (iterRun_reads _ _ _ _)
    | _ => exact hc.elim

end Verif.FixedH
