import Verif.Heap.Machine
import Mathlib.Algebra.BigOperators.Group.Multiset.Basic
/-!
# Programs over numbered objects in threads

A history is a list of phases.  In a phase the objects are dealt out to threads; each thread runs
its program on its own objects, their atomic steps interleaving in any way; at the end the objects
left over and those the threads have are there for the next phase.  A phase with one thread is a
sequential program.
-/
namespace Verif.Heap.Machine
open Verif.Heap

variable {P H M O C0 C1 C2 CR α : Type}

/-- The objects with the given numbers, to be numbered from 0 by the thread that gets them. -/
def pick (rs : List (Option α)) (is : List Nat) : List (Option α) := is.map (fun i => rs[i]?.join)

/-- What is left when the objects with the given numbers are gone. -/
def rest (rs : List (Option α)) (is : List Nat) : List (Option α) :=
  is.foldl (fun rs i => rs.set i none) rs

/-- A thread: the numbers of the objects it gets, and its program. -/
structure Thread (C0 C1 C2 CR : Type) where
  objs : List Nat
  prog : List (Cmd C0 C1 C2 CR)

/-- The numbers of all objects dealt out. -/
def dealt (p : List (Thread C0 C1 C2 CR)) : List Nat := p.flatMap (·.objs)

/-- The programs of the threads. -/
def progs {F : Type → Type} [Monad F] (I : Impl F H O C0 C1 C2 CR) (p : List (Thread C0 C1 C2 CR))
    (rs : List (Option H)) : List (F (List (Option H) × List (Option O))) :=
  p.map (fun t => run I t.prog (pick rs t.objs))

/-- Every behaviour of a history in memory: from memory `h` and objects `rs` the phases lead to
memory and objects, the threads having shown what is given (per phase, thread and command). -/
inductive Runs (I : Impl (Prog P) H O C0 C1 C2 CR) :
    Mem P → List (Option H) → List (List (Thread C0 C1 C2 CR)) →
    Mem P → List (Option H) → List (List (List (Option O))) → Prop
  | nil {h rs} : Runs I h rs [] h rs []
  | cons {h rs p h1 ps h2 rs2 obs} {xs : List (List (Option H) × List (Option O))} :
      (dealt p).Nodup → PRun (h, progs I p rs) (h1, xs.map .pure) →
      Runs I h1 (rest rs (dealt p) ++ xs.flatMap (·.1)) ps h2 rs2 obs →
      Runs I h rs (p :: ps) h2 rs2 (xs.map (·.2) :: obs)

/-- The same on values, one thread after the other. -/
def runAll (V : Impl Option M O C0 C1 C2 CR) (ms : List (Option M)) :
    List (Thread C0 C1 C2 CR) → Option (List (List (Option M) × List (Option O)))
  | [] => some []
  | t :: p => (run V t.prog (pick ms t.objs)).bind fun y => (runAll V ms p).map (y :: ·)

/-- A history on values. -/
def runs (V : Impl Option M O C0 C1 C2 CR) :
    List (Option M) → List (List (Thread C0 C1 C2 CR)) →
    Option (List (Option M) × List (List (List (Option O))))
  | ms, [] => some (ms, [])
  | ms, p :: ps =>
    (runAll V ms p).bind fun ys =>
    (runs V (rest ms (dealt p) ++ ys.flatMap (·.1)) ps).map fun z => (z.1, ys.map (·.2) :: z.2)

/-! ## Threads in general -/

theorem _root_.Verif.Heap.PRun.trans {s t u : Mem P × List (Prog P α)} (h1 : PRun s t) (h2 : PRun t u) : PRun s u := by
  induction h2 with
  | refl => exact h1
  | step _ hs ih => exact .step ih hs

theorem _root_.Verif.Heap.PRun.length {s u : Mem P × List (Prog P α)} (h : PRun s u) : u.2.length = s.2.length := by
  induction h with
  | refl => rfl
  | step _ hs ih => cases hs with | mk => simpa using ih

/-- One thread can be run to its end. -/
theorem _root_.Verif.Heap.Pool.finish_one {Qs : Nat → α → Multiset (Handle P) → Prop} {n : Nat}
    {F : Multiset (Handle P)} : ∀ (p : Prog P α) {h : Mem P} {ps : List (Prog P α)} {M} {i : Nat}
    (hi : i < ps.length), ps[i] = p → Pool Qs n ps M → Own h (M + F) →
    ∃ h' x, PRun (h, ps) (h', ps.set i (.pure x)) := by
  intro p
  induction p with
  | pure x =>
    intro h ps M i hi e _ _
    refine ⟨h, x, ?_⟩
    rw [← e, List.set_getElem_self]
    exact .refl
  | panic =>
    intro h ps M i hi e hp ho
    exact absurd e (hp.progress ho _ (List.getElem_mem hi)).1
  | op o k ih =>
    intro h ps M i hi e hp ho
    obtain ⟨h1, r, hs⟩ := (hp.progress ho _ (List.getElem_mem hi)).2 o k e
    obtain ⟨M1, hp1, ho1⟩ := hp.step hs ho hi e
    obtain ⟨h2, x, hr⟩ := ih r (i := i) (by simpa using hi) (by simp) hp1 ho1
    rw [List.set_set] at hr
    exact ⟨h2, x, PRun.trans (.step .refl (.mk hi e hs)) hr⟩

/-- All threads can be run to their ends. -/
theorem _root_.Verif.Heap.Pool.finish {Qs : Nat → α → Multiset (Handle P) → Prop} {n : Nat} {F : Multiset (Handle P)}
    {h : Mem P} {ps : List (Prog P α)} {M} (hp : Pool Qs n ps M) (ho : Own h (M + F)) :
    ∃ (h' : Mem P) (xs : List α), PRun (h, ps) (h', xs.map .pure) := by
  have key : ∀ j, j ≤ ps.length → ∃ h' ps', PRun (h, ps) (h', ps') ∧
      ∀ k (hk : k < ps'.length), k < j → ∃ x, ps'[k] = .pure x := by
    intro j
    induction j with
    | zero => intro _; exact ⟨h, ps, .refl, fun k _ hk => by omega⟩
    | succ j ih =>
      intro hj
      obtain ⟨h1, ps1, hr, hd⟩ := ih (by omega)
      obtain ⟨M1, hp1, ho1⟩ := hp.run hr ho
      have hl := hr.length
      simp only at hl
      obtain ⟨h2, x, hr2⟩ := Pool.finish_one (ps1[j]'(by omega)) (by omega) rfl hp1 ho1
      refine ⟨h2, _, hr.trans hr2, ?_⟩
      intro k hk hkj
      rw [List.getElem_set]
      split
      · exact ⟨x, rfl⟩
      · exact hd k (by simpa using hk) (by omega)
  obtain ⟨h', ps', hr, hd⟩ := key _ le_rfl
  have hl := hr.length
  simp only at hl
  have : ∃ xs : List α, ps' = xs.map .pure := by
    clear hr
    have hd' : ∀ k (hk : k < ps'.length), ∃ x, ps'[k] = .pure x :=
      fun k hk => hd k hk (by omega)
    clear hl hd
    induction ps' with
    | nil => exact ⟨[], rfl⟩
    | cons p ps' ih =>
      obtain ⟨xs, hx⟩ := ih (fun k hk => by
        have := hd' (k + 1) (by simpa using hk); simpa using this)
      obtain ⟨x, hx0⟩ := hd' 0 (by simp)
      exact ⟨x :: xs, by simp only [List.map_cons, ← hx]; simpa using hx0⟩
  obtain ⟨xs, rfl⟩ := this
  exact ⟨h', xs, hr⟩

/-! ## Dealing out objects -/

theorem rest_append (rs : List (Option α)) (is js : List Nat) :
    rest rs (is ++ js) = rest (rest rs is) js := by
  simp [rest, List.foldl_append]

theorem pick_set (rs : List (Option α)) (is : List Nat) {i : Nat} (h : i ∉ is) (o : Option α) :
    pick (rs.set i o) is = pick rs is := by
  apply List.map_congr_left
  intro j hj
  rw [List.getElem?_set_ne (by rintro rfl; exact h hj)]

theorem pick_rest (js : List Nat) : ∀ (is : List Nat) (rs : List (Option α)),
    (∀ i ∈ is, i ∉ js) → pick (rest rs is) js = pick rs js
  | [], rs, _ => rfl
  | i :: is, rs, h => by
    have e : rest rs (i :: is) = rest (rs.set i none) is := rfl
    rw [e, pick_rest js is _ (fun j hj => h j (List.mem_cons_of_mem _ hj)),
      pick_set _ _ (h i (List.mem_cons_self ..))]

variable {R : H → M → Multiset (Handle P) → Prop} {Inv : M → Prop}

theorem HoldsR.deal : ∀ (is : List Nat) {rs ms L}, HoldsR R rs ms L → is.Nodup →
    ∃ A G, L = A + G ∧ HoldsR R (pick rs is) (pick ms is) A ∧
      HoldsR R (rest rs is) (rest ms is) G
  | [], rs, ms, L, h, _ => ⟨0, L, (zero_add _).symm, .nil, h⟩
  | i :: is, rs, ms, L, h, hn => by
    obtain ⟨hi, hn⟩ := List.nodup_cons.1 hn
    obtain ⟨L1, G, e, h3, -, h5⟩ := h.get i
    have h6 := h5 none none 0 .none (.inr rfl)
    rw [zero_add] at h6
    obtain ⟨A, G', e', h7, h8⟩ := h6.deal is hn
    rw [pick_set _ _ hi, pick_set _ _ hi] at h7
    exact ⟨L1 + A, G', by rw [e, e']; ac_rfl, .cons h3 h7, h8⟩

theorem AllInv.pick {ms : List (Option M)} (h : AllInv Inv ms) (is : List Nat) :
    AllInv Inv (pick ms is) := by
  intro m hm
  obtain ⟨i, -, e⟩ := List.mem_map.1 hm
  exact h.get e

theorem AllInv.rest : ∀ (is : List Nat) {ms : List (Option M)}, AllInv Inv ms →
    AllInv Inv (rest ms is)
  | [], _, h => h
  | i :: is, _, h => AllInv.rest is (h.set (by simp) i)

theorem AllInv.append' {ms ns : List (Option M)} (h : AllInv Inv ms) (hn : AllInv Inv ns) :
    AllInv Inv (ms ++ ns) := by
  intro m hm
  rcases List.mem_append.1 hm with h1 | h1
  · exact h m h1
  · exact hn m h1

section
variable {I : Impl (Prog P) H O C0 C1 C2 CR} {V : Impl Option M O C0 C1 C2 CR}

/-- The objects are the values, and memory is in order. -/
def Sim (Inv : M → Prop) (R : H → M → Multiset (Handle P) → Prop) (h : Mem P)
    (rs : List (Option H)) (ms : List (Option M)) : Prop :=
  AllInv Inv ms ∧ ∃ L, HoldsR R rs ms L ∧ Own h L

theorem Sim.init : Sim Inv R (Mem.empty : Mem P) [] [] := ⟨.nil, 0, .nil, .empty⟩

/-- A program run alone. -/
theorem Sim.run (T : Total V Inv) (S : Sound I V Inv R) (cs : List (Cmd C0 C1 C2 CR)) {h : Mem P}
    {rs ms} (hs : Sim Inv R h rs ms) :
    ∃ z, Machine.run V cs ms = some z ∧ ∃ h' rs', (Machine.run I cs rs).exec h = some (h', some (rs', z.2)) ∧
      Sim Inv R h' rs' z.1 := by
  obtain ⟨hI, L, hR, hO⟩ := hs
  obtain ⟨z, e, hz⟩ := run_total T cs hI
  obtain ⟨h', x, L', e', ho, h1, h2⟩ := wp_exec (F := 0) (run_sound T S cs hR hI e) (h := h)
    (by rwa [add_zero])
  refine ⟨z, e, h', x.1, ?_, hz, L', h2, by rwa [add_zero] at ho⟩
  rw [e', ← h1]

theorem runAll_total (T : Total V Inv) {ms : List (Option M)} (h : AllInv Inv ms) :
    ∀ (p : List (Thread C0 C1 C2 CR)), ∃ ys, runAll V ms p = some ys ∧
      AllInv Inv (ys.flatMap (·.1))
  | [] => ⟨[], rfl, .nil⟩
  | t :: p => by
    obtain ⟨y, e, hy⟩ := run_total T t.prog (h.pick t.objs)
    obtain ⟨ys, e2, hys⟩ := runAll_total T h p
    exact ⟨y :: ys, by simp [runAll, e, e2], by simpa using hy.append' hys⟩

/-- What a thread ends with. -/
def Post (V : Impl Option M O C0 C1 C2 CR) (R : H → M → Multiset (Handle P) → Prop)
    (ms : List (Option M)) (p : List (Thread C0 C1 C2 CR)) (n : Nat)
    (x : List (Option H) × List (Option O)) (L : Multiset (Handle P)) : Prop :=
  ∃ t y, p[n]? = some t ∧ Machine.run V t.prog (pick ms t.objs) = some y ∧ x.2 = y.2 ∧
    HoldsR R x.1 y.1 L

/-- The threads start in order. -/
theorem fork_pool (T : Total V Inv) (S : Sound I V Inv R) (ms0 : List (Option M))
    (rs0 : List (Option H)) (hI : AllInv Inv ms0)
    (p0 : List (Thread C0 C1 C2 CR)) : ∀ (p : List (Thread C0 C1 C2 CR)) (n : Nat) {rs ms L},
    HoldsR R rs ms L → (dealt p).Nodup →
    (∀ k t, p[k]? = some t → p0[n + k]? = some t) →
    (∀ t ∈ p, pick rs t.objs = pick rs0 t.objs ∧ pick ms t.objs = pick ms0 t.objs) →
    ∃ A G, L = A + G ∧ Pool (Post V R ms0 p0) n (progs I p rs0) A ∧
      HoldsR R (rest rs (dealt p)) (rest ms (dealt p)) G
  | [], n, rs, ms, L, h, _, _, _ => ⟨0, L, (zero_add _).symm, .nil, h⟩
  | t :: p, n, rs, ms, L, h, hn, hp, hk => by
    have hd : dealt (t :: p) = t.objs ++ dealt p := by simp [dealt]
    rw [hd, List.nodup_append] at hn
    obtain ⟨n1, n2, n3⟩ := hn
    obtain ⟨A, G, e, h1, h2⟩ := h.deal t.objs n1
    obtain ⟨A', G', e', h3, h4⟩ := fork_pool T S ms0 rs0 hI p0 p (n + 1) h2 n2
      (fun k t' hk' => by
        have := hp (k + 1) t' (by simpa using hk')
        have e : n + (k + 1) = n + 1 + k := by omega
        rwa [e] at this)
      (fun t' ht' => by
        have hdis : ∀ i ∈ t.objs, i ∉ t'.objs := fun i hi hi' =>
          n3 i hi i (List.mem_flatMap.2 ⟨t', ht', hi'⟩) rfl
        rw [pick_rest _ _ _ hdis, pick_rest _ _ _ hdis]
        exact hk t' (List.mem_cons_of_mem _ ht'))
    obtain ⟨k1, k2⟩ := hk t (List.mem_cons_self ..)
    rw [k1, k2] at h1
    obtain ⟨y, ey, -⟩ := run_total T t.prog (hI.pick t.objs)
    refine ⟨A + A', G', by rw [e, e']; ac_rfl, ?_, by rw [hd, rest_append, rest_append]; exact h4⟩
    refine .cons ?_ h3
    refine wp_conseq (run_sound T S t.prog h1 (hI.pick _) ey) ?_
    rintro x L' ⟨h5, h6⟩
    exact ⟨t, y, by have := hp 0 t rfl; simpa using this, ey, h5, h6⟩

theorem join_holds {ms0 : List (Option M)} {p0 : List (Thread C0 C1 C2 CR)} :
    ∀ (p : List (Thread C0 C1 C2 CR)) (n : Nat) {ys} {xs : List (List (Option H) × List (Option O))}
      {Ls : List (Multiset (Handle P))},
    (∀ k t, p[k]? = some t → p0[n + k]? = some t) → runAll V ms0 p = some ys →
    xs.length = p.length → Ls.length = xs.length →
    (∀ i (h1 : i < xs.length) (h2 : i < Ls.length), Post V R ms0 p0 (n + i) xs[i] Ls[i]) →
    HoldsR R (xs.flatMap (·.1)) (ys.flatMap (·.1)) Ls.sum ∧ xs.map (·.2) = ys.map (·.2)
  | [], n, ys, xs, Ls, _, e, h1, h2, _ => by
    cases e
    cases List.length_eq_zero_iff.1 (by simpa using h1)
    cases List.length_eq_zero_iff.1 (by simpa using h2)
    exact ⟨.nil, rfl⟩
  | t :: p, n, ys, x :: xs, L :: Ls, hp, e, h1, h2, hq => by
    simp only [runAll, Option.bind_eq_some_iff, Option.map_eq_some_iff] at e
    obtain ⟨y, e1, ys, e2, rfl⟩ := e
    obtain ⟨g1, g2⟩ := join_holds p (n + 1) (xs := xs) (Ls := Ls)
      (fun k t' hk' => by
        have := hp (k + 1) t' (by simpa using hk')
        have e : n + (k + 1) = n + 1 + k := by omega
        rwa [e] at this) e2 (by simpa using h1) (by simpa using h2)
      (fun i i1 i2 => by
        have := hq (i + 1) (by simpa using i1) (by simpa using i2)
        have e : n + (i + 1) = n + 1 + i := by omega
        rw [e] at this
        simpa using this)
    obtain ⟨t', y', q1, q2, q3, q4⟩ := hq 0 (by simp) (by simp)
    have := hp 0 t rfl
    rw [this] at q1
    cases q1
    rw [e1] at q2
    cases q2
    simp only [List.getElem_cons_zero] at q3 q4
    refine ⟨?_, by simp [q3, g2]⟩
    simp only [List.flatMap_cons, List.sum_cons]
    exact q4.append g1

/-- Threads run to their ends. -/
theorem Sim.join (T : Total V Inv) (S : Sound I V Inv R) {h : Mem P} {rs ms}
    (hs : Sim Inv R h rs ms) {p : List (Thread C0 C1 C2 CR)} (hn : (dealt p).Nodup) {h1 : Mem P}
    {xs : List (List (Option H) × List (Option O))}
    (hr : PRun (h, progs I p rs) (h1, xs.map .pure)) :
    ∃ ys, runAll V ms p = some ys ∧ xs.map (·.2) = ys.map (·.2) ∧
      Sim Inv R h1 (rest rs (dealt p) ++ xs.flatMap (·.1)) (rest ms (dealt p) ++ ys.flatMap (·.1)) := by
  obtain ⟨hI, L, hR, hO⟩ := hs
  obtain ⟨A, G, e, hp, hG⟩ := fork_pool T S ms rs hI p p 0 hR hn (by simp) (by simp)
  obtain ⟨ys, ey, hy⟩ := runAll_total T hI p
  rw [e] at hO
  obtain ⟨A', hp', ho'⟩ := hp.run hr hO
  obtain ⟨Ls, l1, l2, l3⟩ := hp'.done ho'
  have hl : xs.length = p.length := by have := hr.length; simpa [progs] using this
  obtain ⟨g1, g2⟩ := join_holds p 0 (by simp) ey hl l1 l3
  refine ⟨ys, ey, g2, (hI.rest _).append' hy, G + Ls.sum, hG.append g1, ?_⟩
  rwa [add_comm]

/-- A thread that is done has the result it should have. -/
theorem _root_.Verif.Heap.Pool.result {Qs : Nat → α → Multiset (Handle P) → Prop} {h : Mem P} :
    ∀ {ps : List (Prog P α)} {n : Nat} {M F : Multiset (Handle P)}, Pool Qs n ps M →
    Own h (M + F) → ∀ {i x}, ps[i]? = some (.pure x) → ∃ L, Qs (n + i) x L := by
  intro ps
  induction ps with
  | nil => intro n M F _ _ i x e; simp at e
  | cons p ps ih =>
    intro n M F hp ho i x e
    cases hp with
    | @cons _ _ _ L M hw hrest =>
      cases i with
      | zero =>
        simp only [List.getElem?_cons_zero, Option.some.injEq] at e
        subst e
        rw [add_assoc] at ho
        obtain ⟨L', -, h2⟩ := hw h (M + F) ho
        exact ⟨L', h2⟩
      | succ i =>
        have : L + M + F = M + (L + F) := by ac_rfl
        rw [this] at ho
        obtain ⟨L', h2⟩ := ih hrest ho (by simpa using e)
        have e : n + 1 + i = n + (i + 1) := by omega
        exact ⟨L', e ▸ h2⟩

/-- At any moment: no thread is at a panic, none is stuck, one that is done has shown what it
should, and all can be run to their ends. -/
theorem Sim.progress (T : Total V Inv) (S : Sound I V Inv R) {h : Mem P} {rs ms}
    (hs : Sim Inv R h rs ms) {p : List (Thread C0 C1 C2 CR)} (hn : (dealt p).Nodup) {h1 : Mem P}
    {qs : List (Prog P (List (Option H) × List (Option O)))}
    (hr : PRun (h, progs I p rs) (h1, qs)) :
    (∀ q ∈ qs, q ≠ .panic ∧ ∀ o k, q = .op o k → ∃ h' r, o.step h1 = some (h', r)) ∧
    (∀ (i : Nat) (x : List (Option H) × List (Option O)), qs[i]? = some (.pure x) → ∃ t y, p[i]? = some t ∧
      Machine.run V t.prog (pick ms t.objs) = some y ∧ x.2 = y.2) ∧
    ∃ (h2 : Mem P) (xs : List (List (Option H) × List (Option O))),
      PRun (h1, qs) (h2, xs.map .pure) := by
  obtain ⟨hI, L, hR, hO⟩ := hs
  obtain ⟨A, G, e, hp, hG⟩ := fork_pool T S ms rs hI p p 0 hR hn (by simp) (by simp)
  rw [e] at hO
  obtain ⟨A', hp', ho'⟩ := hp.run hr hO
  refine ⟨hp'.progress ho', ?_, Pool.finish hp' ho'⟩
  intro i x e
  obtain ⟨L', t, y, h1, h2, h3, -⟩ := hp'.result ho' e
  exact ⟨t, y, by simpa using h1, h2, h3⟩

theorem Sim.runs (T : Total V Inv) (S : Sound I V Inv R) {h : Mem P} {rs ph h' rs' obs}
    (hr : Runs I h rs ph h' rs' obs) : ∀ {ms}, Sim Inv R h rs ms →
    ∃ ms', Machine.runs V ms ph = some (ms', obs) ∧ Sim Inv R h' rs' ms' := by
  induction hr with
  | nil => intro ms hs; exact ⟨ms, rfl, hs⟩
  | cons hn hp _ ih =>
    intro ms hs
    obtain ⟨ys, e1, e2, hs1⟩ := hs.join T S hn hp
    obtain ⟨ms', e3, hs2⟩ := ih hs1
    exact ⟨ms', by simp [Machine.runs, e1, e3, e2], hs2⟩

/-! ## Counts -/

/-- How many objects refer to the node at `a`. -/
def handles (root : H → Option Nat) (rs : List (Option H)) (a : Nat) : Nat :=
  rs.countP (fun r => r.bind root == some a)

theorem HoldsR.ext {root : H → Option Nat}
    (hroot : ∀ h m L, R h m L → ∃ t, L = own (root h) t) {ss ls L} (h : HoldsR R ss ls L) (a : Nat) :
    ext L a = handles root ss a := by
  induction h with
  | nil => simp [handles]
  | @cons s l L ss ls M h1 _ ih =>
    rw [ext_add, ih]
    cases h1 with
    | none => simp [handles]
    | @some s l _ h1 =>
      obtain ⟨t, rfl⟩ := hroot _ _ _ h1
      rw [ext_own]
      simp only [handles, List.countP_cons, Option.bind_some, beq_iff_eq]
      omega

/-- The counts are exact. -/
theorem Sim.counts {root : H → Option Nat}
    (hroot : ∀ h m L, R h m L → ∃ t, L = own (root h) t) {h : Mem P} {rs ms}
    (hs : Sim Inv R h rs ms) (a : Nat) :
    (∀ cell, h.cells a = some cell → cell.rc = handles root rs a + links h a ∧ 0 < cell.rc) ∧
    (h.cells a = none ↔ handles root rs a + links h a = 0) := by
  obtain ⟨-, M, hR, hO⟩ := hs
  have hc := hO.cnt a
  rw [hR.ext hroot a] at hc
  cases h : h.cells a with
  | none =>
    rw [h] at hc
    exact ⟨by simp, by simpa using hc⟩
  | some cell =>
    rw [h] at hc
    dsimp only at hc
    exact ⟨by rintro _ ⟨⟩; exact hc, by constructor <;> intro h <;> [cases h; omega]⟩

/-- When no object is left, no node is. -/
theorem Sim.no_leak {h : Mem P} {rs ms} (hs : Sim Inv R h rs ms) (hd : ∀ s, some s ∉ rs) (a : Nat) :
    h.cells a = none := by
  obtain ⟨-, M, hR, hO⟩ := hs
  have : M = 0 := by
    clear hO
    induction hR with
    | nil => rfl
    | cons h1 _ ih =>
      cases h1 with
      | none => rw [ih (fun s hs => hd s (List.mem_cons_of_mem _ hs)), zero_add]
      | some h1 => exact absurd (List.mem_cons_self ..) (hd _)
  rw [this] at hO
  exact hO.no_leak a

end
end Verif.Heap.Machine
