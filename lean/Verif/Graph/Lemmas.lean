/-
Helper lemmas: what the edit operations do to the list of edges, up to order, and what the
semantics of a graph depends on.
-/
import Verif.Graph.Spec
import Mathlib.Data.List.Perm.Subperm
import Mathlib.Data.List.Perm.Lattice
import Mathlib.Data.List.Nodup

namespace MCT.Graph
open MCT.GraphSpec

set_option linter.unusedSectionVars false
set_option linter.unusedVariables false
set_option linter.unusedSimpArgs false

variable {N V : Type*} [DecidableEq N]

/-! ### Removing the last match -/

theorem eraseLast_perm {α : Type*} (p : α → Bool) (l : List α) (h : l.any p = true) :
    ∃ a, a ∈ l ∧ p a = true ∧ l.Perm (a :: eraseLast p l) := by
  have h' : ∃ a ∈ l.reverse, p a = true := by
    rw [List.any_eq_true] at h
    obtain ⟨a, ha, hp⟩ := h
    exact ⟨a, List.mem_reverse.2 ha, hp⟩
  obtain ⟨a, ha, hp⟩ := h'
  obtain ⟨b, l₁, l₂, _, hb, e1, e2⟩ := List.exists_of_eraseP ha hp
  refine ⟨b, ?_, hb, ?_⟩
  · rw [← List.mem_reverse, e1]; simp
  · have : l.Perm l.reverse := (List.reverse_perm l).symm
    refine this.trans ?_
    rw [eraseLast, e2, e1]
    refine List.perm_middle.trans (List.Perm.cons _ ?_)
    exact (List.reverse_perm _).symm

theorem removeEdge_perm {g : Gr N} {u w : N} {e : Edge N} {R : List (Edge N)}
    (hp : g.edges.Perm (e :: R)) (hs : e.src = u) (hd : e.dst = w)
    (hR : ∀ r ∈ R, ¬ (r.src = u ∧ r.dst = w)) :
    ∃ E, removeEdge g u w = some { g with edges := E } ∧ E.Perm R := by
  have hany : g.edges.any (fun e => decide (e.src = u) && decide (e.dst = w)) = true := by
    rw [List.any_eq_true]
    exact ⟨e, hp.mem_iff.2 List.mem_cons_self, by simp [hs, hd]⟩
  obtain ⟨a, ha, hpa, hperm⟩ := eraseLast_perm _ _ hany
  refine ⟨_, by simp only [removeEdge]; rw [if_pos hany], ?_⟩
  have hae : a = e := by
    rcases List.mem_cons.1 (hp.mem_iff.1 ha) with h | h
    · exact h
    · exact absurd (by simpa using hpa) (hR a h)
  subst hae
  exact (List.perm_cons a).1 (hperm.symm.trans hp)

/-! ### Moving the edges of a node to another node -/

/-- The edge with its source moved. -/
def moveSrc (cur new : N) (e : Edge N) : Edge N := if e.src = cur then { e with src := new } else e
/-- The edge with its sink moved. -/
def moveDst (cur new : N) (e : Edge N) : Edge N := if e.dst = cur then { e with dst := new } else e

theorem addNode_of_mem {g : Gr N} {n : N} (h : n ∈ g.nodes) : addNode g n = g := by
  simp [addNode, h]

theorem addEdge_of_mem {g : Gr N} {e : Edge N} (h1 : e.src ∈ g.nodes) (h2 : e.dst ∈ g.nodes) :
    addEdge g e = { g with edges := g.edges ++ [e] } := by
  simp [addEdge, addNode_of_mem h1, addNode_of_mem h2]

theorem reconnectOut_loop (cur new : N) (hne : cur ≠ new) :
    ∀ (S : List (Edge N)) (g : Gr N) (A R : List (Edge N)),
      new ∈ g.nodes → (∀ e ∈ S, e.dst ∈ g.nodes) → (∀ e ∈ A, e.src = cur) →
      (A.map Edge.dst).Perm (S.map Edge.dst) → (∀ e ∈ R, e.src ≠ cur) →
      g.edges.Perm (A ++ R) →
      ∃ E, S.foldlM (fun g e => removeEdge (addEdge g { e with src := new }) cur e.dst) g
          = some { g with edges := E } ∧
        E.Perm (S.map (fun e => { e with src := new }) ++ R) := by
  intro S
  induction S with
  | nil =>
    intro g A R _ _ _ hAS _ hE
    have : A = [] := by simpa using hAS
    subst this
    exact ⟨g.edges, rfl, by simpa using hE⟩
  | cons e S ih =>
    intro g A R hnew hd hA hAS hR hE
    have hed : e.dst ∈ g.nodes := hd e List.mem_cons_self
    rw [List.foldlM_cons]
    have hadd : addEdge g { e with src := new } =
        { g with edges := g.edges ++ [{ e with src := new }] } := addEdge_of_mem hnew hed
    rw [hadd]
    set g1 : Gr N := { g with edges := g.edges ++ [{ e with src := new }] } with hg1
    have hmem : e.dst ∈ A.map Edge.dst := hAS.mem_iff.2 (by simp)
    obtain ⟨x0, hx0, hx0d⟩ := List.mem_map.1 hmem
    have hany : g1.edges.any (fun e' => decide (e'.src = cur) && decide (e'.dst = e.dst)) = true := by
      rw [List.any_eq_true]
      refine ⟨x0, ?_, by simp [hA x0 hx0, hx0d]⟩
      simp [hg1, hE.mem_iff, hx0]
    obtain ⟨x, hx, hpx, hperm⟩ := eraseLast_perm _ _ hany
    have hxs : x.src = cur ∧ x.dst = e.dst := by simpa using hpx
    have hxA : x ∈ A := by
      have : x ∈ g.edges ++ [{ e with src := new }] := hx
      rcases List.mem_append.1 this with h | h
      · rcases List.mem_append.1 (hE.mem_iff.1 h) with h | h
        · exact h
        · exact absurd hxs.1 (hR x h)
      · rw [List.mem_singleton] at h
        rw [h] at hxs
        exact absurd hxs.1.symm hne
    have hA' : A.Perm (x :: A.erase x) := List.perm_cons_erase hxA
    have hre : removeEdge g1 cur e.dst = some { g1 with edges := (eraseLast
        (fun e' => decide (e'.src = cur) && decide (e'.dst = e.dst)) g1.edges) } := by
      simp only [removeEdge]; rw [if_pos hany]
    rw [hre]
    set L := eraseLast (fun e' => decide (e'.src = cur) && decide (e'.dst = e.dst)) g1.edges with hL
    have hLp : L.Perm (A.erase x ++ ({ e with src := new } :: R)) := by
      have h1 : (x :: L).Perm (A ++ R ++ [{ e with src := new }]) :=
        hperm.symm.trans (List.Perm.append_right _ hE)
      have h2 : (A ++ R ++ [{ e with src := new }]).Perm
          (x :: (A.erase x ++ ({ e with src := new } :: R))) := by
        rw [List.append_assoc]
        refine (List.Perm.append_right _ hA').trans ?_
        rw [List.cons_append]
        refine List.Perm.cons _ (List.Perm.append_left _ ?_)
        exact List.perm_append_singleton _ _
      exact (List.perm_cons x).1 (h1.trans h2)
    have := ih { g1 with edges := L } (A.erase x) ({ e with src := new } :: R) hnew
      (fun e' he' => hd e' (List.mem_cons_of_mem _ he'))
      (fun e' he' => hA e' (List.mem_of_mem_erase he'))
      (by
        have h3 : (x.dst :: (A.erase x).map Edge.dst).Perm (e.dst :: S.map Edge.dst) :=
          ((hA'.map Edge.dst).symm.trans hAS)
        rw [hxs.2] at h3
        exact (List.perm_cons _).1 h3)
      (by
        intro e' he'
        rcases List.mem_cons.1 he' with h | h
        · rw [h]; exact fun h' => hne h'.symm
        · exact hR e' h)
      hLp
    obtain ⟨E, hE1, hE2⟩ := this
    refine ⟨E, hE1, hE2.trans ?_⟩
    rw [List.map_cons, List.cons_append]
    exact List.perm_middle

theorem reconnectIn_loop (cur new : N) (hne : cur ≠ new) :
    ∀ (S : List (Edge N)) (g : Gr N) (A R : List (Edge N)),
      new ∈ g.nodes → (∀ e ∈ S, e.src ∈ g.nodes) → (∀ e ∈ A, e.dst = cur) →
      (A.map Edge.src).Perm (S.map Edge.src) → (∀ e ∈ R, e.dst ≠ cur) →
      g.edges.Perm (A ++ R) →
      ∃ E, S.foldlM (fun g e => removeEdge (addEdge g { e with dst := new }) e.src cur) g
          = some { g with edges := E } ∧
        E.Perm (S.map (fun e => { e with dst := new }) ++ R) := by
  intro S
  induction S with
  | nil =>
    intro g A R _ _ _ hAS _ hE
    have : A = [] := by simpa using hAS
    subst this
    exact ⟨g.edges, rfl, by simpa using hE⟩
  | cons e S ih =>
    intro g A R hnew hd hA hAS hR hE
    have hed : e.src ∈ g.nodes := hd e List.mem_cons_self
    rw [List.foldlM_cons]
    have hadd : addEdge g { e with dst := new } =
        { g with edges := g.edges ++ [{ e with dst := new }] } := addEdge_of_mem hed hnew
    rw [hadd]
    set g1 : Gr N := { g with edges := g.edges ++ [{ e with dst := new }] } with hg1
    have hmem : e.src ∈ A.map Edge.src := hAS.mem_iff.2 (by simp)
    obtain ⟨x0, hx0, hx0d⟩ := List.mem_map.1 hmem
    have hany : g1.edges.any (fun e' => decide (e'.src = e.src) && decide (e'.dst = cur)) = true := by
      rw [List.any_eq_true]
      refine ⟨x0, ?_, by simp [hA x0 hx0, hx0d]⟩
      simp [hg1, hE.mem_iff, hx0]
    obtain ⟨x, hx, hpx, hperm⟩ := eraseLast_perm _ _ hany
    have hxs : x.src = e.src ∧ x.dst = cur := by simpa using hpx
    have hxA : x ∈ A := by
      have : x ∈ g.edges ++ [{ e with dst := new }] := hx
      rcases List.mem_append.1 this with h | h
      · rcases List.mem_append.1 (hE.mem_iff.1 h) with h | h
        · exact h
        · exact absurd hxs.2 (hR x h)
      · rw [List.mem_singleton] at h
        rw [h] at hxs
        exact absurd hxs.2.symm hne
    have hA' : A.Perm (x :: A.erase x) := List.perm_cons_erase hxA
    have hre : removeEdge g1 e.src cur = some { g1 with edges := (eraseLast
        (fun e' => decide (e'.src = e.src) && decide (e'.dst = cur)) g1.edges) } := by
      simp only [removeEdge]; rw [if_pos hany]
    rw [hre]
    set L := eraseLast (fun e' => decide (e'.src = e.src) && decide (e'.dst = cur)) g1.edges with hL
    have hLp : L.Perm (A.erase x ++ ({ e with dst := new } :: R)) := by
      have h1 : (x :: L).Perm (A ++ R ++ [{ e with dst := new }]) :=
        hperm.symm.trans (List.Perm.append_right _ hE)
      have h2 : (A ++ R ++ [{ e with dst := new }]).Perm
          (x :: (A.erase x ++ ({ e with dst := new } :: R))) := by
        rw [List.append_assoc]
        refine (List.Perm.append_right _ hA').trans ?_
        rw [List.cons_append]
        refine List.Perm.cons _ (List.Perm.append_left _ ?_)
        exact List.perm_append_singleton _ _
      exact (List.perm_cons x).1 (h1.trans h2)
    have := ih { g1 with edges := L } (A.erase x) ({ e with dst := new } :: R) hnew
      (fun e' he' => hd e' (List.mem_cons_of_mem _ he'))
      (fun e' he' => hA e' (List.mem_of_mem_erase he'))
      (by
        have h3 : (x.src :: (A.erase x).map Edge.src).Perm (e.src :: S.map Edge.src) :=
          ((hA'.map Edge.src).symm.trans hAS)
        rw [hxs.1] at h3
        exact (List.perm_cons _).1 h3)
      (by
        intro e' he'
        rcases List.mem_cons.1 he' with h | h
        · rw [h]; exact fun h' => hne h'.symm
        · exact hR e' h)
      hLp
    obtain ⟨E, hE1, hE2⟩ := this
    refine ⟨E, hE1, hE2.trans ?_⟩
    rw [List.map_cons, List.cons_append]
    exact List.perm_middle

/-- A map that changes only the elements meeting `p`, up to order. -/
theorem map_if_perm {α : Type*} (p : α → Prop) [DecidablePred p] (f : α → α) (l : List α) :
    (l.map (fun a => if p a then f a else a)).Perm
      ((l.filter (fun a => decide (p a))).map f ++ l.filter (fun a => decide (¬ p a))) := by
  induction l with
  | nil => simp
  | cons a l ih =>
    by_cases h : p a
    · simpa [h] using ih
    · simp only [List.map_cons, h, if_false, List.filter_cons, decide_false, decide_true,
        not_false_eq_true, if_true, Bool.false_eq_true]
      exact (List.Perm.cons a ih).trans List.perm_middle.symm

theorem reconnectOut_perm {g : Gr N} {cur new : N} (hne : cur ≠ new) (hnew : new ∈ g.nodes)
    (hd : ∀ e ∈ g.edges, e.dst ∈ g.nodes) :
    ∃ E, reconnectOut g cur new = some { g with edges := E } ∧
      E.Perm (g.edges.map (moveSrc cur new)) := by
  have hp := List.filter_append_perm (fun e : Edge N => decide (e.src = cur)) g.edges
  obtain ⟨E, h1, h2⟩ := reconnectOut_loop cur new hne (outEdges g cur) g (outEdges g cur)
    (g.edges.filter (fun e => !decide (e.src = cur))) hnew
    (fun e he => hd e (List.mem_filter.1 he).1)
    (fun e he => by simpa using (List.mem_filter.1 he).2) (List.Perm.refl _)
    (fun e he => by simpa using (List.mem_filter.1 he).2) hp.symm
  refine ⟨E, h1, h2.trans ?_⟩
  have := map_if_perm (fun e : Edge N => e.src = cur) (fun e => { e with src := new }) g.edges
  refine List.Perm.trans ?_ this.symm
  simp [outEdges]

theorem reconnectIn_perm {g : Gr N} {cur new : N} (hne : cur ≠ new) (hnew : new ∈ g.nodes)
    (hd : ∀ e ∈ g.edges, e.src ∈ g.nodes) :
    ∃ E, reconnectIn g cur new = some { g with edges := E } ∧
      E.Perm (g.edges.map (moveDst cur new)) := by
  have hp := List.filter_append_perm (fun e : Edge N => decide (e.dst = cur)) g.edges
  obtain ⟨E, h1, h2⟩ := reconnectIn_loop cur new hne (inEdges g cur) g (inEdges g cur)
    (g.edges.filter (fun e => !decide (e.dst = cur))) hnew
    (fun e he => hd e (List.mem_filter.1 he).1)
    (fun e he => by simpa using (List.mem_filter.1 he).2) (List.Perm.refl _)
    (fun e he => by simpa using (List.mem_filter.1 he).2) hp.symm
  refine ⟨E, h1, h2.trans ?_⟩
  have := map_if_perm (fun e : Edge N => e.dst = cur) (fun e => { e with dst := new }) g.edges
  refine List.Perm.trans ?_ this.symm
  simp [inEdges]

theorem removeNode_free {g : Gr N} {n : N} {i : Option (List N)} {o : Option (List (N × Nat))}
    (ho : n ∉ g.outputs.map Prod.fst) (hi : n ∉ g.inputs) (hn : n ∈ g.nodes)
    (hs : ∀ e ∈ g.edges, e.src ≠ n) (hd : ∀ e ∈ g.edges, e.dst ≠ n) :
    removeNode g n i o = some { g with nodes := g.nodes.erase n } := by
  have h1 : inEdges g n = [] := by
    rw [inEdges, List.filter_eq_nil_iff]; intro e he; simpa using hd e he
  have h2 : outEdges g n = [] := by
    rw [outEdges, List.filter_eq_nil_iff]; intro e he; simpa using hs e he
  simp [removeNode, ho, hi, h1, h2, hn]

/-! ### What the semantics depends on -/

theorem incoming_perm {E E' : List (Edge N)} (h : E.Perm E') (v : N → Nat → V) (n : N) :
    (incoming E v n).Perm (incoming E' v n) := (h.filter _).map _

/-- Sorting by the input index forgets the order of the edges. -/
theorem sorted_eq {l l' : List (Nat × V)} (h : l.Perm l') (hn : (l.map Prod.fst).Nodup) :
    l.mergeSort (fun a b => decide (a.1 ≤ b.1)) = l'.mergeSort (fun a b => decide (a.1 ≤ b.1)) := by
  have tr : ∀ a b c : Nat × V, decide (a.1 ≤ b.1) = true → decide (b.1 ≤ c.1) = true →
      decide (a.1 ≤ c.1) = true := by
    intro a b c; simp only [decide_eq_true_eq]; exact le_trans
  have tot : ∀ a b : Nat × V, (decide (a.1 ≤ b.1) || decide (b.1 ≤ a.1)) = true := by
    intro a b; simp only [Bool.or_eq_true, decide_eq_true_eq]; exact le_total _ _
  have p1 := List.mergeSort_perm l (fun a b => decide (a.1 ≤ b.1))
  have p2 := List.mergeSort_perm l' (fun a b => decide (a.1 ≤ b.1))
  have s1 := List.pairwise_mergeSort tr tot l
  have s2 := List.pairwise_mergeSort tr tot l'
  refine List.Perm.eq_of_pairwise ?_ s1 s2 (p1.trans (h.trans p2.symm))
  intro a b ha hb hab hba
  have ha' := p1.mem_iff.1 ha
  have hb' := h.mem_iff.2 (p2.mem_iff.1 hb)
  have hfst : a.1 = b.1 := by
    simp only [decide_eq_true_eq] at hab hba; exact le_antisymm hab hba
  exact List.inj_on_of_nodup_map hn ha' hb' hfst

theorem arguments_congr {E E' : List (Edge N)} {v v' : N → Nat → V} {n n' : N}
    (h : (incoming E v n).Perm (incoming E' v' n'))
    (hn : ((E.filter (fun e => decide (e.dst = n))).map Edge.di).Nodup) :
    arguments E v n = arguments E' v' n' := by
  have : (incoming E v n).map Prod.fst = (E.filter (fun e => decide (e.dst = n))).map Edge.di := by
    simp [incoming, Function.comp_def]
  rw [arguments, arguments, sorted_eq h (by rw [this]; exact hn)]

theorem incoming_map {E : List (Edge N)} {ρ : Edge N → Edge N} {v v' : N → Nat → V} {n m : N}
    (hdi : ∀ e ∈ E, (ρ e).di = e.di)
    (hdst : ∀ e ∈ E, (ρ e).dst = n ↔ e.dst = m)
    (hval : ∀ e ∈ E, e.dst = m → v' (ρ e).src (ρ e).si = v e.src e.si) :
    incoming (E.map ρ) v' n = incoming E v m := by
  induction E with
  | nil => rfl
  | cons e E ih =>
    have ih' := ih (fun x hx => hdi x (List.mem_cons_of_mem _ hx))
      (fun x hx => hdst x (List.mem_cons_of_mem _ hx))
      (fun x hx => hval x (List.mem_cons_of_mem _ hx))
    simp only [incoming] at ih' ⊢
    rw [List.map_cons, List.filter_cons, List.filter_cons]
    by_cases h : e.dst = m
    · have h' := (hdst e List.mem_cons_self).2 h
      simp only [h, h', decide_true, if_true, List.map_cons, ih',
        hdi e List.mem_cons_self, hval e List.mem_cons_self h]
    · have h' : ¬ (ρ e).dst = n := fun hh => h ((hdst e List.mem_cons_self).1 hh)
      simp only [h, h', decide_false, Bool.false_eq_true, if_false, ih']

/-- The valuations of a graph agree on its nodes. -/
theorem valuation_unique {g : Gr N} (wf : WellFormed g) {I : Interp N V} {env : Nat → V}
    {v v' : N → Nat → V} (hv : Valuation g I env v) (hv' : Valuation g I env v') :
    ∀ n ∈ g.nodes, v n = v' n := by
  obtain ⟨rank, hrank⟩ := wf.acyclic
  have key : ∀ r, ∀ n ∈ g.nodes, rank n < r → v n = v' n := by
    intro r
    induction r with
    | zero => intro n _ h; exact absurd h (Nat.not_lt_zero _)
    | succ r ih =>
      intro n hn hr
      funext k
      rw [hv n hn k, hv' n hn k]
      split
      · rfl
      · congr 1
        have : incoming g.edges v n = incoming g.edges v' n := by
          simp only [incoming]
          apply List.map_congr_left
          intro e he
          have he' := List.mem_filter.1 he
          have hd : e.dst = n := by simpa using he'.2
          have hlt := hrank e he'.1
          rw [hd] at hlt
          rw [ih e.src (wf.src e he'.1) (by omega)]
        rw [arguments, arguments, this]
  intro n hn
  exact key (rank n + 1) n hn (Nat.lt_succ_self _)

/-- Evaluation with a bound on the depth. -/
def evalAt (g : Gr N) (I : Interp N V) (env : Nat → V) : Nat → N → Nat → V
  | 0, _, _ => env 0
  | f + 1, n, k =>
    if n ∈ g.inputs then env (g.inputs.idxOf n)
    else I n (arguments g.edges (evalAt g I env f) n) k

theorem evalAt_stable {g : Gr N} {rank : N → Nat} (hrank : ∀ e ∈ g.edges, rank e.src < rank e.dst)
    (I : Interp N V) (env : Nat → V) :
    ∀ f f' n, rank n < f → rank n < f' → evalAt g I env f n = evalAt g I env f' n := by
  intro f
  induction f with
  | zero => intro f' n h; exact absurd h (Nat.not_lt_zero _)
  | succ f ih =>
    intro f' n h h'
    cases f' with
    | zero => exact absurd h' (Nat.not_lt_zero _)
    | succ f' =>
      funext k
      rw [evalAt, evalAt]
      split
      · rfl
      · congr 1
        have : incoming g.edges (evalAt g I env f) n = incoming g.edges (evalAt g I env f') n := by
          simp only [incoming]
          apply List.map_congr_left
          intro e he
          have he' := List.mem_filter.1 he
          have hd : e.dst = n := by simpa using he'.2
          have hlt := hrank e he'.1
          rw [hd] at hlt
          rw [ih f' e.src (by omega) (by omega)]
        rw [arguments, arguments, this]

/-- A graph without cycles has a valuation. -/
theorem valuation_ranked {g : Gr N} {rank : N → Nat}
    (hrank : ∀ e ∈ g.edges, rank e.src < rank e.dst) (I : Interp N V) (env : Nat → V) :
    Valuation g I env (fun n => evalAt g I env (rank n + 1) n) := by
  intro n _ k
  show evalAt g I env (rank n + 1) n k = _
  rw [evalAt]
  split
  · rfl
  · congr 1
    have : incoming g.edges (evalAt g I env (rank n)) n =
        incoming g.edges (fun m => evalAt g I env (rank m + 1) m) n := by
      simp only [incoming]
      apply List.map_congr_left
      intro e he
      have he' := List.mem_filter.1 he
      have hd : e.dst = n := by simpa using he'.2
      have hlt := hrank e he'.1
      rw [hd] at hlt
      rw [evalAt_stable hrank I env (rank n) (rank e.src + 1) e.src hlt (Nat.lt_succ_self _)]
    rw [arguments, arguments, this]

theorem valuation_exists {g : Gr N} (wf : WellFormed g) (I : Interp N V) (env : Nat → V) :
    ∃ v, Valuation g I env v := by
  obtain ⟨rank, hrank⟩ := wf.acyclic
  exact ⟨_, valuation_ranked hrank I env⟩

/-- Slots after a change of the edges that keeps input indices. -/
theorem slots_map {E E' : List (Edge N)} {ρ : Edge N → Edge N} {n m : N}
    (hp : E'.Perm (E.map ρ)) (hdi : ∀ e ∈ E, (ρ e).di = e.di)
    (hdst : ∀ e ∈ E, (ρ e).dst = n ↔ e.dst = m)
    (h : ((E.filter (fun e => decide (e.dst = m))).map Edge.di).Nodup) :
    ((E'.filter (fun e => decide (e.dst = n))).map Edge.di).Nodup := by
  have h2 : ((E.map ρ).filter (fun e => decide (e.dst = n))).map Edge.di =
      (E.filter (fun e => decide (e.dst = m))).map Edge.di := by
    have := incoming_map (V := Unit) (v := fun _ _ => ()) (v' := fun _ _ => ()) hdi hdst
      (fun _ _ _ => rfl)
    have h3 := congrArg (List.map Prod.fst) this
    simpa [incoming, Function.comp_def] using h3
  have h4 := (hp.filter (fun e => decide (e.dst = n))).map Edge.di
  rw [h4.nodup_iff, h2]
  exact h

theorem slots_sub {E E' : List (Edge N)} {e : Edge N} {n : N} (hp : E.Perm (e :: E'))
    (h : ((E.filter (fun e => decide (e.dst = n))).map Edge.di).Nodup) :
    ((E'.filter (fun e => decide (e.dst = n))).map Edge.di).Nodup := by
  have h4 := ((hp.filter (fun e => decide (e.dst = n))).map Edge.di).nodup_iff.1 h
  exact h4.sublist (((List.sublist_cons_self e E').filter _).map _)

end MCT.Graph
