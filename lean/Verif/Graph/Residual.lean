/-
A node and the two-input node that combines its result with its own input, replaced by one node:
the sigmoid-multiplication and the residual collapsing substitutions.
-/
import Verif.Graph.Between

namespace MCT.Graph
open MCT.GraphSpec

set_option linter.unusedSectionVars false
set_option linter.unusedVariables false
set_option linter.unusedSimpArgs false

variable {N V : Type*} [DecidableEq N]

/-- What is left after `a` (reading edge `e1` from `p`) and `b` (reading `e2` from `p` and `e3` from
`a`) are replaced by `c`. -/
structure Fused (g g' : Gr N) (p a b c : N) (e1 e2 e3 : Edge N) (R : List (Edge N)) : Prop where
  split : g.edges.Perm (e1 :: e2 :: e3 :: R)
  e1s : e1.src = p
  e1d : e1.dst = a
  e2s : e2.src = p
  e2d : e2.dst = b
  e3s : e3.src = a
  e3d : e3.dst = b
  noSrc : ∀ r ∈ R, r.src ≠ a
  noDstA : ∀ r ∈ R, r.dst ≠ a
  noDstB : ∀ r ∈ R, r.dst ≠ b
  nodes : ∀ m, m ∈ g'.nodes ↔ (m = c ∨ m ∈ g.nodes) ∧ m ≠ a ∧ m ≠ b
  nodup : g'.nodes.Nodup
  inputs : g'.inputs = g.inputs
  outputs : g'.outputs = g.outputs.map (fun o => if o.1 = b then (c, o.2) else o)
  edges : g'.edges.Perm (⟨p, c, e1.si, e1.di⟩ :: R.map (moveSrc b c))

/-- The edges around the two nodes. -/
theorem fused_split {g : Gr N} (wf : WellFormed g) {p a b : N} {e1 e2 e3 : Edge N}
    (hina : inEdges g a = [e1]) (houta : outEdges g a = [e3]) (hinb : (inEdges g b).Perm [e2, e3])
    (h1 : e1.src = p) (h2 : e2.src = p) :
    ∃ R, g.edges.Perm (e1 :: e2 :: e3 :: R) ∧ e1.dst = a ∧ e2.dst = b ∧ e3.src = a ∧ e3.dst = b ∧
      (∀ r ∈ R, r.src ≠ a) ∧ (∀ r ∈ R, r.dst ≠ a) ∧ (∀ r ∈ R, r.dst ≠ b) ∧ a ≠ b ∧ p ≠ a ∧ p ≠ b := by
  obtain ⟨R1, hp1, hR1, he1g, he1d⟩ := split_single_in hina
  have h3s : e3 ∈ g.edges ∧ e3.src = a := by
    have : e3 ∈ outEdges g a := by rw [houta]; exact List.mem_singleton.2 rfl
    have := List.mem_filter.1 this
    exact ⟨this.1, by simpa using this.2⟩
  have h2b : e2 ∈ g.edges ∧ e2.dst = b := by
    have := List.mem_filter.1 (hinb.mem_iff.2 (by simp : e2 ∈ [e2, e3]))
    exact ⟨this.1, by simpa using this.2⟩
  have h3b : e3.dst = b := by
    have := List.mem_filter.1 (hinb.mem_iff.2 (by simp : e3 ∈ [e2, e3]))
    simpa using this.2
  have hpa : p ≠ a := by
    have := not_self_loop wf he1g; rwa [he1d, h1] at this
  have hpb : p ≠ b := by
    have := not_self_loop wf h2b.1; rwa [h2b.2, h2] at this
  have hab : a ≠ b := by
    have := not_self_loop wf h3s.1; rwa [h3s.2, h3b] at this
  have hp := List.filter_append_perm (fun e : Edge N => decide (e.dst = b)) R1
  have hfb : (R1.filter (fun e => decide (e.dst = b))).Perm [e2, e3] := by
    have h4 : (inEdges g b).Perm ((e1 :: R1).filter (fun e => decide (e.dst = b))) := hp1.filter _
    rw [List.filter_cons] at h4
    simp only [he1d, hab, decide_false, Bool.false_eq_true, if_false] at h4
    exact h4.symm.trans hinb
  refine ⟨R1.filter (fun e => !decide (e.dst = b)), ?_, he1d, h2b.2, h3s.2, h3b, ?_, ?_, ?_, hab,
    hpa, hpb⟩
  · refine hp1.trans (List.Perm.cons _ ?_)
    exact hp.symm.trans (hfb.append_right _)
  · intro r hr hrs
    have hr' := List.mem_filter.1 hr
    have : r ∈ outEdges g a := List.mem_filter.2
      ⟨hp1.mem_iff.2 (List.mem_cons_of_mem _ hr'.1), by simp [hrs]⟩
    rw [houta, List.mem_singleton] at this
    rw [this] at hr'
    simp [h3b] at hr'
  · intro r hr; exact hR1 r (List.mem_filter.1 hr).1
  · intro r hr; simpa using (List.mem_filter.1 hr).2

theorem nodes_after {g : Gr N} (wf : WellFormed g) {a b c : N} (hc : c ∉ g.nodes) (l : List N)
    (hl : l = ((g.nodes ++ [c]).erase a).erase b ∨ l = ((g.nodes ++ [c]).erase b).erase a) :
    (∀ m, m ∈ l ↔ (m = c ∨ m ∈ g.nodes) ∧ m ≠ a ∧ m ≠ b) ∧ l.Nodup := by
  have hnd := nodup_add wf hc
  rcases hl with rfl | rfl
  · refine ⟨fun m => ?_, (hnd.erase a).erase b⟩
    rw [(hnd.erase a).mem_erase_iff, hnd.mem_erase_iff, List.mem_append, List.mem_singleton]
    tauto
  · refine ⟨fun m => ?_, (hnd.erase b).erase a⟩
    rw [(hnd.erase b).mem_erase_iff, hnd.mem_erase_iff, List.mem_append, List.mem_singleton]
    tauto

theorem not_mem_replaced {outs : List (N × Nat)} {b c m : N} (hcm : c ≠ m)
    (h : m = b ∨ m ∉ outs.map Prod.fst) :
    m ∉ (outs.map (fun o => if o.1 = b then (c, o.2) else o)).map Prod.fst := by
  simp only [List.map_map, List.mem_map, not_exists, not_and]
  intro o ho
  by_cases hb : o.1 = b
  · simp only [Function.comp, hb, if_true]; exact hcm
  · simp only [Function.comp, hb, if_false]
    rcases h with rfl | h
    · exact hb
    · exact fun h' => h (List.mem_map.2 ⟨o, ho, h'⟩)

theorem collapseResidual_result {g : Gr N} (wf : WellFormed g) {p a b c : N} {e1 e2 e3 : Edge N}
    (hina : inEdges g a = [e1]) (houta : outEdges g a = [e3]) (hinb : (inEdges g b).Perm [e2, e3])
    (h1 : e1.src = p) (h2 : e2.src = p) (hc : c ∉ g.nodes) (hao : a ∉ g.outputs.map Prod.fst) :
    ∃ g' R, collapseResidual g a b c = some g' ∧ Fused g g' p a b c e1 e2 e3 R := by
  obtain ⟨R, hp, he1d, he2d, he3s, he3d, hRs, hRa, hRb, hab, hpa, hpb⟩ :=
    fused_split wf hina houta hinb h1 h2
  have hg : ∀ r ∈ e1 :: e2 :: e3 :: R, r ∈ g.edges := fun r hr => hp.mem_iff.2 hr
  have he1g := hg e1 (by simp)
  have he2g := hg e2 (by simp)
  have he3g := hg e3 (by simp)
  have hRg : ∀ r ∈ R, r ∈ g.edges := fun r hr => hg r (by simp [hr])
  have ha : a ∈ g.nodes := he1d ▸ wf.dst e1 he1g
  have hb : b ∈ g.nodes := he2d ▸ wf.dst e2 he2g
  have hpn : p ∈ g.nodes := h1 ▸ wf.src e1 he1g
  have hca : c ≠ a := fun h => hc (h ▸ ha)
  have hcb : c ≠ b := fun h => hc (h ▸ hb)
  have hcp : c ≠ p := fun h => hc (h ▸ hpn)
  have hai : a ∉ g.inputs := by have := wf.insFree e1 he1g; rwa [he1d] at this
  have hbi : b ∉ g.inputs := by have := wf.insFree e2 he2g; rwa [he2d] at this
  set g0 : Gr N := { g with nodes := g.nodes ++ [c] } with hg0
  have hmem0 : ∀ m, m ∈ g.nodes → m ∈ g0.nodes := fun m hm => List.mem_append_left _ hm
  have hc0 : c ∈ g0.nodes := by simp [hg0]
  obtain ⟨E1, r1, p1⟩ := reconnectOut_perm (g := g0) (cur := b) (new := c) hcb.symm hc0
    (fun r hr => hmem0 _ (wf.dst r hr))
  have p1' : E1.Perm (e1 :: e2 :: e3 :: R.map (moveSrc b c)) := by
    refine p1.trans ((hp.map _).trans ?_)
    have i1 : moveSrc b c e1 = e1 := by simp [moveSrc, h1, hpb]
    have i2 : moveSrc b c e2 = e2 := by simp [moveSrc, h2, hpb]
    have i3 : moveSrc b c e3 = e3 := by simp [moveSrc, he3s, hab]
    simp only [List.map_cons, i1, i2, i3]
    exact List.Perm.refl _
  set g1 : Gr N := { g0 with edges := E1 } with hg1
  have hEcase : ∀ r ∈ E1, r = e1 ∨ r = e2 ∨ r = e3 ∨ r ∈ R.map (moveSrc b c) := by
    intro r hr; simpa using p1'.mem_iff.1 hr
  obtain ⟨E2, r2, p2⟩ := reconnectIn_perm (g := g1) (cur := a) (new := c) hca.symm hc0 (by
    intro r hr
    rcases hEcase r hr with rfl | rfl | rfl | h
    · exact hmem0 _ (wf.src _ he1g)
    · exact hmem0 _ (wf.src _ he2g)
    · exact hmem0 _ (wf.src _ he3g)
    · obtain ⟨r', hr', rfl⟩ := List.mem_map.1 h
      rw [moveSrc_src]; split
      · exact hc0
      · exact hmem0 _ (wf.src r' (hRg r' hr')))
  have p2' : E2.Perm (e3 :: e2 :: (⟨p, c, e1.si, e1.di⟩ :: R.map (moveSrc b c))) := by
    refine p2.trans ((p1'.map _).trans ?_)
    have i1 : moveDst a c e1 = ⟨p, c, e1.si, e1.di⟩ := by simp [moveDst, he1d, h1]
    have i2 : moveDst a c e2 = e2 := by simp [moveDst, he2d, hab.symm]
    have i3 : moveDst a c e3 = e3 := by simp [moveDst, he3d, hab.symm]
    have i4 : (R.map (moveSrc b c)).map (moveDst a c) = R.map (moveSrc b c) := by
      rw [List.map_map]
      apply List.map_congr_left
      intro r hr
      simp only [Function.comp, moveDst, moveSrc_dst, hRa r hr, if_false]
    simp only [List.map_cons, i1, i2, i3, i4]
    refine List.Perm.trans (l₂ := (⟨p, c, e1.si, e1.di⟩ : Edge N) :: e3 :: e2 :: R.map (moveSrc b c))
      (List.Perm.cons _ (List.Perm.swap _ _ _)) ?_
    exact (List.Perm.swap _ _ _).trans (List.Perm.cons _ (List.Perm.swap _ _ _))
  set g3 : Gr N := replaceOutput { g1 with edges := E2 } b c with hg3
  have hRsrc : ∀ r ∈ R.map (moveSrc b c), r.src ≠ a ∧ r.src ≠ b ∧ r.dst ≠ a ∧ r.dst ≠ b := by
    intro r hr
    obtain ⟨r', hr', rfl⟩ := List.mem_map.1 hr
    rw [moveSrc_src, moveSrc_dst]
    refine ⟨?_, ?_, hRa r' hr', hRb r' hr'⟩
    · split
      · exact hca
      · exact hRs r' hr'
    · split
      · exact hcb
      · assumption
  obtain ⟨E3, r3, p3⟩ := removeEdge_perm (g := g3) (u := a) (w := b) p2' he3s he3d (by
    intro r hr hcc
    rcases List.mem_cons.1 hr with rfl | hr
    · exact hpa (h2.symm.trans hcc.1)
    · rcases List.mem_cons.1 hr with rfl | hr
      · exact hpa hcc.1
      · exact (hRsrc r hr).1 hcc.1)
  set g4 : Gr N := { g3 with edges := E3 } with hg4
  obtain ⟨E4, r4, p4⟩ := removeEdge_perm (g := g4) (u := p) (w := b) p3 h2 he2d (by
    intro r hr hcc
    rcases List.mem_cons.1 hr with rfl | hr
    · exact hcb hcc.2
    · exact (hRsrc r hr).2.2.2 hcc.2)
  set g5 : Gr N := { g4 with edges := E4 } with hg5
  have hE : ∀ x ∈ E4, x.src ≠ a ∧ x.src ≠ b ∧ x.dst ≠ a ∧ x.dst ≠ b := by
    intro x hx
    rcases List.mem_cons.1 (p4.mem_iff.1 hx) with rfl | h
    · exact ⟨hpa, hpb, hca, hcb⟩
    · exact hRsrc x h
  have hao' : a ∉ g5.outputs.map Prod.fst := not_mem_replaced hca (Or.inr hao)
  have hbo' : b ∉ g5.outputs.map Prod.fst := not_mem_replaced hcb (Or.inl rfl)
  have h5 := removeNode_free (g := g5) (n := a) (i := none) (o := none) hao' hai (hmem0 _ ha)
    (fun x hx => (hE x hx).1) (fun x hx => (hE x hx).2.2.1)
  have hb6 : b ∈ g5.nodes.erase a := by
    rw [List.mem_erase_of_ne hab.symm]; exact hmem0 _ hb
  have h6 := removeNode_free (g := { g5 with nodes := g5.nodes.erase a }) (n := b) (i := none)
    (o := none) hbo' hbi hb6 (fun x hx => (hE x hx).2.1) (fun x hx => (hE x hx).2.2.2)
  have hnodes := nodes_after wf hc _ (Or.inl rfl : ((g.nodes ++ [c]).erase a).erase b = _ ∨ _)
    (b := b) (a := a)
  refine ⟨{ g5 with nodes := (g5.nodes.erase a).erase b }, R, ?_,
    hp, h1, he1d, h2, he2d, he3s, he3d, hRs, hRa, hRb, hnodes.1, hnodes.2, rfl, rfl, p4⟩
  have hn1 : (nextNodes g a).length = 1 := by simp [nextNodes, houta]
  have hpa1 : prevNodes g a = [p] := by simp [prevNodes, hina, h1]
  have hpb1 : (prevNodes g b).Perm [p, a] := by
    have := hinb.map Edge.src
    simpa [prevNodes, h2, he3s] using this
  have hn2 : (prevNodes g b).length = 2 := by rw [hpb1.length_eq]; rfl
  have her : (prevNodes g b).erase a = [p] := by
    have := hpb1.erase a
    rw [show [p, a].erase a = [p] by simp [List.erase_cons, hpa]] at this
    exact List.perm_singleton.1 this
  rw [collapseResidual, if_neg (by rw [hpa1]; simp; omega), hpa1, her]
  simp only [ne_eq, not_true_eq_false, if_false]
  rw [addNode_fresh hc, ← hg0]
  simp only [r1, r2, r3, r4, h5, h6, ← hg1, ← hg3, ← hg4, ← hg5, Option.bind_eq_bind,
    Option.bind_some]

theorem sigmoidMul_result {g : Gr N} (wf : WellFormed g) {p a b c : N} {e1 e2 e3 : Edge N}
    (hina : inEdges g a = [e1]) (houta : outEdges g a = [e3]) (hinb : (inEdges g b).Perm [e2, e3])
    (h1 : e1.src = p) (h2 : e2.src = p) (hc : c ∉ g.nodes) (hao : a ∉ g.outputs.map Prod.fst) :
    ∃ g' R, sigmoidMul g a b c = some g' ∧ Fused g g' p a b c e1 e2 e3 R := by
  obtain ⟨R, hp, he1d, he2d, he3s, he3d, hRs, hRa, hRb, hab, hpa, hpb⟩ :=
    fused_split wf hina houta hinb h1 h2
  have hg : ∀ r ∈ e1 :: e2 :: e3 :: R, r ∈ g.edges := fun r hr => hp.mem_iff.2 hr
  have he1g := hg e1 (by simp)
  have he2g := hg e2 (by simp)
  have he3g := hg e3 (by simp)
  have hRg : ∀ r ∈ R, r ∈ g.edges := fun r hr => hg r (by simp [hr])
  have ha : a ∈ g.nodes := he1d ▸ wf.dst e1 he1g
  have hb : b ∈ g.nodes := he2d ▸ wf.dst e2 he2g
  have hpn : p ∈ g.nodes := h1 ▸ wf.src e1 he1g
  have hca : c ≠ a := fun h => hc (h ▸ ha)
  have hcb : c ≠ b := fun h => hc (h ▸ hb)
  have hcp : c ≠ p := fun h => hc (h ▸ hpn)
  have hai : a ∉ g.inputs := by have := wf.insFree e1 he1g; rwa [he1d] at this
  have hbi : b ∉ g.inputs := by have := wf.insFree e2 he2g; rwa [he2d] at this
  set g0 : Gr N := { g with nodes := g.nodes ++ [c] } with hg0
  have hmem0 : ∀ m, m ∈ g.nodes → m ∈ g0.nodes := fun m hm => List.mem_append_left _ hm
  have hc0 : c ∈ g0.nodes := by simp [hg0]
  obtain ⟨E1, r1, p1⟩ := reconnectIn_perm (g := g0) (cur := a) (new := c) hca.symm hc0
    (fun r hr => hmem0 _ (wf.src r hr))
  have p1' : E1.Perm (⟨p, c, e1.si, e1.di⟩ :: e2 :: e3 :: R) := by
    refine p1.trans ((hp.map _).trans ?_)
    have i1 : moveDst a c e1 = ⟨p, c, e1.si, e1.di⟩ := by simp [moveDst, he1d, h1]
    have i2 : moveDst a c e2 = e2 := by simp [moveDst, he2d, hab.symm]
    have i3 : moveDst a c e3 = e3 := by simp [moveDst, he3d, hab.symm]
    have i4 : R.map (moveDst a c) = R := by
      conv_rhs => rw [← List.map_id R]
      apply List.map_congr_left
      intro r hr
      simp only [moveDst, hRa r hr, if_false, id]
    simp only [List.map_cons, i1, i2, i3, i4]
    exact List.Perm.refl _
  set g1 : Gr N := { g0 with edges := E1 } with hg1
  have hEcase : ∀ r ∈ E1, r = ⟨p, c, e1.si, e1.di⟩ ∨ r = e2 ∨ r = e3 ∨ r ∈ R := by
    intro r hr; simpa using p1'.mem_iff.1 hr
  obtain ⟨E2, r2, p2⟩ := reconnectOut_perm (g := g1) (cur := b) (new := c) hcb.symm hc0 (by
    intro r hr
    rcases hEcase r hr with rfl | rfl | rfl | h
    · exact hc0
    · exact hmem0 _ (wf.dst _ he2g)
    · exact hmem0 _ (wf.dst _ he3g)
    · exact hmem0 _ (wf.dst r (hRg r h)))
  have p2' : E2.Perm (e2 :: e3 :: (⟨p, c, e1.si, e1.di⟩ :: R.map (moveSrc b c))) := by
    refine p2.trans ((p1'.map _).trans ?_)
    have i1 : moveSrc b c ⟨p, c, e1.si, e1.di⟩ = ⟨p, c, e1.si, e1.di⟩ := by simp [moveSrc, hpb]
    have i2 : moveSrc b c e2 = e2 := by simp [moveSrc, h2, hpb]
    have i3 : moveSrc b c e3 = e3 := by simp [moveSrc, he3s, hab]
    simp only [List.map_cons, i1, i2, i3]
    exact (List.Perm.swap _ _ _).trans (List.Perm.cons _ (List.Perm.swap _ _ _))
  set g3 : Gr N := replaceOutput { g1 with edges := E2 } b c with hg3
  have hRsrc : ∀ r ∈ R.map (moveSrc b c), r.src ≠ a ∧ r.src ≠ b ∧ r.dst ≠ a ∧ r.dst ≠ b := by
    intro r hr
    obtain ⟨r', hr', rfl⟩ := List.mem_map.1 hr
    rw [moveSrc_src, moveSrc_dst]
    refine ⟨?_, ?_, hRa r' hr', hRb r' hr'⟩
    · split
      · exact hca
      · exact hRs r' hr'
    · split
      · exact hcb
      · assumption
  obtain ⟨E3, r3, p3⟩ := removeEdge_perm (g := g3) (u := p) (w := b) p2' h2 he2d (by
    intro r hr hcc
    rcases List.mem_cons.1 hr with rfl | hr
    · exact hpa (hcc.1.symm.trans he3s)
    · rcases List.mem_cons.1 hr with rfl | hr
      · exact hcb hcc.2
      · exact (hRsrc r hr).2.2.2 hcc.2)
  set g4 : Gr N := { g3 with edges := E3 } with hg4
  obtain ⟨E4, r4, p4⟩ := removeEdge_perm (g := g4) (u := a) (w := b) p3 he3s he3d (by
    intro r hr hcc
    rcases List.mem_cons.1 hr with rfl | hr
    · exact hpa hcc.1
    · exact (hRsrc r hr).1 hcc.1)
  set g5 : Gr N := { g4 with edges := E4 } with hg5
  have hE : ∀ x ∈ E4, x.src ≠ a ∧ x.src ≠ b ∧ x.dst ≠ a ∧ x.dst ≠ b := by
    intro x hx
    rcases List.mem_cons.1 (p4.mem_iff.1 hx) with rfl | h
    · exact ⟨hpa, hpb, hca, hcb⟩
    · exact hRsrc x h
  have hao' : a ∉ g5.outputs.map Prod.fst := not_mem_replaced hca (Or.inr hao)
  have hbo' : b ∉ g5.outputs.map Prod.fst := not_mem_replaced hcb (Or.inl rfl)
  have h5 := removeNode_free (g := g5) (n := a) (i := none) (o := none) hao' hai (hmem0 _ ha)
    (fun x hx => (hE x hx).1) (fun x hx => (hE x hx).2.2.1)
  have hb6 : b ∈ g5.nodes.erase a := by
    rw [List.mem_erase_of_ne hab.symm]; exact hmem0 _ hb
  have h6 := removeNode_free (g := { g5 with nodes := g5.nodes.erase a }) (n := b) (i := none)
    (o := none) hbo' hbi hb6 (fun x hx => (hE x hx).2.1) (fun x hx => (hE x hx).2.2.2)
  have hnodes := nodes_after wf hc _ (Or.inl rfl : ((g.nodes ++ [c]).erase a).erase b = _ ∨ _)
    (b := b) (a := a)
  refine ⟨{ g5 with nodes := (g5.nodes.erase a).erase b }, R, ?_,
    hp, h1, he1d, h2, he2d, he3s, he3d, hRs, hRa, hRb, hnodes.1, hnodes.2, rfl, rfl, p4⟩
  have hn1 : (nextNodes g a).length = 1 := by simp [nextNodes, houta]
  have hpa1 : prevNodes g a = [p] := by simp [prevNodes, hina, h1]
  have hpb1 : (prevNodes g b).Perm [p, a] := by
    have := hinb.map Edge.src
    simpa [prevNodes, h2, he3s] using this
  have hmemp : p ∈ prevNodes g b := hpb1.mem_iff.2 (by simp)
  rw [sigmoidMul, if_neg hao, hpa1]
  simp only
  rw [if_neg (by simp only [hn1, hmemp, not_true_eq_false, or_false]; omega), addNode_fresh hc,
    ← hg0]
  simp only [r1, r2, r3, r4, h5, h6, ← hg1, ← hg3, ← hg4, ← hg5, Option.bind_eq_bind,
    Option.bind_some]

theorem Fused.wf {g g' : Gr N} (wf : WellFormed g) {p a b c : N} {e1 e2 e3 : Edge N}
    {R : List (Edge N)} (M : Fused g g' p a b c e1 e2 e3 R) (hc : c ∉ g.nodes)
    (hao : a ∉ g.outputs.map Prod.fst) : WellFormed g' := by
  have hg : ∀ r ∈ e1 :: e2 :: e3 :: R, r ∈ g.edges := fun r hr => M.split.mem_iff.2 hr
  have he1g := hg e1 (by simp)
  have he2g := hg e2 (by simp)
  have he3g := hg e3 (by simp)
  have hRg : ∀ r ∈ R, r ∈ g.edges := fun r hr => hg r (by simp [hr])
  have ha : a ∈ g.nodes := M.e1d ▸ wf.dst e1 he1g
  have hb : b ∈ g.nodes := M.e2d ▸ wf.dst e2 he2g
  have hpn : p ∈ g.nodes := M.e1s ▸ wf.src e1 he1g
  have hpa : p ≠ a := by have := not_self_loop wf he1g; rwa [M.e1d, M.e1s] at this
  have hpb : p ≠ b := by have := not_self_loop wf he2g; rwa [M.e2d, M.e2s] at this
  have hca : c ≠ a := fun h => hc (h ▸ ha)
  have hcb : c ≠ b := fun h => hc (h ▸ hb)
  have hcn : c ∈ g'.nodes := (M.nodes c).2 ⟨Or.inl rfl, hca, hcb⟩
  have hold : ∀ m ∈ g.nodes, m ≠ a → m ≠ b → m ∈ g'.nodes := fun m hm h1 h2 =>
    (M.nodes m).2 ⟨Or.inr hm, h1, h2⟩
  have hRc : ∀ r ∈ R, r.src ≠ c ∧ r.dst ≠ c := fun r hr =>
    ⟨fun h => hc (h ▸ wf.src r (hRg r hr)), fun h => hc (h ▸ wf.dst r (hRg r hr))⟩
  have cases : ∀ x ∈ g'.edges, x = ⟨p, c, e1.si, e1.di⟩ ∨ ∃ r ∈ R, x = moveSrc b c r := by
    intro x hx
    rcases List.mem_cons.1 (M.edges.mem_iff.1 hx) with h | h
    · exact Or.inl h
    · obtain ⟨r, hr, rfl⟩ := List.mem_map.1 h
      exact Or.inr ⟨r, hr, rfl⟩
  refine ⟨M.nodup, ?_, ?_, ?_, ?_, ?_, ?_, ?_, ?_⟩
  · intro x hx
    rcases cases x hx with rfl | ⟨r, hr, rfl⟩
    · exact hold _ hpn hpa hpb
    · rw [moveSrc_src]; split
      · exact hcn
      · rename_i h; exact hold _ (wf.src r (hRg r hr)) (M.noSrc r hr) h
  · intro x hx
    rcases cases x hx with rfl | ⟨r, hr, rfl⟩
    · exact hcn
    · rw [moveSrc_dst]
      exact hold _ (wf.dst r (hRg r hr)) (M.noDstA r hr) (M.noDstB r hr)
  · intro o ho
    rw [M.outputs] at ho
    obtain ⟨o', ho', rfl⟩ := List.mem_map.1 ho
    split
    · exact hcn
    · rename_i h
      exact hold _ (wf.outs o' ho') (fun h' => hao (List.mem_map.2 ⟨o', ho', h'⟩)) h
  · intro m hm
    rw [M.inputs] at hm
    exact hold _ (wf.ins m hm) (fun h => wf.insFree e1 he1g (by rw [M.e1d, ← h]; exact hm))
      (fun h => wf.insFree e2 he2g (by rw [M.e2d, ← h]; exact hm))
  · rw [M.inputs]; exact wf.insNodup
  · intro x hx
    rw [M.inputs]
    rcases cases x hx with rfl | ⟨r, hr, rfl⟩
    · exact fun h => hc (wf.ins _ h)
    · rw [moveSrc_dst]; exact wf.insFree r (hRg r hr)
  · intro m
    have hR : ((R.filter (fun e => decide (e.dst = m))).map Edge.di).Nodup :=
      slots_sub (List.Perm.refl (e3 :: R)) (slots_sub (List.Perm.refl (e2 :: e3 :: R))
        (slots_sub M.split (wf.slots m)))
    refine slots_cons M.edges ?_ ?_
    · exact slots_map (m := m) (List.Perm.refl _) (fun _ _ => moveSrc_di _ _ _)
        (fun _ _ => by rw [moveSrc_dst]) hR
    · intro hm r hr hrd
      obtain ⟨r', hr', rfl⟩ := List.mem_map.1 hr
      have hm' : c = m := hm
      rw [moveSrc_dst, ← hm'] at hrd
      exact absurd hrd (hRc r' hr').2
  · obtain ⟨rank, hrank⟩ := wf.acyclic
    refine ⟨fun m => if m = c then rank b else rank m, ?_⟩
    intro x hx
    rcases cases x hx with rfl | ⟨r, hr, rfl⟩
    · have hpc : p ≠ c := fun h => hc (h ▸ hpn)
      have := hrank e2 he2g
      rw [M.e2s, M.e2d] at this
      simp only [hpc, if_true, if_false]; exact this
    · have h1 := hrank r (hRg r hr)
      rw [moveSrc_src, moveSrc_dst]
      by_cases h : r.src = b
      · simp only [h, if_true, (hRc r hr).2, if_false]; rw [h] at h1; exact h1
      · simp only [h, if_false, (hRc r hr).1, (hRc r hr).2]; exact h1

/-- The two tensors entering the second node. -/
theorem arguments_two {g : Gr N} (wf : WellFormed g) {b : N} {e2 e3 : Edge N}
    (hinb : (inEdges g b).Perm [e2, e3]) (v : N → Nat → V) :
    arguments g.edges v b = [v e2.src e2.si, v e3.src e3.si] ∨
      arguments g.edges v b = [v e3.src e3.si, v e2.src e2.si] := by
  have hp : (incoming g.edges v b).Perm [(e2.di, v e2.src e2.si), (e3.di, v e3.src e3.si)] :=
    hinb.map (fun e : Edge N => (e.di, v e.src e.si))
  have hs := (List.mergeSort_perm (incoming g.edges v b) (fun a b => decide (a.1 ≤ b.1))).trans hp
  rcases h : (incoming g.edges v b).mergeSort (fun a b => decide (a.1 ≤ b.1)) with _ | ⟨x, l⟩
  · rw [h] at hs; exact absurd hs.length_eq (by simp)
  · rw [h] at hs
    have hl : l.length = 1 := by have := hs.length_eq; simpa using this
    obtain ⟨y, rfl⟩ := List.length_eq_one_iff.1 hl
    have hx := hs.mem_iff.1 List.mem_cons_self
    rcases List.mem_cons.1 hx with rfl | hx
    · left
      have := List.perm_singleton.1 ((List.perm_cons _).1 hs)
      simp only [List.cons.injEq, and_true] at this
      rw [arguments, h, this]; rfl
    · right
      rw [List.mem_singleton] at hx
      subst hx
      have h4 := hs.trans (List.Perm.swap _ _ _)
      have := List.perm_singleton.1 ((List.perm_cons _).1 h4)
      simp only [List.cons.injEq, and_true] at this
      rw [arguments, h, this]; rfl

theorem Fused.same {g g' : Gr N} (wf : WellFormed g) {p a b c : N} {e1 e2 e3 : Edge N}
    {R : List (Edge N)} (M : Fused g g' p a b c e1 e2 e3 R) (hina : inEdges g a = [e1])
    (hinb : (inEdges g b).Perm [e2, e3]) (hc : c ∉ g.nodes) (hao : a ∉ g.outputs.map Prod.fst)
    (hsi : e1.si = e2.si) {I : Interp N V}
    (hI1 : ∀ x k, I b [x, I a [x] e3.si] k = I c [x] k)
    (hI2 : ∀ x k, I b [I a [x] e3.si, x] k = I c [x] k) :
    SameFunction g I g' I := by
  have hg : ∀ r ∈ e1 :: e2 :: e3 :: R, r ∈ g.edges := fun r hr => M.split.mem_iff.2 hr
  have he1g := hg e1 (by simp)
  have he2g := hg e2 (by simp)
  have he3g := hg e3 (by simp)
  have hRg : ∀ r ∈ R, r ∈ g.edges := fun r hr => hg r (by simp [hr])
  have ha : a ∈ g.nodes := M.e1d ▸ wf.dst e1 he1g
  have hb : b ∈ g.nodes := M.e2d ▸ wf.dst e2 he2g
  have hpn : p ∈ g.nodes := M.e1s ▸ wf.src e1 he1g
  have hai : a ∉ g.inputs := by have := wf.insFree e1 he1g; rwa [M.e1d] at this
  have hbi : b ∉ g.inputs := by have := wf.insFree e2 he2g; rwa [M.e2d] at this
  have hpc : p ≠ c := fun h => hc (h ▸ hpn)
  have hRc : ∀ r ∈ R, r.src ≠ c ∧ r.dst ≠ c := fun r hr =>
    ⟨fun h => hc (h ▸ wf.src r (hRg r hr)), fun h => hc (h ▸ wf.dst r (hRg r hr))⟩
  refine same_of_forward wf (M.wf wf hc hao) ?_
  intro env v hv
  let v' : N → Nat → V := fun m => if m = c then v b else v m
  have hvc : v' c = v b := by simp [v']
  have hvm : ∀ m, m ≠ c → v' m = v m := by intro m hm; simp [v', hm]
  have hval : ∀ r ∈ R, v' (moveSrc b c r).src (moveSrc b c r).si = v r.src r.si := by
    intro r hr
    rw [moveSrc_si, moveSrc_src]
    split
    · rename_i h; rw [hvc, h]
    · rw [hvm _ (hRc r hr).1]
  have hRin : ∀ m, incoming (R.map (moveSrc b c)) v' m = incoming R v m := fun m =>
    incoming_map (fun _ _ => moveSrc_di _ _ _) (fun _ _ => by rw [moveSrc_dst])
      (fun r hr _ => hval r hr)
  refine ⟨v', ?_, ?_⟩
  · intro m hm k
    rw [M.inputs]
    obtain ⟨hm1, hma, hmb⟩ := (M.nodes m).1 hm
    by_cases hmc : m = c
    · subst hmc
      rw [if_neg (fun h => hc (wf.ins _ h)), hvc, hv b hb k, if_neg hbi]
      have harg : arguments g'.edges v' m = [v p e1.si] := by
        have hRm : incoming R v m = [] := by
          have : R.filter (fun e => decide (e.dst = m)) = [] := by
            rw [List.filter_eq_nil_iff]
            intro x hx; simpa using (hRc x hx).2
          simp [incoming, this]
        have hp := incoming_perm M.edges v' m
        rw [incoming_cons_eq rfl, hRin, hRm] at hp
        have := List.perm_singleton.1 hp
        rw [hvm p hpc] at this
        simp [arguments, this]
      have hva : v a e3.si = I a [v p e1.si] e3.si := by
        rw [hv a ha, if_neg hai, arguments_single hina, M.e1s]
      rw [harg]
      rcases arguments_two wf hinb v with h | h
      · rw [h, M.e2s, M.e3s, ← hsi, hva, hI1]
      · rw [h, M.e2s, M.e3s, ← hsi, hva, hI2]
    · have hmg : m ∈ g.nodes := hm1.resolve_left hmc
      rw [hvm m hmc, hv m hmg k]
      have : arguments g.edges v m = arguments g'.edges v' m := by
        refine arguments_congr ?_ (wf.slots m)
        refine (incoming_perm M.split v m).trans ?_
        rw [incoming_cons_ne (by rw [M.e1d]; exact hma.symm),
          incoming_cons_ne (by rw [M.e2d]; exact hmb.symm),
          incoming_cons_ne (by rw [M.e3d]; exact hmb.symm), ← hRin]
        rw [← incoming_cons_ne (e := ⟨p, c, e1.si, e1.di⟩) (E := R.map _) (fun h => hmc h.symm)]
        exact (incoming_perm M.edges v' m).symm
      rw [this]
  · rw [M.outputs, List.map_map]
    apply List.map_congr_left
    intro o ho
    by_cases h : o.1 = b
    · simp only [Function.comp, h, if_true, hvc]
    · simp only [Function.comp, h, if_false]
      rw [hvm _ (fun h' => hc (h' ▸ wf.outs o ho))]

end MCT.Graph
