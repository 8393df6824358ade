/-
Replacing a node by another one (`replace_node`, the depthwise-to-convolution substitution) and
replacing a node by two nodes in sequence.
-/
import Verif.Graph.Rewrites

namespace MCT.Graph
open MCT.GraphSpec

set_option linter.unusedSectionVars false
set_option linter.unusedVariables false
set_option linter.unusedSimpArgs false

variable {N V : Type*} [DecidableEq N]

/-- The renaming of a node. -/
def rn (cur new m : N) : N := if m = cur then new else m

/-- What is left after replacing `cur` by `new`, apart from the model inputs and outputs. -/
structure Replaced (g g' : Gr N) (cur new : N) : Prop where
  nodes : g'.nodes = (g.nodes ++ [new]).erase cur
  edges : g'.edges.Perm (g.edges.map (fun r => moveDst cur new (moveSrc cur new r)))

theorem nodup_add {g : Gr N} (wf : WellFormed g) {c : N} (hc : c ∉ g.nodes) :
    (g.nodes ++ [c]).Nodup := by
  rw [List.nodup_append]
  refine ⟨wf.nodes, by simp, ?_⟩
  intro x hx y hy hxy
  rw [List.mem_singleton] at hy
  exact hc (hy ▸ hxy ▸ hx)

theorem Replaced.mem {g g' : Gr N} {cur new : N} (wf : WellFormed g) (M : Replaced g g' cur new)
    (hc : new ∉ g.nodes) (m : N) : m ∈ g'.nodes ↔ (m = new ∨ m ∈ g.nodes) ∧ m ≠ cur := by
  rw [M.nodes, (nodup_add wf hc).mem_erase_iff, List.mem_append, List.mem_singleton]
  tauto

theorem rn_ne {g : Gr N} {cur new m m' : N} (hnew : new ∉ g.nodes) (hm : m ∈ g.nodes)
    (hm' : m' ∈ g.nodes) (h : rn cur new m = rn cur new m') : m = m' := by
  unfold rn at h
  split at h <;> split at h
  · simp [*]
  · exact absurd (h ▸ hm') hnew
  · exact absurd (h ▸ hm) hnew
  · exact h

theorem idxOf_map_inj {α β : Type*} [DecidableEq α] [DecidableEq β] (f : α → β) (l : List α) (a : α)
    (h : ∀ x ∈ l, f x = f a → x = a) : (l.map f).idxOf (f a) = l.idxOf a := by
  induction l with
  | nil => simp
  | cons x l ih =>
    rw [List.map_cons, List.idxOf_cons, List.idxOf_cons]
    by_cases hx : x = a
    · subst hx; simp
    · have : ¬ f x = f a := fun hh => hx (h x List.mem_cons_self hh)
      have e1 : (f x == f a) = false := by simpa using this
      have e2 : (x == a) = false := by simpa using hx
      rw [e1, e2, ih (fun y hy => h y (List.mem_cons_of_mem _ hy))]

theorem Replaced.dst_iff {g : Gr N} {cur new : N} (wf : WellFormed g) (hcur : cur ∈ g.nodes)
    (hnew : new ∉ g.nodes) {m : N} (hm : m ∈ g.nodes) {r : Edge N} (hr : r ∈ g.edges) :
    (moveDst cur new (moveSrc cur new r)).dst = rn cur new m ↔ r.dst = m := by
  rw [moveDst_dst, moveSrc_dst]
  constructor
  · intro h
    exact rn_ne hnew (wf.dst r hr) hm h
  · rintro rfl; rfl

theorem Replaced.wf {g g' : Gr N} {cur new : N} (wf : WellFormed g) (M : Replaced g g' cur new)
    (hcur : cur ∈ g.nodes) (hnew : new ∉ g.nodes)
    (hi : g'.inputs.Perm (g.inputs.map (rn cur new)))
    (ho : ∀ o ∈ g'.outputs, o.1 ∈ g'.nodes) : WellFormed g' := by
  have hne : new ≠ cur := fun h => hnew (h ▸ hcur)
  have hmem := M.mem wf hnew
  have hcn : new ∈ g'.nodes := (hmem new).2 ⟨Or.inl rfl, hne⟩
  have hrn : ∀ m ∈ g.nodes, rn cur new m ∈ g'.nodes := by
    intro m hm
    unfold rn; split
    · exact hcn
    · rename_i h; exact (hmem m).2 ⟨Or.inr hm, h⟩
  refine ⟨?_, ?_, ?_, ho, ?_, ?_, ?_, ?_, ?_⟩
  · rw [M.nodes]; exact (nodup_add wf hnew).erase cur
  · intro x hx
    obtain ⟨r, hr, rfl⟩ := List.mem_map.1 (M.edges.mem_iff.1 hx)
    rw [moveDst_src, moveSrc_src]
    exact hrn _ (wf.src r hr)
  · intro x hx
    obtain ⟨r, hr, rfl⟩ := List.mem_map.1 (M.edges.mem_iff.1 hx)
    rw [moveDst_dst, moveSrc_dst]
    exact hrn _ (wf.dst r hr)
  · intro m hm
    obtain ⟨m', hm', rfl⟩ := List.mem_map.1 (hi.mem_iff.1 hm)
    exact hrn _ (wf.ins m' hm')
  · rw [hi.nodup_iff]
    exact wf.insNodup.map_on (fun x hx y hy h => rn_ne hnew (wf.ins x hx) (wf.ins y hy) h)
  · intro x hx
    obtain ⟨r, hr, rfl⟩ := List.mem_map.1 (M.edges.mem_iff.1 hx)
    rw [moveDst_dst, moveSrc_dst]
    intro h
    obtain ⟨m', hm', h'⟩ := List.mem_map.1 (hi.mem_iff.1 h)
    have := rn_ne hnew (wf.ins m' hm') (wf.dst r hr) h'
    exact wf.insFree r hr (this ▸ hm')
  · intro m
    by_cases hm : m = cur
    · refine slots_none ?_
      intro x hx
      obtain ⟨r, hr, rfl⟩ := List.mem_map.1 (M.edges.mem_iff.1 hx)
      rw [moveDst_dst, moveSrc_dst, hm]
      split
      · exact hne
      · assumption
    · by_cases hmn : m ∈ g.nodes
      · refine slots_map (m := m) M.edges (fun _ _ => by rw [moveDst_di, moveSrc_di]) ?_ (wf.slots m)
        intro r hr
        have := Replaced.dst_iff wf hcur hnew hmn hr
        rwa [show rn cur new m = m by simp [rn, hm]] at this
      · by_cases hmw : m = new
        · refine slots_map (m := cur) M.edges (fun _ _ => by rw [moveDst_di, moveSrc_di]) ?_
            (wf.slots cur)
          intro r hr
          have := Replaced.dst_iff wf hcur hnew hcur hr
          rw [hmw]
          rwa [show rn cur new cur = new by simp [rn]] at this
        · refine slots_none ?_
          intro x hx h
          obtain ⟨r, hr, rfl⟩ := List.mem_map.1 (M.edges.mem_iff.1 hx)
          rw [moveDst_dst, moveSrc_dst] at h
          split at h
          · exact hmw h.symm
          · exact hmn (h ▸ wf.dst r hr)
  · obtain ⟨rank, hr⟩ := wf.acyclic
    refine ⟨fun m => if m = new then rank cur else rank m, ?_⟩
    have key : ∀ m ∈ g.nodes, (fun m => if m = new then rank cur else rank m) (rn cur new m) =
        rank m := by
      intro m hm
      unfold rn
      by_cases h : m = cur
      · simp [h]
      · have : m ≠ new := fun h' => hnew (h' ▸ hm)
        simp [h, this]
    intro x hx
    obtain ⟨r, hr', rfl⟩ := List.mem_map.1 (M.edges.mem_iff.1 hx)
    have h1 := hr r hr'
    rw [moveDst_dst, moveSrc_dst, moveDst_src, moveSrc_src]
    have k1 := key _ (wf.src r hr')
    have k2 := key _ (wf.dst r hr')
    unfold rn at k1 k2
    rw [k1, k2]; exact h1

theorem Replaced.forward {g g' : Gr N} {cur new : N} (wf : WellFormed g)
    (M : Replaced g g' cur new) (hcur : cur ∈ g.nodes) (hnew : new ∉ g.nodes)
    (hi : g'.inputs = g.inputs.map (rn cur new)) {I : Interp N V}
    (hI : I new = I cur) {env : Nat → V} {v : N → Nat → V} (hv : Valuation g I env v) :
    ∃ v', Valuation g' I env v' ∧ v' new = v cur ∧ ∀ m, m ≠ new → v' m = v m := by
  have hne : new ≠ cur := fun h => hnew (h ▸ hcur)
  have hmem := M.mem wf hnew
  let v' : N → Nat → V := fun m => if m = new then v cur else v m
  have hv'c : v' new = v cur := by simp [v']
  have hv'm : ∀ m, m ≠ new → v' m = v m := by intro m hm; simp [v', hm]
  have hrnv : ∀ m ∈ g.nodes, v' (rn cur new m) = v m := by
    intro m hm
    unfold rn
    split
    · rename_i h; rw [hv'c, h]
    · exact hv'm m (fun h => hnew (h ▸ hm))
  have hval : ∀ r ∈ g.edges, v' (moveDst cur new (moveSrc cur new r)).src
      (moveDst cur new (moveSrc cur new r)).si = v r.src r.si := by
    intro r hr
    rw [moveDst_src, moveDst_si, moveSrc_si, moveSrc_src]
    exact congrFun (hrnv _ (wf.src r hr)) _
  refine ⟨v', ?_, hv'c, hv'm⟩
  have key : ∀ m ∈ g.nodes, ∀ k, I (rn cur new m) = I m → v' (rn cur new m) k =
      if rn cur new m ∈ g'.inputs then env (g'.inputs.idxOf (rn cur new m))
      else I (rn cur new m) (arguments g'.edges v' (rn cur new m)) k := by
    intro m hm k hIm
    rw [hrnv m hm, hv m hm k, hIm]
    have hiff : rn cur new m ∈ g'.inputs ↔ m ∈ g.inputs := by
      rw [hi, List.mem_map]
      constructor
      · rintro ⟨x, hx, h⟩
        have := rn_ne hnew (wf.ins x hx) hm h
        exact this ▸ hx
      · intro h; exact ⟨m, h, rfl⟩
    by_cases hmi : m ∈ g.inputs
    · rw [if_pos hmi, if_pos (hiff.2 hmi), hi, idxOf_map_inj]
      intro x hx h
      exact rn_ne hnew (wf.ins x hx) hm h
    · rw [if_neg hmi, if_neg (fun h => hmi (hiff.1 h))]
      congr 1
      refine arguments_congr ?_ (wf.slots m)
      rw [← incoming_map (ρ := fun r => moveDst cur new (moveSrc cur new r)) (v' := v')
        (n := rn cur new m) (fun _ _ => by rw [moveDst_di, moveSrc_di])
        (fun r hr => Replaced.dst_iff wf hcur hnew hm hr) (fun r hr _ => hval r hr)]
      exact (incoming_perm M.edges v' _).symm
  intro m hm k
  obtain ⟨hm1, hmc⟩ := (hmem m).1 hm
  rcases hm1 with rfl | hm2
  · have := key cur hcur k (by simp [rn, hI])
    rwa [show rn cur m cur = m by simp [rn]] at this
  · have hr : rn cur new m = m := by simp [rn, hmc]
    have := key m hm2 k (by rw [hr])
    rwa [hr] at this

theorem reconnect_both {g : Gr N} (wf : WellFormed g) {cur new : N} (hcur : cur ∈ g.nodes)
    (hnew : new ∉ g.nodes) :
    ∃ E1 E2, reconnectOut { g with nodes := g.nodes ++ [new] } cur new =
        some { g with nodes := g.nodes ++ [new], edges := E1 } ∧
      reconnectIn { g with nodes := g.nodes ++ [new], edges := E1 } cur new =
        some { g with nodes := g.nodes ++ [new], edges := E2 } ∧
      E2.Perm (g.edges.map (fun r => moveDst cur new (moveSrc cur new r))) := by
  have hne : cur ≠ new := fun h => hnew (h ▸ hcur)
  obtain ⟨E1, h1, p1⟩ := reconnectOut_perm (g := { g with nodes := g.nodes ++ [new] })
    (cur := cur) (new := new) hne (by simp) (fun r hr => List.mem_append_left _ (wf.dst r hr))
  obtain ⟨E2, h2, p2⟩ := reconnectIn_perm (g := { g with nodes := g.nodes ++ [new], edges := E1 })
    (cur := cur) (new := new) hne (by simp) (by
      intro r hr
      obtain ⟨r', hr', rfl⟩ := List.mem_map.1 (p1.mem_iff.1 hr)
      rw [moveSrc_src]; split
      · simp
      · exact List.mem_append_left _ (wf.src r' hr'))
  refine ⟨E1, E2, h1, h2, ?_⟩
  have := p2.trans (p1.map _)
  rwa [List.map_map] at this

theorem replaced_no_edges {g : Gr N} (wf : WellFormed g) {cur new : N} {E : List (Edge N)}
    (hne : new ≠ cur)
    (p : E.Perm (g.edges.map (fun r => moveDst cur new (moveSrc cur new r)))) :
    (∀ e ∈ E, e.src ≠ cur) ∧ ∀ e ∈ E, e.dst ≠ cur := by
  constructor <;> intro e he
  · obtain ⟨r, hr, rfl⟩ := List.mem_map.1 (p.mem_iff.1 he)
    rw [moveDst_src, moveSrc_src]
    split
    · exact hne
    · assumption
  · obtain ⟨r, hr, rfl⟩ := List.mem_map.1 (p.mem_iff.1 he)
    rw [moveDst_dst, moveSrc_dst]
    split
    · exact hne
    · assumption

theorem replaceNode_result {g : Gr N} (wf : WellFormed g) {cur new : N} (hcur : cur ∈ g.nodes)
    (hnew : new ∉ g.nodes) :
    ∃ g', replaceNode g cur new = some g' ∧ Replaced g g' cur new ∧
      g'.outputs = g.outputs.map (fun o => (rn cur new o.1, o.2)) ∧
      g'.inputs = if cur ∈ g.inputs then g.inputs.erase cur ++ [new] else g.inputs := by
  have hne : new ≠ cur := fun h => hnew (h ▸ hcur)
  obtain ⟨E1, E2, h1, h2, p⟩ := reconnect_both wf hcur hnew
  set g3 : Gr N := replaceInput (replaceOutput { g with nodes := g.nodes ++ [new], edges := E2 }
    cur new) cur new with hg3
  have hg3n : g3.nodes = g.nodes ++ [new] := by
    by_cases h : cur ∈ g.inputs <;> simp only [hg3, replaceInput, replaceOutput, h, if_true, if_false]
  have hg3e : g3.edges = E2 := by
    by_cases h : cur ∈ g.inputs <;> simp only [hg3, replaceInput, replaceOutput, h, if_true, if_false]
  have hg3o : g3.outputs = g.outputs.map (fun o => (rn cur new o.1, o.2)) := by
    have : g3.outputs = g.outputs.map (fun o => if o.1 = cur then (new, o.2) else o) := by
      by_cases h : cur ∈ g.inputs <;> simp only [hg3, replaceInput, replaceOutput, h, if_true, if_false]
    rw [this]
    apply List.map_congr_left
    intro o _
    unfold rn
    split <;> rfl
  have hg3i : g3.inputs = if cur ∈ g.inputs then g.inputs.erase cur ++ [new] else g.inputs := by
    by_cases h : cur ∈ g.inputs <;> simp only [hg3, replaceInput, replaceOutput, h, if_true, if_false]
  have hnoedge := replaced_no_edges wf hne p
  have h4 := removeNode_free (g := g3) (n := cur) (i := none) (o := none)
    (by
      rw [hg3o, List.map_map, List.mem_map]
      rintro ⟨o, _, ho⟩
      simp only [Function.comp, rn] at ho
      split at ho
      · exact hne ho
      · contradiction)
    (by
      rw [hg3i]
      split
      · rw [List.mem_append, wf.insNodup.mem_erase_iff]
        rintro (⟨h, _⟩ | h)
        · exact h rfl
        · exact hne (List.mem_singleton.1 h).symm
      · assumption)
    (by rw [hg3n]; exact List.mem_append_left _ hcur)
    (by rw [hg3e]; exact hnoedge.1) (by rw [hg3e]; exact hnoedge.2)
  refine ⟨{ g3 with nodes := g3.nodes.erase cur }, ?_, ⟨by rw [hg3n], by rw [hg3e]; exact p⟩,
    hg3o, hg3i⟩
  rw [replaceNode, addNode_fresh hnew]
  simp only [h1, h2, ← hg3, h4, Option.bind_eq_bind, Option.bind_some]

theorem removeNode_out {g : Gr N} {n : N} {o : List (N × Nat)}
    (ho : n ∈ g.outputs.map Prod.fst) (hi : n ∉ g.inputs) (hn : n ∈ g.nodes)
    (hs : ∀ e ∈ g.edges, e.src ≠ n) (hd : ∀ e ∈ g.edges, e.dst ≠ n) :
    removeNode g n none (some o) = some { g with nodes := g.nodes.erase n, outputs := o } := by
  have h1 : g.edges.filter (fun e => decide (e.dst = n)) = [] := by
    rw [List.filter_eq_nil_iff]; intro e he; simpa using hd e he
  have h2 : g.edges.filter (fun e => decide (e.src = n)) = [] := by
    rw [List.filter_eq_nil_iff]; intro e he; simpa using hs e he
  unfold removeNode
  rw [if_pos ho]
  simp only [Option.map_some, Option.bind_eq_bind, Option.bind_some]
  rw [if_neg hi]
  simp [inEdges, outEdges, h1, h2, hn]

theorem swapSingle_result {g : Gr N} (wf : WellFormed g) {cur new : N} {e : Edge N}
    (hin : inEdges g cur = [e]) (hnew : new ∉ g.nodes) :
    ∃ g', swapSingle g cur new = some g' ∧ Replaced g g' cur new ∧ g'.inputs = g.inputs ∧
      g'.outputs = if cur ∈ g.outputs.map Prod.fst then [(new, 0)] else g.outputs := by
  obtain ⟨R, hp, hRd, heg, hed⟩ := split_single_in hin
  have hcur : cur ∈ g.nodes := by have := wf.dst e heg; rwa [hed] at this
  have hne : new ≠ cur := fun h => hnew (h ▸ hcur)
  have hself : e.src ≠ cur := by have := not_self_loop wf heg; rwa [hed] at this
  set g0 : Gr N := { g with nodes := g.nodes ++ [new] } with hg0
  have hin0 : inEdges g0 cur = [e] := hin
  have hadd : addEdge g0 { e with dst := new } =
      { g0 with edges := g.edges ++ [{ e with dst := new }] } :=
    addEdge_of_mem (List.mem_append_left _ (wf.src e heg)) (by simp [hg0])
  set g1 : Gr N := { g0 with edges := g.edges ++ [{ e with dst := new }] } with hg1
  obtain ⟨E1, h1, p1⟩ := removeEdge_perm (g := g1) (u := e.src) (w := cur) (e := e)
    (R := { e with dst := new } :: R)
    (by
      show (g.edges ++ [{ e with dst := new }]).Perm _
      refine (List.perm_append_singleton _ _).trans ?_
      exact (List.Perm.cons _ hp).trans (List.Perm.swap _ _ _)) rfl hed
    (by
      intro r hr hc
      rcases List.mem_cons.1 hr with h | h
      · rw [h] at hc; exact hne hc.2
      · exact hRd r h hc.2)
  set g2 : Gr N := { g1 with edges := E1 } with hg2
  obtain ⟨E2, h2, p2⟩ := reconnectOut_perm (g := g2) (cur := cur) (new := new) hne.symm
    (by simp [hg2, hg1, hg0]) (by
      intro r hr
      rcases List.mem_cons.1 (p1.mem_iff.1 hr) with h | h
      · rw [h]; simp [hg2, hg1, hg0]
      · exact List.mem_append_left _ (wf.dst r ((perm_tail hp).2 r h)))
  have p2' : E2.Perm (g.edges.map (fun r => moveDst cur new (moveSrc cur new r))) := by
    refine p2.trans ((p1.map _).trans ?_)
    refine List.Perm.trans ?_ (hp.map _).symm
    rw [List.map_cons, List.map_cons]
    have e1 : moveSrc cur new { e with dst := new } = moveDst cur new (moveSrc cur new e) := by
      simp [moveSrc, moveDst, hself, hed]
    rw [e1]
    refine List.Perm.cons _ ?_
    have : R.map (moveSrc cur new) = R.map (fun r => moveDst cur new (moveSrc cur new r)) := by
      apply List.map_congr_left
      intro r hr
      simp [moveDst, hRd r hr]
    rw [this]
  have hnoedge := replaced_no_edges wf hne p2'
  have hci : cur ∉ g.inputs := by
    intro h; exact wf.insFree e heg (by rw [hed]; exact h)
  by_cases hco : cur ∈ g.outputs.map Prod.fst
  · have h4 := removeNode_out (g := { g2 with edges := E2 }) (n := cur) (o := [(new, 0)])
      hco hci (List.mem_append_left _ hcur) hnoedge.1 hnoedge.2
    refine ⟨{ g2 with edges := E2, nodes := g2.nodes.erase cur, outputs := [(new, 0)] }, ?_,
      ⟨rfl, p2'⟩, rfl, by rw [if_pos hco]⟩
    simp only [swapSingle]
    rw [addNode_fresh hnew, ← hg0, hin0]
    simp only [hadd, h1, h2, h4, ← hg2, Option.bind_eq_bind, Option.bind_some]
  · have h4 := removeNode_free (g := { g2 with edges := E2 }) (n := cur) (i := none)
      (o := some [(new, 0)]) hco hci (List.mem_append_left _ hcur) hnoedge.1 hnoedge.2
    refine ⟨{ g2 with edges := E2, nodes := g2.nodes.erase cur }, ?_, ⟨rfl, p2'⟩, rfl,
      by rw [if_neg hco]⟩
    simp only [swapSingle]
    rw [addNode_fresh hnew, ← hg0, hin0]
    simp only [hadd, h1, h2, h4, ← hg2, Option.bind_eq_bind, Option.bind_some]

end MCT.Graph
