/-
The graphs the substitutions produce, and their semantics.
-/
import Verif.Graph.Identity

namespace MCT.Graph
open MCT.GraphSpec

set_option linter.unusedSectionVars false
set_option linter.unusedVariables false
set_option linter.unusedSimpArgs false

variable {N V : Type*} [DecidableEq N]

theorem computes_unique {g : Gr N} (wf : WellFormed g) {I : Interp N V} {env : Nat → V}
    {o o' : List V} (h : Computes g I env o) (h' : Computes g I env o') : o = o' := by
  obtain ⟨v, hv, rfl⟩ := h
  obtain ⟨v', hv', rfl⟩ := h'
  apply List.map_congr_left
  intro x hx
  rw [valuation_unique wf hv hv' x.1 (wf.outs x hx)]

theorem same_of_forward {g g' : Gr N} (wf : WellFormed g) (wf' : WellFormed g') {I I' : Interp N V}
    (h : ∀ env v, Valuation g I env v → ∃ v', Valuation g' I' env v' ∧
      g.outputs.map (fun o => v o.1 o.2) = g'.outputs.map (fun o => v' o.1 o.2)) :
    SameFunction g I g' I' := by
  have fwd : ∀ env o, Computes g I env o → Computes g' I' env o := by
    rintro env o ⟨v, hv, rfl⟩
    obtain ⟨v', hv', ho⟩ := h env v hv
    exact ⟨v', hv', ho⟩
  intro env o
  refine ⟨fwd env o, fun h' => ?_⟩
  obtain ⟨v, hv⟩ := valuation_exists wf I env
  have h1 : Computes g I env (g.outputs.map (fun o => v o.1 o.2)) := ⟨v, hv, rfl⟩
  have h2 := computes_unique wf' h' (fwd env _ h1)
  rw [h2]; exact h1

theorem perm_tail {g : Gr N} {e : Edge N} {R : List (Edge N)} (hp : g.edges.Perm (e :: R)) :
    e ∈ g.edges ∧ ∀ r ∈ R, r ∈ g.edges :=
  ⟨hp.mem_iff.2 List.mem_cons_self, fun _ hr => hp.mem_iff.2 (List.mem_cons_of_mem _ hr)⟩

theorem incoming_cons_ne {E : List (Edge N)} {e : Edge N} {v : N → Nat → V} {m : N}
    (h : e.dst ≠ m) : incoming (e :: E) v m = incoming E v m := by
  simp [incoming, List.filter_cons, h]

theorem addNode_fresh {g : Gr N} {c : N} (h : c ∉ g.nodes) :
    addNode g c = { g with nodes := g.nodes ++ [c] } := by simp [addNode, h]

/-- The slots of a list of edges split as head and rest. -/
theorem slots_cons {E E' : List (Edge N)} {e : Edge N} {n : N} (hp : E'.Perm (e :: E))
    (h : ((E.filter (fun e => decide (e.dst = n))).map Edge.di).Nodup)
    (hfree : e.dst = n → ∀ r ∈ E, r.dst = n → r.di ≠ e.di) :
    ((E'.filter (fun e => decide (e.dst = n))).map Edge.di).Nodup := by
  rw [((hp.filter (fun e => decide (e.dst = n))).map Edge.di).nodup_iff, List.filter_cons]
  by_cases hd : e.dst = n
  · simp only [hd, decide_true, if_true, List.map_cons, List.nodup_cons]
    refine ⟨?_, h⟩
    intro hm
    obtain ⟨r, hr, hrd⟩ := List.mem_map.1 hm
    have := List.mem_filter.1 hr
    exact hfree hd r this.1 (by simpa using this.2) hrd
  · simpa [hd] using h

theorem slots_none {E : List (Edge N)} {n : N} (h : ∀ e ∈ E, e.dst ≠ n) :
    ((E.filter (fun e => decide (e.dst = n))).map Edge.di).Nodup := by
  have : E.filter (fun e => decide (e.dst = n)) = [] := by
    rw [List.filter_eq_nil_iff]; intro e he; simpa using h e he
  simp [this]

/-! ### Replacing a node and its only consumer by one node -/

/-- What `mergePair` leaves. -/
structure Merged (g g' : Gr N) (a b c : N) (e : Edge N) (R : List (Edge N)) : Prop where
  split : g.edges.Perm (e :: R)
  esrc : e.src = a
  edst : e.dst = b
  noSrc : ∀ r ∈ R, r.src ≠ a
  noDst : ∀ r ∈ R, r.dst ≠ b
  nodes : g'.nodes = ((g.nodes ++ [c]).erase b).erase a
  inputs : g'.inputs = g.inputs
  outputs : g'.outputs = g.outputs.map (fun o => if o.1 = b then (c, o.2) else o)
  edges : g'.edges.Perm (R.map (fun r => moveDst a c (moveSrc b c r)))

theorem mergePair_result {g : Gr N} (wf : WellFormed g) {a b c : N} {e : Edge N}
    (hout : outEdges g a = [e]) (hin : inEdges g b = [e]) (hc : c ∉ g.nodes)
    (hao : a ∉ g.outputs.map Prod.fst) (hai : a ∉ g.inputs) :
    ∃ g' R, mergePair g a b c = some g' ∧ Merged g g' a b c e R := by
  obtain ⟨R, hp, hRs, heg, hes⟩ := split_single_out hout
  have hed : e.dst = b := by
    have : e ∈ inEdges g b := by rw [hin]; exact List.mem_singleton.2 rfl
    simpa using (List.mem_filter.1 this).2
  have hRd : ∀ r ∈ R, r.dst ≠ b := by
    have h1 : (inEdges g b).Perm ((e :: R).filter (fun e => decide (e.dst = b))) := hp.filter _
    rw [hin, List.filter_cons] at h1
    simp only [hed, decide_true, if_true] at h1
    have h2 := (List.perm_cons e).1 h1
    intro r hr hrd
    have : r ∈ R.filter (fun e => decide (e.dst = b)) := List.mem_filter.2 ⟨hr, by simp [hrd]⟩
    exact absurd (h2.mem_iff.2 this) (by simp)
  have hRg := (perm_tail hp).2
  have hab : a ≠ b := by have := not_self_loop wf heg; rw [hes, hed] at this; exact this
  have ha : a ∈ g.nodes := by have := wf.src e heg; rwa [hes] at this
  have hb : b ∈ g.nodes := by have := wf.dst e heg; rwa [hed] at this
  have hca : c ≠ a := fun h => hc (h ▸ ha)
  have hcb : c ≠ b := fun h => hc (h ▸ hb)
  have hcs : ∀ r ∈ g.edges, r.src ≠ c := fun r hr h => hc (h ▸ wf.src r hr)
  have hcd : ∀ r ∈ g.edges, r.dst ≠ c := fun r hr h => hc (h ▸ wf.dst r hr)
  set g0 : Gr N := { g with nodes := g.nodes ++ [c] } with hg0
  have hmem0 : ∀ m, m ∈ g.nodes → m ∈ g0.nodes := fun m hm => List.mem_append_left _ hm
  have hc0 : c ∈ g0.nodes := by simp [hg0]
  obtain ⟨E1, h1, p1⟩ := reconnectOut_perm (g := g0) (cur := b) (new := c) hcb.symm hc0
    (fun r hr => hmem0 _ (wf.dst r hr))
  have p1' : E1.Perm (e :: R.map (moveSrc b c)) := by
    refine p1.trans ((hp.map _).trans ?_)
    have : moveSrc b c e = e := by simp [moveSrc, hes, hab]
    rw [List.map_cons, this]
  set g1 : Gr N := { g0 with edges := E1 } with hg1
  obtain ⟨E2, h2, p2⟩ := reconnectIn_perm (g := g1) (cur := a) (new := c) hca.symm hc0
    (by
      intro r hr
      rcases List.mem_cons.1 (p1'.mem_iff.1 hr) with h | h
      · rw [h]; exact hmem0 _ (wf.src e heg)
      · obtain ⟨r', hr', rfl⟩ := List.mem_map.1 h
        rw [moveSrc_src]; split
        · exact hc0
        · exact hmem0 _ (wf.src r' (hRg r' hr')))
  have p2' : E2.Perm (e :: R.map (fun r => moveDst a c (moveSrc b c r))) := by
    refine p2.trans ((p1'.map _).trans ?_)
    have : moveDst a c e = e := by simp [moveDst, hed, hab.symm]
    rw [List.map_cons, this, List.map_map]
    exact List.Perm.refl _
  set g3 : Gr N := replaceOutput { g1 with edges := E2 } b c with hg3
  obtain ⟨E3, h3, p3⟩ := removeEdge_perm (g := g3) (u := a) (w := b) p2' hes hed (by
    intro r hr hc'
    obtain ⟨r', hr', rfl⟩ := List.mem_map.1 hr
    have := hc'.1
    rw [moveDst_src, moveSrc_src] at this
    split at this
    · exact hca this
    · exact hRs r' hr' this)
  set g4 : Gr N := { g3 with edges := E3 } with hg4
  have hsrcs : ∀ x ∈ E3, x.src ≠ a ∧ x.src ≠ b := by
    intro x hx
    obtain ⟨r, hr, rfl⟩ := List.mem_map.1 (p3.mem_iff.1 hx)
    rw [moveDst_src, moveSrc_src]
    split
    · exact ⟨hca, hcb⟩
    · rename_i h; exact ⟨hRs r hr, h⟩
  have hdsts : ∀ x ∈ E3, x.dst ≠ a ∧ x.dst ≠ b := by
    intro x hx
    obtain ⟨r, hr, rfl⟩ := List.mem_map.1 (p3.mem_iff.1 hx)
    rw [moveDst_dst, moveSrc_dst]
    split
    · exact ⟨hca, hcb⟩
    · rename_i h; exact ⟨h, hRd r hr⟩
  have hbo : b ∉ g4.outputs.map Prod.fst := by
    simp only [hg4, hg3, replaceOutput, List.map_map, List.mem_map, not_exists, not_and]
    intro o ho
    by_cases h : o.1 = b
    · simp only [Function.comp, h, if_true]; exact hcb
    · simp only [Function.comp, h, if_false, not_false_eq_true]
  have hao' : a ∉ g4.outputs.map Prod.fst := by
    simp only [hg4, hg3, replaceOutput, List.map_map, List.mem_map, not_exists, not_and]
    intro o ho
    by_cases h : o.1 = b
    · simp only [Function.comp, h, if_true]; exact hca
    · simp only [Function.comp, h, if_false]
      exact fun h' => hao (List.mem_map.2 ⟨o, ho, h'⟩)
  have hbi : b ∉ g4.inputs := by
    intro h; exact wf.insFree e heg (by rw [hed]; exact h)
  have h5 := removeNode_free (g := g4) (n := b) (i := none) (o := none) hbo hbi
    (hmem0 _ hb) (fun x hx => (hsrcs x hx).2) (fun x hx => (hdsts x hx).2)
  have ha5 : a ∈ g4.nodes.erase b := by
    rw [List.mem_erase_of_ne hab]; exact hmem0 _ ha
  have h6 := removeNode_free (g := { g4 with nodes := g4.nodes.erase b }) (n := a) (i := none)
    (o := none) hao' hai ha5 (fun x hx => (hsrcs x hx).1) (fun x hx => (hdsts x hx).1)
  refine ⟨{ g4 with nodes := (g4.nodes.erase b).erase a }, R, ?_,
    hp, hes, hed, hRs, hRd, rfl, rfl, rfl, p3⟩
  have hn1 : (nextNodes g a).length = 1 := by simp [nextNodes, hout]
  have hn2 : (prevNodes g b).length = 1 := by simp [prevNodes, hin]
  rw [mergePair, if_neg (by omega), addNode_fresh hc]
  simp only [← hg0, h1, h2, h3, h5, h6, ← hg1, ← hg3, ← hg4, Option.bind_eq_bind, Option.bind_some]

theorem Merged.facts {g g' : Gr N} {a b c : N} {e : Edge N} {R : List (Edge N)}
    (wf : WellFormed g) (M : Merged g g' a b c e R) (hc : c ∉ g.nodes) :
    a ∈ g.nodes ∧ b ∈ g.nodes ∧ a ≠ b ∧ c ≠ a ∧ c ≠ b ∧ (∀ r ∈ R, r ∈ g.edges) ∧
      (∀ r ∈ R, r.src ≠ c ∧ r.dst ≠ c) ∧
      (∀ m, m ∈ g'.nodes ↔ (m = c ∨ m ∈ g.nodes) ∧ m ≠ a ∧ m ≠ b) := by
  obtain ⟨heg, hRg⟩ := perm_tail M.split
  have ha : a ∈ g.nodes := by have := wf.src e heg; rwa [M.esrc] at this
  have hb : b ∈ g.nodes := by have := wf.dst e heg; rwa [M.edst] at this
  have hab : a ≠ b := by have := not_self_loop wf heg; rwa [M.esrc, M.edst] at this
  have hnd : (g.nodes ++ [c]).Nodup := by
    rw [List.nodup_append]
    refine ⟨wf.nodes, by simp, ?_⟩
    intro x hx y hy hxy
    rw [List.mem_singleton] at hy
    exact hc (hy ▸ hxy ▸ hx)
  refine ⟨ha, hb, hab, fun h => hc (h ▸ ha), fun h => hc (h ▸ hb), hRg,
    fun r hr => ⟨fun h => hc (h ▸ wf.src r (hRg r hr)), fun h => hc (h ▸ wf.dst r (hRg r hr))⟩, ?_⟩
  intro m
  rw [M.nodes, (hnd.erase b).mem_erase_iff, hnd.mem_erase_iff, List.mem_append, List.mem_singleton]
  tauto

theorem Merged.wf {g g' : Gr N} {a b c : N} {e : Edge N} {R : List (Edge N)}
    (wf : WellFormed g) (M : Merged g g' a b c e R) (hc : c ∉ g.nodes)
    (hao : a ∉ g.outputs.map Prod.fst) (hai : a ∉ g.inputs) : WellFormed g' := by
  obtain ⟨ha, hb, hab, hca, hcb, hRg, hRc, hmem⟩ := M.facts wf hc
  obtain ⟨heg, _⟩ := perm_tail M.split
  have hnd : (g.nodes ++ [c]).Nodup := by
    rw [List.nodup_append]
    refine ⟨wf.nodes, by simp, ?_⟩
    intro x hx y hy hxy
    rw [List.mem_singleton] at hy
    exact hc (hy ▸ hxy ▸ hx)
  have hcn : c ∈ g'.nodes := (hmem c).2 ⟨Or.inl rfl, hca, hcb⟩
  refine ⟨?_, ?_, ?_, ?_, ?_, ?_, ?_, ?_, ?_⟩
  · rw [M.nodes]; exact (hnd.erase b).erase a
  · intro x hx
    obtain ⟨r, hr, rfl⟩ := List.mem_map.1 (M.edges.mem_iff.1 hx)
    rw [moveDst_src, moveSrc_src]
    split
    · exact hcn
    · rename_i h
      exact (hmem _).2 ⟨Or.inr (wf.src r (hRg r hr)), M.noSrc r hr, h⟩
  · intro x hx
    obtain ⟨r, hr, rfl⟩ := List.mem_map.1 (M.edges.mem_iff.1 hx)
    rw [moveDst_dst, moveSrc_dst]
    split
    · exact hcn
    · rename_i h
      exact (hmem _).2 ⟨Or.inr (wf.dst r (hRg r hr)), h, M.noDst r hr⟩
  · intro o ho
    rw [M.outputs] at ho
    obtain ⟨o', ho'', rfl⟩ := List.mem_map.1 ho
    by_cases h : o'.1 = b
    · simp only [h, if_true]; exact hcn
    · simp only [h, if_false]
      exact (hmem _).2 ⟨Or.inr (wf.outs o' ho''),
        fun h' => hao (List.mem_map.2 ⟨o', ho'', h'⟩), h⟩
  · intro m hm
    rw [M.inputs] at hm
    refine (hmem _).2 ⟨Or.inr (wf.ins m hm), fun h => hai (h ▸ hm), fun h => ?_⟩
    exact wf.insFree e heg (by rw [M.edst, ← h]; exact hm)
  · rw [M.inputs]; exact wf.insNodup
  · intro x hx
    obtain ⟨r, hr, rfl⟩ := List.mem_map.1 (M.edges.mem_iff.1 hx)
    rw [M.inputs, moveDst_dst, moveSrc_dst]
    split
    · exact fun h => hc (wf.ins c h)
    · exact wf.insFree r (hRg r hr)
  · intro m
    by_cases hm : m = c
    · subst hm
      refine slots_map (m := a) M.edges (fun _ _ => by rw [moveDst_di, moveSrc_di]) ?_
        (slots_sub M.split (wf.slots a))
      intro r hr
      rw [moveDst_dst, moveSrc_dst]
      split
      · simp [*]
      · rename_i h; simp [h, (hRc r hr).2]
    · by_cases hma : m = a
      · refine slots_none ?_
        intro x hx
        obtain ⟨r, hr, rfl⟩ := List.mem_map.1 (M.edges.mem_iff.1 hx)
        rw [moveDst_dst, moveSrc_dst]
        split
        · exact fun h => hm h.symm
        · rename_i h; exact fun h' => h (h'.trans hma)
      · refine slots_map (m := m) M.edges (fun _ _ => by rw [moveDst_di, moveSrc_di]) ?_
          (slots_sub M.split (wf.slots m))
        intro r hr
        rw [moveDst_dst, moveSrc_dst]
        split
        · rename_i h; rw [h]; exact ⟨fun h' => absurd h'.symm hm, fun h' => absurd h'.symm hma⟩
        · exact Iff.rfl
  · obtain ⟨rank, hr⟩ := wf.acyclic
    refine ⟨fun m => if m = c then rank b else rank m, ?_⟩
    intro x hx
    obtain ⟨r, hr', rfl⟩ := List.mem_map.1 (M.edges.mem_iff.1 hx)
    have h1 := hr r (hRg r hr')
    have h2 := hr e heg
    rw [M.esrc, M.edst] at h2
    rw [moveDst_dst, moveSrc_dst, moveDst_src, moveSrc_src]
    have hsc := (hRc r hr').1
    have hdc := (hRc r hr').2
    by_cases h3 : r.src = b <;> by_cases h4 : r.dst = a
    · rw [h3, h4] at h1; exact absurd h1 (by omega)
    · simp only [h3, h4, if_true, if_false, hdc]; rw [h3] at h1; exact h1
    · simp only [h3, h4, if_true, if_false, hsc]; rw [h4] at h1; omega
    · simp only [h3, h4, if_false, hsc, hdc]; exact h1

theorem Merged.same {g g' : Gr N} {a b c : N} {e : Edge N} {R : List (Edge N)}
    (wf : WellFormed g) (M : Merged g g' a b c e R) (hin : inEdges g b = [e]) (hc : c ∉ g.nodes)
    (hao : a ∉ g.outputs.map Prod.fst) (hai : a ∉ g.inputs)
    {I : Interp N V} (hI : ∀ args k, I c args k = I b [I a args e.si] k) :
    SameFunction g I g' I := by
  obtain ⟨ha, hb, hab, hca, hcb, hRg, hRc, hmem⟩ := M.facts wf hc
  obtain ⟨heg, _⟩ := perm_tail M.split
  refine same_of_forward wf (M.wf wf hc hao hai) ?_
  intro env v hv
  have hbi : b ∉ g.inputs := by
    intro h; exact wf.insFree e heg (by rw [M.edst]; exact h)
  let v' : N → Nat → V := fun m => if m = c then v b else v m
  have hv'c : v' c = v b := by simp [v']
  have hv'm : ∀ m, m ≠ c → v' m = v m := by intro m hm; simp [v', hm]
  have hval : ∀ r ∈ R, v' (moveDst a c (moveSrc b c r)).src (moveDst a c (moveSrc b c r)).si =
      v r.src r.si := by
    intro r hr
    rw [moveDst_src, moveDst_si, moveSrc_si, moveSrc_src]
    split
    · rename_i h; rw [hv'c, h]
    · rw [hv'm _ (hRc r hr).1]
  refine ⟨v', ?_, ?_⟩
  · intro m hm k
    obtain ⟨hm1, hma, hmb⟩ := (hmem m).1 hm
    by_cases hmc : m = c
    · subst hmc
      have hmi : m ∉ g'.inputs := by rw [M.inputs]; exact fun h => hc (wf.ins m h)
      rw [if_neg hmi, hv'c, hv b hb k, if_neg hbi, hI, arguments_single hin, M.esrc,
        hv a ha, if_neg hai]
      have : arguments g.edges v a = arguments g'.edges v' m := by
        refine arguments_congr ?_ (wf.slots a)
        refine (incoming_perm M.split v a).trans ?_
        rw [incoming_cons_ne (by rw [M.edst]; exact hab.symm)]
        rw [← incoming_map (ρ := fun r => moveDst a m (moveSrc b m r)) (v' := v') (n := m)
          (fun _ _ => by rw [moveDst_di, moveSrc_di]) ?_ (fun r hr _ => hval r hr)]
        · exact (incoming_perm M.edges v' m).symm
        · intro r hr
          rw [moveDst_dst, moveSrc_dst]
          split
          · simp [*]
          · rename_i h; simp [h, (hRc r hr).2]
      rw [this]
    · have hm2 : m ∈ g.nodes := hm1.resolve_left hmc
      rw [hv'm m hmc, hv m hm2 k, M.inputs]
      have : arguments g.edges v m = arguments g'.edges v' m := by
        refine arguments_congr ?_ (wf.slots m)
        refine (incoming_perm M.split v m).trans ?_
        rw [incoming_cons_ne (by rw [M.edst]; exact fun h => hmb h.symm)]
        rw [← incoming_map (ρ := fun r => moveDst a c (moveSrc b c r)) (v' := v') (n := m)
          (fun _ _ => by rw [moveDst_di, moveSrc_di]) ?_ (fun r hr _ => hval r hr)]
        · exact (incoming_perm M.edges v' m).symm
        · intro r hr
          rw [moveDst_dst, moveSrc_dst]
          split
          · rename_i h; rw [h]; exact ⟨fun h' => absurd h'.symm hmc, fun h' => absurd h'.symm hma⟩
          · exact Iff.rfl
      rw [this]
  · rw [M.outputs, List.map_map]
    apply List.map_congr_left
    intro o ho
    by_cases h : o.1 = b
    · simp only [Function.comp, h, if_true, hv'c]
    · simp only [Function.comp, h, if_false]
      rw [hv'm _ (fun h' => hc (h' ▸ wf.outs o ho))]

end MCT.Graph
