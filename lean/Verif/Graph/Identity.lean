/-
Removal of an identity node: the resulting graph, and its semantics.
-/
import Verif.Graph.Lemmas

namespace MCT.Graph
open MCT.GraphSpec

set_option linter.unusedSectionVars false
set_option linter.unusedVariables false
set_option linter.unusedSimpArgs false

variable {N V : Type*} [DecidableEq N]

@[simp] theorem moveSrc_dst (a b : N) (e : Edge N) : (moveSrc a b e).dst = e.dst := by
  unfold moveSrc; split <;> rfl
@[simp] theorem moveSrc_di (a b : N) (e : Edge N) : (moveSrc a b e).di = e.di := by
  unfold moveSrc; split <;> rfl
@[simp] theorem moveSrc_si (a b : N) (e : Edge N) : (moveSrc a b e).si = e.si := by
  unfold moveSrc; split <;> rfl
@[simp] theorem moveDst_src (a b : N) (e : Edge N) : (moveDst a b e).src = e.src := by
  unfold moveDst; split <;> rfl
@[simp] theorem moveDst_di (a b : N) (e : Edge N) : (moveDst a b e).di = e.di := by
  unfold moveDst; split <;> rfl
@[simp] theorem moveDst_si (a b : N) (e : Edge N) : (moveDst a b e).si = e.si := by
  unfold moveDst; split <;> rfl

theorem moveSrc_src (a b : N) (e : Edge N) :
    (moveSrc a b e).src = if e.src = a then b else e.src := by
  unfold moveSrc; split <;> rfl
theorem moveDst_dst (a b : N) (e : Edge N) :
    (moveDst a b e).dst = if e.dst = a then b else e.dst := by
  unfold moveDst; split <;> rfl

theorem not_self_loop {g : Gr N} (wf : WellFormed g) {e : Edge N} (he : e ∈ g.edges) :
    e.src ≠ e.dst := by
  obtain ⟨rank, hr⟩ := wf.acyclic
  intro h
  have := hr e he
  rw [h] at this
  exact lt_irrefl _ this

/-- The edges split into the only incoming edge of a node and the rest. -/
theorem split_single_in {g : Gr N} {n : N} {e : Edge N} (hin : inEdges g n = [e]) :
    ∃ R, g.edges.Perm (e :: R) ∧ (∀ r ∈ R, r.dst ≠ n) ∧ e ∈ g.edges ∧ e.dst = n := by
  refine ⟨g.edges.filter (fun e => !decide (e.dst = n)), ?_, ?_, ?_⟩
  · have := List.filter_append_perm (fun e : Edge N => decide (e.dst = n)) g.edges
    rw [show g.edges.filter (fun e => decide (e.dst = n)) = [e] from hin] at this
    exact this.symm
  · intro r hr; simpa using (List.mem_filter.1 hr).2
  · have : e ∈ inEdges g n := by rw [hin]; exact List.mem_singleton.2 rfl
    have := List.mem_filter.1 this
    exact ⟨this.1, by simpa using this.2⟩

theorem split_single_out {g : Gr N} {n : N} {e : Edge N} (hout : outEdges g n = [e]) :
    ∃ R, g.edges.Perm (e :: R) ∧ (∀ r ∈ R, r.src ≠ n) ∧ e ∈ g.edges ∧ e.src = n := by
  refine ⟨g.edges.filter (fun e => !decide (e.src = n)), ?_, ?_, ?_⟩
  · have := List.filter_append_perm (fun e : Edge N => decide (e.src = n)) g.edges
    rw [show g.edges.filter (fun e => decide (e.src = n)) = [e] from hout] at this
    exact this.symm
  · intro r hr; simpa using (List.mem_filter.1 hr).2
  · have : e ∈ outEdges g n := by rw [hout]; exact List.mem_singleton.2 rfl
    have := List.mem_filter.1 this
    exact ⟨this.1, by simpa using this.2⟩

theorem arguments_single {g : Gr N} {n : N} {e : Edge N} (hin : inEdges g n = [e])
    (v : N → Nat → V) : arguments g.edges v n = [v e.src e.si] := by
  have : g.edges.filter (fun e => decide (e.dst = n)) = [e] := hin
  simp [arguments, incoming, this]

theorem removeIdentity_result {g : Gr N} (wf : WellFormed g) {n : N} {e : Edge N}
    (hin : inEdges g n = [e]) :
    ∃ g' R, removeIdentity g n = some g' ∧ g.edges.Perm (e :: R) ∧ (∀ r ∈ R, r.dst ≠ n) ∧
      g'.nodes = g.nodes.erase n ∧ g'.inputs = g.inputs ∧
      g'.outputs = g.outputs.map (fun o => if o.1 = n then (e.src, o.2) else o) ∧
      g'.edges.Perm (R.map (moveSrc n e.src)) := by
  obtain ⟨R, hp, hR, heg, hed⟩ := split_single_in hin
  have hne : n ≠ e.src := by
    have := not_self_loop wf heg; rw [hed] at this; exact this.symm
  have hprev : prevNodes g n = [e.src] := by simp [prevNodes, hin]
  set outs := g.outputs.map (fun o => if o.1 = n then (e.src, o.2) else o) with houts
  set g0 : Gr N := { g with outputs := outs } with hg0
  obtain ⟨E1, h1, h1p⟩ := reconnectOut_perm (g := g0) hne (wf.src e heg) wf.dst
  have h1p' : E1.Perm (e :: R.map (moveSrc n e.src)) := by
    refine h1p.trans ((hp.map _).trans ?_)
    rw [List.map_cons]
    have : moveSrc n e.src e = e := by simp [moveSrc, hne.symm]
    rw [this]
  obtain ⟨E2, h2, h2p⟩ := removeEdge_perm (g := { g0 with edges := E1 }) (u := e.src) (w := n)
    h1p' rfl hed (by
      intro r hr hc
      obtain ⟨r', hr', rfl⟩ := List.mem_map.1 hr
      exact hR r' hr' (by simpa using hc.2))
  refine ⟨{ g0 with edges := E2, nodes := g.nodes.erase n }, R, ?_, hp, hR, rfl, rfl, rfl, h2p⟩
  have hfree := removeNode_free (g := { g0 with edges := E2 }) (n := n) (i := none)
    (o := some outs) (by
      simp only [hg0, houts, List.map_map, List.mem_map, not_exists, not_and]
      intro o ho
      by_cases h : o.1 = n
      · simp only [Function.comp, h, if_true]; exact hne.symm
      · simp only [Function.comp, h, if_false, not_false_eq_true])
    (by intro h; exact wf.insFree e heg (by rw [hed]; exact h))
    (by have := wf.dst e heg; rw [hed] at this; exact this)
    (by
      intro x hx
      obtain ⟨r, hr, rfl⟩ := List.mem_map.1 (h2p.mem_iff.1 hx)
      rw [moveSrc_src]; split
      · exact hne.symm
      · assumption)
    (by
      intro x hx
      obtain ⟨r, hr, rfl⟩ := List.mem_map.1 (h2p.mem_iff.1 hx)
      rw [moveSrc_dst]; exact hR r hr)
  rw [removeIdentity, hprev]
  simp only [← houts, ← hg0, h1, h2, hfree, Option.bind_eq_bind, Option.bind_some]
  rfl

theorem removeIdentity_wf {g g' : Gr N} (wf : WellFormed g) {n : N} {e : Edge N} {R : List (Edge N)}
    (hp : g.edges.Perm (e :: R)) (hR : ∀ r ∈ R, r.dst ≠ n) (hed : e.dst = n)
    (hn' : g'.nodes = g.nodes.erase n) (hi' : g'.inputs = g.inputs)
    (ho' : g'.outputs = g.outputs.map (fun o => if o.1 = n then (e.src, o.2) else o))
    (he' : g'.edges.Perm (R.map (moveSrc n e.src))) : WellFormed g' := by
  have heg : e ∈ g.edges := hp.mem_iff.2 List.mem_cons_self
  have hRg : ∀ r ∈ R, r ∈ g.edges := fun r hr => hp.mem_iff.2 (List.mem_cons_of_mem _ hr)
  have hne : e.src ≠ n := by have := not_self_loop wf heg; rwa [hed] at this
  have mem_erase : ∀ m, m ∈ g.nodes.erase n ↔ m ≠ n ∧ m ∈ g.nodes :=
    fun m => wf.nodes.mem_erase_iff
  refine ⟨?_, ?_, ?_, ?_, ?_, ?_, ?_, ?_, ?_⟩
  · rw [hn']; exact wf.nodes.erase _
  · intro x hx
    obtain ⟨r, hr, rfl⟩ := List.mem_map.1 (he'.mem_iff.1 hx)
    rw [hn', mem_erase, moveSrc_src]
    split
    · exact ⟨hne, wf.src e heg⟩
    · exact ⟨by assumption, wf.src r (hRg r hr)⟩
  · intro x hx
    obtain ⟨r, hr, rfl⟩ := List.mem_map.1 (he'.mem_iff.1 hx)
    rw [hn', mem_erase, moveSrc_dst]
    exact ⟨hR r hr, wf.dst r (hRg r hr)⟩
  · intro o ho
    rw [ho'] at ho
    obtain ⟨o', ho'', rfl⟩ := List.mem_map.1 ho
    rw [hn', mem_erase]
    by_cases h : o'.1 = n
    · simp only [h, if_true]; exact ⟨hne, wf.src e heg⟩
    · simp only [h, if_false]; exact ⟨h, wf.outs o' ho''⟩
  · intro m hm
    rw [hi'] at hm
    rw [hn', mem_erase]
    refine ⟨?_, wf.ins m hm⟩
    intro h
    exact wf.insFree e heg (by rw [hed, ← h]; exact hm)
  · rw [hi']; exact wf.insNodup
  · intro x hx
    obtain ⟨r, hr, rfl⟩ := List.mem_map.1 (he'.mem_iff.1 hx)
    rw [hi', moveSrc_dst]
    exact wf.insFree r (hRg r hr)
  · intro m
    exact slots_map (m := m) he' (fun _ _ => moveSrc_di _ _ _) (fun _ _ => by rw [moveSrc_dst])
      (slots_sub hp (wf.slots m))
  · obtain ⟨rank, hr⟩ := wf.acyclic
    refine ⟨rank, ?_⟩
    intro x hx
    obtain ⟨r, hr', rfl⟩ := List.mem_map.1 (he'.mem_iff.1 hx)
    have h1 := hr r (hRg r hr')
    rw [moveSrc_dst, moveSrc_src]
    split
    · rename_i h
      have h2 := hr e heg
      rw [hed] at h2
      rw [h] at h1
      exact lt_trans h2 h1
    · exact h1

theorem removeIdentity_same {g g' : Gr N} (wf : WellFormed g) {n : N} {e : Edge N}
    {R : List (Edge N)} (hin : inEdges g n = [e])
    (hp : g.edges.Perm (e :: R)) (hR : ∀ r ∈ R, r.dst ≠ n) (hed : e.dst = n)
    (hn' : g'.nodes = g.nodes.erase n) (hi' : g'.inputs = g.inputs)
    (ho' : g'.outputs = g.outputs.map (fun o => if o.1 = n then (e.src, o.2) else o))
    (he' : g'.edges.Perm (R.map (moveSrc n e.src)))
    {I : Interp N V} (hI : ∀ x, I n [x] 0 = x) (hsi : e.si = 0)
    (hout : ∀ r ∈ g.edges, r.src = n → r.si = 0) (houts : ∀ o ∈ g.outputs, o.1 = n → o.2 = 0) :
    SameFunction g I g' I := by
  have heg : e ∈ g.edges := hp.mem_iff.2 List.mem_cons_self
  have hRg : ∀ r ∈ R, r ∈ g.edges := fun r hr => hp.mem_iff.2 (List.mem_cons_of_mem _ hr)
  have hne : e.src ≠ n := by have := not_self_loop wf heg; rwa [hed] at this
  have hnn : n ∈ g.nodes := by have := wf.dst e heg; rwa [hed] at this
  have hni : n ∉ g.inputs := by
    intro h; exact wf.insFree e heg (by rw [hed]; exact h)
  have mem_erase : ∀ m, m ∈ g.nodes.erase n ↔ m ≠ n ∧ m ∈ g.nodes :=
    fun m => wf.nodes.mem_erase_iff
  -- the tensors entering the other nodes
  have args : ∀ (v v' : N → Nat → V), (∀ m, m ≠ n → v m = v' m) → v n 0 = v' e.src 0 →
      ∀ m, m ≠ n → arguments g.edges v m = arguments g'.edges v' m := by
    intro v v' hvv hvn m hm
    refine arguments_congr ?_ (wf.slots m)
    have e1 : (incoming g.edges v m).Perm (incoming (e :: R) v m) := incoming_perm hp v m
    have e2 : incoming (e :: R) v m = incoming R v m := by
      simp [incoming, List.filter_cons, hed, Ne.symm hm]
    have e3 : incoming (R.map (moveSrc n e.src)) v' m = incoming R v m := by
      refine incoming_map (fun _ _ => moveSrc_di _ _ _) (fun _ _ => by rw [moveSrc_dst]) ?_
      intro r hr _
      rw [moveSrc_si, moveSrc_src]
      split
      · rename_i h
        rw [hout r (hRg r hr) h, h, hvn]
      · rename_i h
        rw [hvv r.src h]
    rw [e2, ← e3] at e1
    exact e1.trans (incoming_perm he' v' m).symm
  have outs : ∀ (v v' : N → Nat → V), (∀ m, m ≠ n → v m = v' m) → v n 0 = v' e.src 0 →
      g.outputs.map (fun o => v o.1 o.2) = g'.outputs.map (fun o => v' o.1 o.2) := by
    intro v v' hvv hvn
    rw [ho', List.map_map]
    apply List.map_congr_left
    intro o ho
    by_cases h : o.1 = n
    · simp only [Function.comp, h, if_true]; rw [houts o ho h, hvn]
    · simp only [Function.comp, h, if_false]; rw [hvv _ h]
  intro env res
  constructor
  · rintro ⟨v, hv, rfl⟩
    have hvn : v n 0 = v e.src 0 := by
      rw [hv n hnn 0, if_neg hni, arguments_single hin, hI, hsi]
    refine ⟨v, ?_, outs v v (fun _ _ => rfl) hvn⟩
    intro m hm k
    rw [hn', mem_erase] at hm
    rw [hv m hm.2 k, hi', args v v (fun _ _ => rfl) hvn m hm.1]
  · rintro ⟨v', hv', rfl⟩
    let v : N → Nat → V := fun m k => if m = n then I n [v' e.src 0] k else v' m k
    have hvv : ∀ m, m ≠ n → v m = v' m := by
      intro m hm; funext k; simp [v, hm]
    have hvn : v n 0 = v' e.src 0 := by simp [v, hI]
    refine ⟨v, ?_, (outs v v' hvv hvn).symm⟩
    intro m hm k
    by_cases h : m = n
    · subst h
      rw [if_neg hni, arguments_single hin, hsi, hvv _ hne]
      simp [v]
    · have hm' : m ∈ g'.nodes := by rw [hn', mem_erase]; exact ⟨h, hm⟩
      rw [hvv m h, hv' m hm' k, hi', args v v' hvv hvn m h]

end MCT.Graph
