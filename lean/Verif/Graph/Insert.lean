/-
Adding a node after a node, splitting a node in two, inserting a node on an edge, removing a node
from an edge: the resulting graphs and their semantics.
-/
import Verif.Graph.Replace

namespace MCT.Graph
open MCT.GraphSpec

set_option linter.unusedSectionVars false
set_option linter.unusedVariables false
set_option linter.unusedSimpArgs false

variable {N V : Type*} [DecidableEq N]

/-! ### A new node after a node -/

/-- What `appendAfter` leaves. -/
structure Appended (g g' : Gr N) (cur new : N) : Prop where
  nodes : g'.nodes = g.nodes ++ [new]
  inputs : g'.inputs = g.inputs
  outputs : g'.outputs = g.outputs.map (fun o => if o.1 = cur then (new, o.2) else o)
  edges : g'.edges.Perm (⟨cur, new, 0, 0⟩ :: g.edges.map (moveSrc cur new))

theorem appendAfter_result {g : Gr N} (wf : WellFormed g) {cur new : N} (hcur : cur ∈ g.nodes)
    (hnew : new ∉ g.nodes) : ∃ g', appendAfter g cur new = some g' ∧ Appended g g' cur new := by
  have hne : cur ≠ new := fun h => hnew (h ▸ hcur)
  obtain ⟨E1, h1, p1⟩ := reconnectOut_perm (g := { g with nodes := g.nodes ++ [new] })
    (cur := cur) (new := new) hne (by simp) (fun r hr => List.mem_append_left _ (wf.dst r hr))
  have hadd : addEdge { g with nodes := g.nodes ++ [new], edges := E1 } ⟨cur, new, 0, 0⟩ =
      { g with nodes := g.nodes ++ [new], edges := E1 ++ [⟨cur, new, 0, 0⟩] } :=
    addEdge_of_mem (List.mem_append_left _ hcur) (by simp)
  refine ⟨replaceOutput { g with nodes := g.nodes ++ [new], edges := E1 ++ [⟨cur, new, 0, 0⟩] }
    cur new, ?_, rfl, rfl, rfl, ?_⟩
  · rw [appendAfter, addNode_fresh hnew]
    simp only [h1, hadd, Option.bind_eq_bind, Option.bind_some]
    rfl
  · exact (List.perm_append_singleton _ _).trans (List.Perm.cons _ p1)

theorem Appended.wf {g g' : Gr N} (wf : WellFormed g) {cur new : N} (M : Appended g g' cur new)
    (hcur : cur ∈ g.nodes) (hnew : new ∉ g.nodes) : WellFormed g' := by
  have hne : cur ≠ new := fun h => hnew (h ▸ hcur)
  have hold : ∀ m ∈ g.nodes, m ∈ g'.nodes := fun m hm => by
    rw [M.nodes]; exact List.mem_append_left _ hm
  have hn : new ∈ g'.nodes := by rw [M.nodes]; simp
  have hdn : ∀ r ∈ g.edges, r.dst ≠ new := fun r hr h => hnew (h ▸ wf.dst r hr)
  have cases : ∀ x ∈ g'.edges, x = ⟨cur, new, 0, 0⟩ ∨ ∃ r ∈ g.edges, x = moveSrc cur new r := by
    intro x hx
    rcases List.mem_cons.1 (M.edges.mem_iff.1 hx) with h | h
    · exact Or.inl h
    · obtain ⟨r, hr, rfl⟩ := List.mem_map.1 h
      exact Or.inr ⟨r, hr, rfl⟩
  refine ⟨?_, ?_, ?_, ?_, ?_, ?_, ?_, ?_, ?_⟩
  · rw [M.nodes]; exact nodup_add wf hnew
  · intro x hx
    rcases cases x hx with rfl | ⟨r, hr, rfl⟩
    · exact hold _ hcur
    · rw [moveSrc_src]; split
      · exact hn
      · exact hold _ (wf.src r hr)
  · intro x hx
    rcases cases x hx with rfl | ⟨r, hr, rfl⟩
    · exact hn
    · rw [moveSrc_dst]; exact hold _ (wf.dst r hr)
  · intro o ho
    rw [M.outputs] at ho
    obtain ⟨o', ho', rfl⟩ := List.mem_map.1 ho
    split
    · exact hn
    · exact hold _ (wf.outs o' ho')
  · intro m hm
    rw [M.inputs] at hm
    exact hold _ (wf.ins m hm)
  · rw [M.inputs]; exact wf.insNodup
  · intro x hx
    rw [M.inputs]
    rcases cases x hx with rfl | ⟨r, hr, rfl⟩
    · exact fun h => hnew (wf.ins _ h)
    · rw [moveSrc_dst]; exact wf.insFree r hr
  · intro m
    refine slots_cons M.edges ?_ ?_
    · exact slots_map (m := m) (List.Perm.refl _) (fun _ _ => moveSrc_di _ _ _)
        (fun _ _ => by rw [moveSrc_dst]) (wf.slots m)
    · intro hm r hr hrd
      obtain ⟨r', hr', rfl⟩ := List.mem_map.1 hr
      rw [moveSrc_dst] at hrd
      have hm' : new = m := hm
      exact absurd (hrd.trans hm'.symm) (hdn r' hr')
  · obtain ⟨rank, hrank⟩ := wf.acyclic
    refine ⟨fun m => if m = new then 2 * rank cur + 1 else 2 * rank m, ?_⟩
    intro x hx
    rcases cases x hx with rfl | ⟨r, hr, rfl⟩
    · simp only [hne, if_true, if_false]; omega
    · have h1 := hrank r hr
      rw [moveSrc_src, moveSrc_dst]
      have hsn : r.src ≠ new := fun h => hnew (h ▸ wf.src r hr)
      by_cases h : r.src = cur
      · simp only [h, if_true, hdn r hr, if_false]; rw [h] at h1; omega
      · simp only [h, if_false, hsn, hdn r hr]; omega

theorem Appended.same {g g' : Gr N} (wf : WellFormed g) {cur new : N} (M : Appended g g' cur new)
    (hcur : cur ∈ g.nodes) (hnew : new ∉ g.nodes) (hci : cur ∉ g.inputs)
    (huse : ∀ r ∈ g.edges, r.src = cur → r.si = 0) (hout : ∀ o ∈ g.outputs, o.1 = cur → o.2 = 0)
    {I I' : Interp N V} (hsame : ∀ m ∈ g.nodes, m ≠ cur → I' m = I m)
    (hI : ∀ args, I' new [I' cur args 0] 0 = I cur args 0) :
    SameFunction g I g' I' := by
  have hne : cur ≠ new := fun h => hnew (h ▸ hcur)
  refine same_of_forward wf (M.wf wf hcur hnew) ?_
  intro env v hv
  have hdn : ∀ r ∈ g.edges, r.dst ≠ new := fun r hr h => hnew (h ▸ wf.dst r hr)
  have hsn : ∀ r ∈ g.edges, r.src ≠ new := fun r hr h => hnew (h ▸ wf.src r hr)
  set A := arguments g.edges v cur with hA
  let v' : N → Nat → V := fun m =>
    if m = new then I' new [I' cur A 0] else if m = cur then I' cur A else v m
  have hvn : v' new = I' new [I' cur A 0] := by simp [v']
  have hvc : v' cur = I' cur A := by simp [v', hne]
  have hvm : ∀ m, m ≠ new → m ≠ cur → v' m = v m := by intro m h1 h2; simp [v', h1, h2]
  have hnew0 : v' new 0 = v cur 0 := by
    rw [hvn, hI, hv cur hcur 0, if_neg hci]
  have hval : ∀ r ∈ g.edges, v' (moveSrc cur new r).src (moveSrc cur new r).si = v r.src r.si := by
    intro r hr
    rw [moveSrc_si, moveSrc_src]
    split
    · rename_i h; rw [huse r hr h, hnew0, h]
    · rename_i h; rw [hvm _ (hsn r hr) h]
  have hargs : ∀ m, m ≠ new → arguments g.edges v m = arguments g'.edges v' m := by
    intro m hm
    refine arguments_congr ?_ (wf.slots m)
    rw [← incoming_map (ρ := moveSrc cur new) (v' := v') (n := m) (fun _ _ => moveSrc_di _ _ _)
      (fun _ _ => by rw [moveSrc_dst]) (fun r hr _ => hval r hr)]
    rw [← incoming_cons_ne (e := ⟨cur, new, 0, 0⟩) (E := g.edges.map _) hm.symm]
    exact (incoming_perm M.edges v' m).symm
  refine ⟨v', ?_, ?_⟩
  · intro m hm k
    rw [M.inputs]
    by_cases hmn : m = new
    · subst hmn
      rw [if_neg (fun h => hnew (wf.ins _ h)), hvn]
      have : arguments g'.edges v' m = [v' cur 0] := by
        have hf : incoming (⟨cur, m, 0, 0⟩ :: g.edges.map (moveSrc cur m)) v' m =
            [(0, v' cur 0)] := by
          have : (g.edges.map (moveSrc cur m)).filter (fun e => decide (e.dst = m)) = [] := by
            rw [List.filter_eq_nil_iff]
            intro x hx
            obtain ⟨r, hr, rfl⟩ := List.mem_map.1 hx
            simpa using hdn r hr
          simp [incoming, List.filter_cons, this]
        have hp := incoming_perm M.edges v' m
        rw [hf] at hp
        have := List.perm_singleton.1 hp
        simp [arguments, this]
      rw [this, hvc]
    · have hmg : m ∈ g.nodes := by
        rw [M.nodes] at hm
        rcases List.mem_append.1 hm with h | h
        · exact h
        · exact absurd (List.mem_singleton.1 h) hmn
      by_cases hmc : m = cur
      · subst hmc
        rw [if_neg hci, hvc, ← hargs m hmn]
      · rw [hvm m hmn hmc, hv m hmg k, hargs m hmn, hsame m hmg hmc]
  · rw [M.outputs, List.map_map]
    apply List.map_congr_left
    intro o ho
    by_cases h : o.1 = cur
    · simp only [Function.comp, h, if_true]; rw [hout o ho h, hnew0]
    · simp only [Function.comp, h, if_false]
      rw [hvm _ (fun h' => hnew (h' ▸ wf.outs o ho)) h]

/-! ### Replacing a node by two nodes in sequence -/

/-- What `splitNode` leaves. -/
structure Splitted (g g' : Gr N) (cur f s : N) : Prop where
  nodes : g'.nodes = (g.nodes ++ [f] ++ [s]).erase cur
  inputs : g'.inputs = g.inputs
  outputs : g'.outputs = g.outputs.map (fun o => if o.1 = cur then (s, o.2) else o)
  edges : g'.edges.Perm (⟨f, s, 0, 0⟩ :: g.edges.map (fun r => moveSrc cur s (moveDst cur f r)))

theorem splitNode_result {g : Gr N} (wf : WellFormed g) {cur f s : N} (hcur : cur ∈ g.nodes)
    (hf : f ∉ g.nodes) (hs : s ∉ g.nodes) (hfs : f ≠ s) (hci : cur ∉ g.inputs) :
    ∃ g', splitNode g cur f s = some g' ∧ Splitted g g' cur f s := by
  have hcf : cur ≠ f := fun h => hf (h ▸ hcur)
  have hcs : cur ≠ s := fun h => hs (h ▸ hcur)
  set g0 : Gr N := { g with nodes := g.nodes ++ [f] ++ [s] } with hg0
  have hadd0 : addNode (addNode g f) s = g0 := by
    rw [addNode_fresh hf, addNode_fresh]
    simp [hs, hfs.symm]
  have hold : ∀ m ∈ g.nodes, m ∈ g0.nodes := fun m hm => by simp [hg0, hm]
  have hf0 : f ∈ g0.nodes := by simp [hg0]
  have hs0 : s ∈ g0.nodes := by simp [hg0]
  have hadd : addEdge g0 ⟨f, s, 0, 0⟩ = { g0 with edges := g.edges ++ [⟨f, s, 0, 0⟩] } :=
    addEdge_of_mem hf0 hs0
  set g1 : Gr N := { g0 with edges := g.edges ++ [⟨f, s, 0, 0⟩] } with hg1
  obtain ⟨E2, h2, p2⟩ := reconnectIn_perm (g := g1) (cur := cur) (new := f) hcf hf0 (by
    intro r hr
    rcases List.mem_append.1 hr with h | h
    · exact hold _ (wf.src r h)
    · rw [List.mem_singleton.1 h]; exact hf0)
  have p2' : E2.Perm (⟨f, s, 0, 0⟩ :: g.edges.map (moveDst cur f)) := by
    refine p2.trans ?_
    show ((g.edges ++ [(⟨f, s, 0, 0⟩ : Edge N)]).map (moveDst cur f)).Perm _
    rw [List.map_append, List.map_singleton]
    have : moveDst cur f ⟨f, s, 0, 0⟩ = ⟨f, s, 0, 0⟩ := by simp [moveDst, hcs.symm]
    rw [this]
    exact List.perm_append_singleton _ _
  set g2 : Gr N := { g1 with edges := E2 } with hg2
  obtain ⟨E3, h3, p3⟩ := reconnectOut_perm (g := g2) (cur := cur) (new := s) hcs hs0 (by
    intro r hr
    rcases List.mem_cons.1 (p2'.mem_iff.1 hr) with h | h
    · rw [h]; exact hs0
    · obtain ⟨r', hr', rfl⟩ := List.mem_map.1 h
      rw [moveDst_dst]; split
      · exact hf0
      · exact hold _ (wf.dst r' hr'))
  have p3' : E3.Perm (⟨f, s, 0, 0⟩ :: g.edges.map (fun r => moveSrc cur s (moveDst cur f r))) := by
    refine p3.trans ((p2'.map _).trans ?_)
    have : moveSrc cur s ⟨f, s, 0, 0⟩ = ⟨f, s, 0, 0⟩ := by simp [moveSrc, hcf.symm]
    rw [List.map_cons, this, List.map_map]
    exact List.Perm.refl _
  set g3 : Gr N := replaceOutput { g2 with edges := E3 } cur s with hg3
  have hE : ∀ x ∈ E3, x.src ≠ cur ∧ x.dst ≠ cur := by
    intro x hx
    rcases List.mem_cons.1 (p3'.mem_iff.1 hx) with h | h
    · rw [h]; exact ⟨hcf.symm, hcs.symm⟩
    · obtain ⟨r, hr, rfl⟩ := List.mem_map.1 h
      rw [moveSrc_src, moveSrc_dst, moveDst_src, moveDst_dst]
      constructor
      · split
        · exact hcs.symm
        · assumption
      · split
        · exact hcf.symm
        · assumption
  have h4 := removeNode_free (g := g3) (n := cur) (i := none) (o := none)
    (by
      simp only [hg3, replaceOutput, List.map_map, List.mem_map, not_exists, not_and]
      intro o ho
      by_cases h : o.1 = cur
      · simp only [Function.comp, h, if_true]; exact hcs.symm
      · simp only [Function.comp, h, if_false, not_false_eq_true])
    hci (hold _ hcur) (fun x hx => (hE x hx).1) (fun x hx => (hE x hx).2)
  refine ⟨{ g3 with nodes := g3.nodes.erase cur }, ?_, rfl, rfl, rfl, p3'⟩
  simp only [splitNode]
  rw [hadd0]
  simp only [hadd, h2, h3, h4, ← hg2, ← hg3, Option.bind_eq_bind, Option.bind_some]

theorem Splitted.mem {g g' : Gr N} (wf : WellFormed g) {cur f s : N} (M : Splitted g g' cur f s)
    (hf : f ∉ g.nodes) (hs : s ∉ g.nodes) (hfs : f ≠ s) (m : N) :
    m ∈ g'.nodes ↔ (m = f ∨ m = s ∨ m ∈ g.nodes) ∧ m ≠ cur := by
  have hnd : (g.nodes ++ [f] ++ [s]).Nodup := by
    rw [List.nodup_append]
    refine ⟨nodup_add wf hf, by simp, ?_⟩
    intro x hx y hy hxy
    rw [List.mem_singleton] at hy
    subst hy; subst hxy
    rcases List.mem_append.1 hx with h | h
    · exact hs h
    · exact hfs (List.mem_singleton.1 h).symm
  rw [M.nodes, hnd.mem_erase_iff, List.mem_append, List.mem_append, List.mem_singleton,
    List.mem_singleton]
  tauto

theorem Splitted.wf {g g' : Gr N} (wf : WellFormed g) {cur f s : N} (M : Splitted g g' cur f s)
    (hcur : cur ∈ g.nodes) (hf : f ∉ g.nodes) (hs : s ∉ g.nodes) (hfs : f ≠ s)
    (hci : cur ∉ g.inputs) : WellFormed g' := by
  have hcf : cur ≠ f := fun h => hf (h ▸ hcur)
  have hcs : cur ≠ s := fun h => hs (h ▸ hcur)
  have hmem := M.mem wf hf hs hfs
  have hfn : f ∈ g'.nodes := (hmem f).2 ⟨Or.inl rfl, hcf.symm⟩
  have hsn : s ∈ g'.nodes := (hmem s).2 ⟨Or.inr (Or.inl rfl), hcs.symm⟩
  have hold : ∀ m ∈ g.nodes, m ≠ cur → m ∈ g'.nodes := fun m hm h =>
    (hmem m).2 ⟨Or.inr (Or.inr hm), h⟩
  have cases : ∀ x ∈ g'.edges, x = ⟨f, s, 0, 0⟩ ∨
      ∃ r ∈ g.edges, x = moveSrc cur s (moveDst cur f r) := by
    intro x hx
    rcases List.mem_cons.1 (M.edges.mem_iff.1 hx) with h | h
    · exact Or.inl h
    · obtain ⟨r, hr, rfl⟩ := List.mem_map.1 h
      exact Or.inr ⟨r, hr, rfl⟩
  have hdf : ∀ r ∈ g.edges, r.dst ≠ f := fun r hr h => hf (h ▸ wf.dst r hr)
  have hds : ∀ r ∈ g.edges, r.dst ≠ s := fun r hr h => hs (h ▸ wf.dst r hr)
  have hsf : ∀ r ∈ g.edges, r.src ≠ f := fun r hr h => hf (h ▸ wf.src r hr)
  have hss : ∀ r ∈ g.edges, r.src ≠ s := fun r hr h => hs (h ▸ wf.src r hr)
  refine ⟨?_, ?_, ?_, ?_, ?_, ?_, ?_, ?_, ?_⟩
  · rw [M.nodes]
    refine List.Nodup.erase _ ?_
    rw [List.nodup_append]
    refine ⟨nodup_add wf hf, by simp, ?_⟩
    intro x hx y hy hxy
    rw [List.mem_singleton] at hy
    subst hy; subst hxy
    rcases List.mem_append.1 hx with h | h
    · exact hs h
    · exact hfs (List.mem_singleton.1 h).symm
  · intro x hx
    rcases cases x hx with rfl | ⟨r, hr, rfl⟩
    · exact hfn
    · rw [moveSrc_src, moveDst_src]; split
      · exact hsn
      · exact hold _ (wf.src r hr) (by assumption)
  · intro x hx
    rcases cases x hx with rfl | ⟨r, hr, rfl⟩
    · exact hsn
    · rw [moveSrc_dst, moveDst_dst]; split
      · exact hfn
      · exact hold _ (wf.dst r hr) (by assumption)
  · intro o ho
    rw [M.outputs] at ho
    obtain ⟨o', ho', rfl⟩ := List.mem_map.1 ho
    split
    · exact hsn
    · exact hold _ (wf.outs o' ho') (by assumption)
  · intro m hm
    rw [M.inputs] at hm
    exact hold _ (wf.ins m hm) (fun h => hci (h ▸ hm))
  · rw [M.inputs]; exact wf.insNodup
  · intro x hx
    rw [M.inputs]
    rcases cases x hx with rfl | ⟨r, hr, rfl⟩
    · exact fun h => hs (wf.ins _ h)
    · rw [moveSrc_dst, moveDst_dst]; split
      · exact fun h => hf (wf.ins _ h)
      · exact wf.insFree r hr
  · intro m
    refine slots_cons M.edges ?_ ?_
    · by_cases hmf : m = f
      · refine slots_map (m := cur) (List.Perm.refl _) (fun _ _ => by rw [moveSrc_di, moveDst_di]) ?_
          (wf.slots cur)
        intro r hr
        rw [moveSrc_dst, moveDst_dst, hmf]
        split
        · simp [*]
        · rename_i h; simp [h, hdf r hr]
      · by_cases hmc : m = cur
        · refine slots_none ?_
          intro x hx
          obtain ⟨r, hr, rfl⟩ := List.mem_map.1 hx
          rw [moveSrc_dst, moveDst_dst, hmc]
          split
          · exact hcf.symm
          · assumption
        · refine slots_map (m := m) (List.Perm.refl _) (fun _ _ => by rw [moveSrc_di, moveDst_di])
            ?_ (wf.slots m)
          intro r hr
          rw [moveSrc_dst, moveDst_dst]
          split
          · rename_i h; rw [h]
            exact ⟨fun h' => absurd h'.symm hmf, fun h' => absurd h'.symm hmc⟩
          · exact Iff.rfl
    · intro hm r hr hrd
      obtain ⟨r', hr', rfl⟩ := List.mem_map.1 hr
      have hm' : s = m := hm
      rw [moveSrc_dst, moveDst_dst, ← hm'] at hrd
      split at hrd
      · exact absurd hrd hfs
      · exact absurd hrd (hds r' hr')
  · obtain ⟨rank, hrank⟩ := wf.acyclic
    refine ⟨fun m => if m = f then 2 * rank cur else if m = s then 2 * rank cur + 1
      else 2 * rank m, ?_⟩
    intro x hx
    rcases cases x hx with rfl | ⟨r, hr, rfl⟩
    · simp only [hfs.symm, if_true, if_false]; omega
    · have h1 := hrank r hr
      rw [moveSrc_src, moveSrc_dst, moveDst_src, moveDst_dst]
      by_cases h : r.src = cur <;> by_cases h' : r.dst = cur
      · rw [h, h'] at h1; omega
      · simp only [h, h', if_true, if_false, hfs.symm, hdf r hr, hds r hr]; rw [h] at h1; omega
      · simp only [h, h', if_true, if_false, hsf r hr, hss r hr]; rw [h'] at h1; omega
      · simp only [h, h', if_false, hsf r hr, hss r hr, hdf r hr, hds r hr]; omega

theorem Splitted.same {g g' : Gr N} (wf : WellFormed g) {cur f s : N} (M : Splitted g g' cur f s)
    (hcur : cur ∈ g.nodes) (hf : f ∉ g.nodes) (hs : s ∉ g.nodes) (hfs : f ≠ s)
    (hci : cur ∉ g.inputs) {I : Interp N V} (hI : ∀ args k, I s [I f args 0] k = I cur args k) :
    SameFunction g I g' I := by
  have hcf : cur ≠ f := fun h => hf (h ▸ hcur)
  have hcs : cur ≠ s := fun h => hs (h ▸ hcur)
  have hmem := M.mem wf hf hs hfs
  have hdf : ∀ r ∈ g.edges, r.dst ≠ f := fun r hr h => hf (h ▸ wf.dst r hr)
  have hds : ∀ r ∈ g.edges, r.dst ≠ s := fun r hr h => hs (h ▸ wf.dst r hr)
  have hsf : ∀ r ∈ g.edges, r.src ≠ f := fun r hr h => hf (h ▸ wf.src r hr)
  have hss : ∀ r ∈ g.edges, r.src ≠ s := fun r hr h => hs (h ▸ wf.src r hr)
  refine same_of_forward wf (M.wf wf hcur hf hs hfs hci) ?_
  intro env v hv
  set A := arguments g.edges v cur with hA
  let v' : N → Nat → V := fun m => if m = f then I f A else if m = s then v cur else v m
  have hvf : v' f = I f A := by simp [v']
  have hvs : v' s = v cur := by simp [v', hfs.symm]
  have hvm : ∀ m, m ≠ f → m ≠ s → v' m = v m := by intro m h1 h2; simp [v', h1, h2]
  have hval : ∀ r ∈ g.edges, v' (moveSrc cur s (moveDst cur f r)).src
      (moveSrc cur s (moveDst cur f r)).si = v r.src r.si := by
    intro r hr
    rw [moveSrc_si, moveSrc_src, moveDst_src, moveDst_si]
    split
    · rename_i h; rw [hvs, h]
    · rename_i h; rw [hvm _ (hsf r hr) (hss r hr)]
  refine ⟨v', ?_, ?_⟩
  · intro m hm k
    rw [M.inputs]
    obtain ⟨hm1, hmc⟩ := (hmem m).1 hm
    by_cases hms : m = s
    · subst hms
      rw [if_neg (fun h => hs (wf.ins _ h)), hvs, hv cur hcur k, if_neg hci, ← hA, ← hI]
      have : arguments g'.edges v' m = [v' f 0] := by
        have hff : incoming (⟨f, m, 0, 0⟩ :: g.edges.map (fun r => moveSrc cur m (moveDst cur f r)))
            v' m = [(0, v' f 0)] := by
          have : (g.edges.map (fun r => moveSrc cur m (moveDst cur f r))).filter
              (fun e => decide (e.dst = m)) = [] := by
            rw [List.filter_eq_nil_iff]
            intro x hx
            obtain ⟨r, hr, rfl⟩ := List.mem_map.1 hx
            rw [moveSrc_dst, moveDst_dst]
            split
            · simpa using hfs
            · simpa using hds r hr
          simp [incoming, List.filter_cons, this]
        have hp := incoming_perm M.edges v' m
        rw [hff] at hp
        have := List.perm_singleton.1 hp
        simp [arguments, this]
      rw [this, hvf]
    · have step : ∀ m0, (∀ r ∈ g.edges, (moveSrc cur s (moveDst cur f r)).dst = m ↔ r.dst = m0) →
          arguments g.edges v m0 = arguments g'.edges v' m := by
        intro m0 hiff
        refine arguments_congr ?_ (wf.slots m0)
        rw [← incoming_map (ρ := fun r => moveSrc cur s (moveDst cur f r)) (v' := v') (n := m)
          (fun _ _ => by rw [moveSrc_di, moveDst_di]) hiff (fun r hr _ => hval r hr)]
        rw [← incoming_cons_ne (e := ⟨f, s, 0, 0⟩) (E := g.edges.map _) (fun h => hms h.symm)]
        exact (incoming_perm M.edges v' m).symm
      by_cases hmf : m = f
      · subst hmf
        rw [if_neg (fun h => hf (wf.ins _ h)), hvf, ← step cur]
        intro r hr
        rw [moveSrc_dst, moveDst_dst]
        split
        · simp [*]
        · rename_i h; simp [h, hdf r hr]
      · have hmg : m ∈ g.nodes := by tauto
        rw [hvm m hmf hms, hv m hmg k, step m]
        intro r hr
        rw [moveSrc_dst, moveDst_dst]
        split
        · rename_i h; rw [h]
          exact ⟨fun h' => absurd h'.symm hmf, fun h' => absurd h'.symm hmc⟩
        · exact Iff.rfl
  · rw [M.outputs, List.map_map]
    apply List.map_congr_left
    intro o ho
    by_cases h : o.1 = cur
    · simp only [Function.comp, h, if_true, hvs]
    · simp only [Function.comp, h, if_false]
      rw [hvm _ (fun h' => hf (h' ▸ wf.outs o ho)) (fun h' => hs (h' ▸ wf.outs o ho))]

end MCT.Graph
