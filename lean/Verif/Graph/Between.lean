/-
Inserting a node on an edge and removing a node from between two nodes.
-/
import Verif.Graph.Insert

namespace MCT.Graph
open MCT.GraphSpec

set_option linter.unusedSectionVars false
set_option linter.unusedVariables false
set_option linter.unusedSimpArgs false

variable {N V : Type*} [DecidableEq N]

/-- Sorting by the index commutes with a change of the values. -/
theorem sort_map {l : List (Nat × V)} (hn : (l.map Prod.fst).Nodup) (φ : Nat × V → Nat × V)
    (hφ : ∀ x, (φ x).1 = x.1) :
    (l.map φ).mergeSort (fun a b => decide (a.1 ≤ b.1)) =
      (l.mergeSort (fun a b => decide (a.1 ≤ b.1))).map φ := by
  have tr : ∀ a b c : Nat × V, decide (a.1 ≤ b.1) = true → decide (b.1 ≤ c.1) = true →
      decide (a.1 ≤ c.1) = true := by
    intro a b c; simp only [decide_eq_true_eq]; exact le_trans
  have tot : ∀ a b : Nat × V, (decide (a.1 ≤ b.1) || decide (b.1 ≤ a.1)) = true := by
    intro a b; simp only [Bool.or_eq_true, decide_eq_true_eq]; exact le_total _ _
  have hn' : ((l.map φ).map Prod.fst).Nodup := by
    rw [List.map_map]
    have : (Prod.fst ∘ φ) = Prod.fst := funext hφ
    rwa [this]
  have p1 := List.mergeSort_perm (l.map φ) (fun a b => decide (a.1 ≤ b.1))
  have p2 := (List.mergeSort_perm l (fun a b => decide (a.1 ≤ b.1))).map φ
  have s1 := List.pairwise_mergeSort tr tot (l.map φ)
  have s2 : ((l.mergeSort (fun a b => decide (a.1 ≤ b.1))).map φ).Pairwise
      (fun a b => decide (a.1 ≤ b.1) = true) := by
    rw [List.pairwise_map]
    refine (List.pairwise_mergeSort tr tot l).imp ?_
    intro a b h
    rw [hφ, hφ]; exact h
  refine List.Perm.eq_of_pairwise ?_ s1 s2 (p1.trans p2.symm)
  intro a b ha hb hab hba
  have hfst : a.1 = b.1 := by
    simp only [decide_eq_true_eq] at hab hba; exact le_antisymm hab hba
  exact List.inj_on_of_nodup_map hn' (p1.mem_iff.1 ha) (p2.mem_iff.1 hb) hfst

/-- What `insertBetween` leaves. -/
structure Inserted (g g' : Gr N) (new first last : N) (e : Edge N) (R : List (Edge N)) : Prop where
  split : g.edges.Perm (e :: R)
  esrc : e.src = first
  edst : e.dst = last
  nodes : g'.nodes = g.nodes ++ [new]
  inputs : g'.inputs = g.inputs
  outputs : g'.outputs = g.outputs
  edges : g'.edges.Perm (⟨first, new, e.si, e.di⟩ :: ⟨new, last, e.si, e.di⟩ :: R)

theorem insertBetween_result {g : Gr N} (wf : WellFormed g) {new first last : N} {e : Edge N}
    (hf : g.edges.filter (fun e => decide (e.src = first) && decide (e.dst = last)) = [e])
    (hnew : new ∉ g.nodes) :
    ∃ g' R, insertBetween g new first last = some g' ∧ Inserted g g' new first last e R := by
  have he : e ∈ g.edges ∧ e.src = first ∧ e.dst = last := by
    have : e ∈ g.edges.filter (fun e => decide (e.src = first) && decide (e.dst = last)) := by
      rw [hf]; exact List.mem_singleton.2 rfl
    have := List.mem_filter.1 this
    exact ⟨this.1, by simpa using this.2⟩
  obtain ⟨heg, hes, hed⟩ := he
  set R := g.edges.filter (fun e => !(decide (e.src = first) && decide (e.dst = last))) with hR
  have hp : g.edges.Perm (e :: R) := by
    have := List.filter_append_perm
      (fun e : Edge N => decide (e.src = first) && decide (e.dst = last)) g.edges
    rw [hf] at this
    exact this.symm
  have hRne : ∀ r ∈ R, ¬ (r.src = first ∧ r.dst = last) := by
    intro r hr hc
    have := (List.mem_filter.1 hr).2
    simp [hc.1, hc.2] at this
  have hfn : first ∈ g.nodes := hes ▸ wf.src e heg
  have hln : last ∈ g.nodes := hed ▸ wf.dst e heg
  have hnf : new ≠ first := fun h => hnew (h ▸ hfn)
  have hnl : new ≠ last := fun h => hnew (h ▸ hln)
  set g0 : Gr N := { g with nodes := g.nodes ++ [new] } with hg0
  have a1 : addEdge g0 ⟨first, new, e.si, e.di⟩ =
      { g0 with edges := g.edges ++ [⟨first, new, e.si, e.di⟩] } :=
    addEdge_of_mem (List.mem_append_left _ hfn) (by simp [hg0])
  set g1 : Gr N := { g0 with edges := g.edges ++ [⟨first, new, e.si, e.di⟩] } with hg1
  have a2 : addEdge g1 ⟨new, last, e.si, e.di⟩ =
      { g1 with edges := g1.edges ++ [⟨new, last, e.si, e.di⟩] } :=
    addEdge_of_mem (by simp [hg1, hg0]) (List.mem_append_left _ hln)
  set g2 : Gr N := { g1 with edges := g1.edges ++ [⟨new, last, e.si, e.di⟩] } with hg2
  obtain ⟨E, h3, p3⟩ := removeEdge_perm (g := g2) (u := first) (w := last) (e := e)
    (R := ⟨first, new, e.si, e.di⟩ :: ⟨new, last, e.si, e.di⟩ :: R)
    (by
      show (g.edges ++ [(⟨first, new, e.si, e.di⟩ : Edge N)] ++
        [(⟨new, last, e.si, e.di⟩ : Edge N)]).Perm _
      rw [List.append_assoc]
      refine (List.Perm.append_right _ hp).trans ?_
      rw [List.cons_append]
      refine List.Perm.cons _ ?_
      exact List.perm_append_comm)
    hes hed (by
      intro r hr hc
      rcases List.mem_cons.1 hr with h | hr
      · rw [h] at hc; exact hnl hc.2
      · rcases List.mem_cons.1 hr with h | hr
        · rw [h] at hc; exact hnf hc.1
        · exact hRne r hr hc)
  refine ⟨{ g2 with edges := E }, R, ?_, hp, hes, hed, rfl, rfl, rfl, p3⟩
  simp only [insertBetween]
  rw [addNode_fresh hnew, ← hg0]
  have hf0 : g0.edges.filter (fun e => decide (e.src = first) && decide (e.dst = last)) = [e] := hf
  rw [hf0]
  simp only [a1, a2, h3]

theorem Inserted.wf {g g' : Gr N} (wf : WellFormed g) {new first last : N} {e : Edge N}
    {R : List (Edge N)} (M : Inserted g g' new first last e R) (hnew : new ∉ g.nodes) :
    WellFormed g' := by
  obtain ⟨heg, hRg⟩ := perm_tail M.split
  have hfn : first ∈ g.nodes := M.esrc ▸ wf.src e heg
  have hln : last ∈ g.nodes := M.edst ▸ wf.dst e heg
  have hnf : new ≠ first := fun h => hnew (h ▸ hfn)
  have hnl : new ≠ last := fun h => hnew (h ▸ hln)
  have hold : ∀ m ∈ g.nodes, m ∈ g'.nodes := fun m hm => by
    rw [M.nodes]; exact List.mem_append_left _ hm
  have hn : new ∈ g'.nodes := by rw [M.nodes]; simp
  have cases : ∀ x ∈ g'.edges, x = ⟨first, new, e.si, e.di⟩ ∨ x = ⟨new, last, e.si, e.di⟩ ∨
      x ∈ R := by
    intro x hx
    rcases List.mem_cons.1 (M.edges.mem_iff.1 hx) with h | h
    · exact Or.inl h
    · rcases List.mem_cons.1 h with h | h
      · exact Or.inr (Or.inl h)
      · exact Or.inr (Or.inr h)
  refine ⟨?_, ?_, ?_, ?_, ?_, ?_, ?_, ?_, ?_⟩
  · rw [M.nodes]; exact nodup_add wf hnew
  · intro x hx
    rcases cases x hx with rfl | rfl | h
    · exact hold _ hfn
    · exact hn
    · exact hold _ (wf.src x (hRg x h))
  · intro x hx
    rcases cases x hx with rfl | rfl | h
    · exact hn
    · exact hold _ hln
    · exact hold _ (wf.dst x (hRg x h))
  · intro o ho; rw [M.outputs] at ho; exact hold _ (wf.outs o ho)
  · intro m hm; rw [M.inputs] at hm; exact hold _ (wf.ins m hm)
  · rw [M.inputs]; exact wf.insNodup
  · intro x hx
    rw [M.inputs]
    rcases cases x hx with rfl | rfl | h
    · exact fun h => hnew (wf.ins _ h)
    · have := wf.insFree e heg; rwa [M.edst] at this
    · exact wf.insFree x (hRg x h)
  · intro m
    have hRs := slots_sub M.split (wf.slots m)
    refine slots_cons M.edges ?_ ?_
    · refine slots_cons (List.Perm.refl _) hRs ?_
      intro hm r hr hrd hdi
      have hm' : last = m := hm
      have hs := wf.slots m
      rw [((M.split.filter (fun e => decide (e.dst = m))).map Edge.di).nodup_iff,
        List.filter_cons] at hs
      have : e.dst = m := M.edst.trans hm'
      simp only [this, decide_true, if_true, List.map_cons, List.nodup_cons] at hs
      exact hs.1 (List.mem_map.2 ⟨r, List.mem_filter.2 ⟨hr, by simp [hrd]⟩, hdi⟩)
    · intro hm r hr hrd
      have hm' : new = m := hm
      rcases List.mem_cons.1 hr with h | h
      · rw [h] at hrd
        have hrd' : last = m := hrd
        exact absurd (hm'.trans hrd'.symm) hnl
      · exact absurd (hrd.trans hm'.symm) (fun h' => hnew (h' ▸ wf.dst r (hRg r h)))
  · obtain ⟨rank, hrank⟩ := wf.acyclic
    refine ⟨fun m => if m = new then 2 * rank first + 1 else 2 * rank m, ?_⟩
    have he := hrank e heg
    rw [M.esrc, M.edst] at he
    intro x hx
    rcases cases x hx with rfl | rfl | h
    · simp only [hnf.symm, if_true, if_false]; omega
    · simp only [hnl.symm, if_true, if_false]; omega
    · have h1 := hrank x (hRg x h)
      have hs : x.src ≠ new := fun h' => hnew (h' ▸ wf.src x (hRg x h))
      have hd : x.dst ≠ new := fun h' => hnew (h' ▸ wf.dst x (hRg x h))
      simp only [hs, hd, if_false]; omega

theorem arguments_atSlot {E E' : List (Edge N)} {v v' : N → Nat → V} {n : N} (d : Nat) (f : V → V)
    (hs : ((E.filter (fun e => decide (e.dst = n))).map Edge.di).Nodup)
    (h : (incoming E' v' n).Perm ((incoming E v n).map (atSlot d f))) :
    arguments E' v' n =
      (((incoming E v n).mergeSort (fun a b => decide (a.1 ≤ b.1))).map (atSlot d f)).map
        Prod.snd := by
  have hk : ((incoming E v n).map Prod.fst).Nodup := by
    have : (incoming E v n).map Prod.fst = (E.filter (fun e => decide (e.dst = n))).map Edge.di := by
      simp [incoming, Function.comp_def]
    rw [this]; exact hs
  have hk' : ((incoming E' v' n).map Prod.fst).Nodup := by
    rw [(h.map Prod.fst).nodup_iff, List.map_map]
    have : (Prod.fst ∘ atSlot d f : Nat × V → Nat) = Prod.fst := rfl
    rwa [this]
  rw [arguments, sorted_eq h hk', sort_map hk (atSlot d f) (fun _ => rfl)]

theorem incoming_cons_eq {E : List (Edge N)} {e : Edge N} {v : N → Nat → V} {m : N}
    (h : e.dst = m) : incoming (e :: E) v m = (e.di, v e.src e.si) :: incoming E v m := by
  simp [incoming, List.filter_cons, h]

theorem slot_free {g : Gr N} (wf : WellFormed g) {e : Edge N} {R : List (Edge N)}
    (hp : g.edges.Perm (e :: R)) : ∀ r ∈ R, r.dst = e.dst → r.di ≠ e.di := by
  intro r hr hrd hdi
  have hs := wf.slots e.dst
  rw [((hp.filter (fun x => decide (x.dst = e.dst))).map Edge.di).nodup_iff,
    List.filter_cons] at hs
  simp only [decide_true, if_true, List.map_cons, List.nodup_cons] at hs
  exact hs.1 (List.mem_map.2 ⟨r, List.mem_filter.2 ⟨hr, by simp [hrd]⟩, hdi⟩)

theorem incoming_atSlot_id {E : List (Edge N)} {v : N → Nat → V} {m : N} {d : Nat} {f : V → V}
    (h : ∀ r ∈ E, r.dst = m → r.di ≠ d) : (incoming E v m).map (atSlot d f) = incoming E v m := by
  rw [incoming, List.map_map]
  apply List.map_congr_left
  intro r hr
  have := List.mem_filter.1 hr
  have hd := h r this.1 (by simpa using this.2)
  simp [atSlot, hd]

theorem Inserted.same {g g' : Gr N} (wf : WellFormed g) {new first last : N} {e : Edge N}
    {R : List (Edge N)} (M : Inserted g g' new first last e R) (hnew : new ∉ g.nodes)
    (hsi : e.si = 0) {I I' : Interp N V} (hsame : ∀ m ∈ g.nodes, m ≠ last → I' m = I m)
    (hI : ∀ (L : List (Nat × V)) k, I' last ((L.map (atSlot e.di (fun x => I' new [x] 0))).map
      Prod.snd) k = I last (L.map Prod.snd) k) :
    SameFunction g I g' I' := by
  obtain ⟨heg, hRg⟩ := perm_tail M.split
  have hfn : first ∈ g.nodes := M.esrc ▸ wf.src e heg
  have hln : last ∈ g.nodes := M.edst ▸ wf.dst e heg
  have hnf : new ≠ first := fun h => hnew (h ▸ hfn)
  have hnl : new ≠ last := fun h => hnew (h ▸ hln)
  have hli : last ∉ g.inputs := by have := wf.insFree e heg; rwa [M.edst] at this
  refine same_of_forward wf (M.wf wf hnew) ?_
  intro env v hv
  let v' : N → Nat → V := fun m => if m = new then I' new [v first 0] else v m
  have hvn : v' new = I' new [v first 0] := by simp [v']
  have hvm : ∀ m, m ≠ new → v' m = v m := by intro m h; simp [v', h]
  have hR : ∀ m, incoming R v' m = incoming R v m := by
    intro m
    apply List.map_congr_left
    intro r hr
    rw [hvm _ (fun h => hnew (h ▸ wf.src r (hRg r (List.mem_filter.1 hr).1)))]
  have hRnew : incoming R v' new = [] := by
    have : R.filter (fun e => decide (e.dst = new)) = [] := by
      rw [List.filter_eq_nil_iff]
      intro x hx
      have : x.dst ≠ new := fun h => hnew (h ▸ wf.dst x (hRg x hx))
      simpa using this
    simp [incoming, this]
  refine ⟨v', ?_, ?_⟩
  · intro m hm k
    rw [M.inputs]
    by_cases hmn : m = new
    · subst hmn
      rw [if_neg (fun h => hnew (wf.ins _ h)), hvn]
      have hp := incoming_perm M.edges v' m
      rw [incoming_cons_eq rfl, incoming_cons_ne (e := ⟨m, last, e.si, e.di⟩) hnl.symm, hRnew] at hp
      have := List.perm_singleton.1 hp
      have hargs : arguments g'.edges v' m = [v' first e.si] := by simp [arguments, this]
      rw [hargs, hvm first hnf.symm, hsi]
    · have hmg : m ∈ g.nodes := by
        rw [M.nodes] at hm
        rcases List.mem_append.1 hm with h | h
        · exact h
        · exact absurd (List.mem_singleton.1 h) hmn
      by_cases hml : m = last
      · subst hml
        rw [if_neg hli, hvm m hmn, hv m hmg k, if_neg hli]
        have hp : (incoming g'.edges v' m).Perm
            ((incoming g.edges v m).map (atSlot e.di (fun x => I' new [x] 0))) := by
          refine (incoming_perm M.edges v' m).trans ?_
          refine List.Perm.trans ?_ ((incoming_perm M.split v m).map _).symm
          rw [incoming_cons_ne (e := ⟨first, new, e.si, e.di⟩) hnl,
            incoming_cons_eq (e := ⟨new, m, e.si, e.di⟩) rfl, incoming_cons_eq M.edst,
            List.map_cons, hR, incoming_atSlot_id]
          · have : atSlot e.di (fun x => I' new [x] 0) (e.di, v e.src e.si) =
                (e.di, v' new e.si) := by
              simp [atSlot, hvn, M.esrc, hsi]
            rw [this]
          · intro r hr hrd
            exact slot_free wf M.split r hr (hrd.trans M.edst.symm)
        rw [arguments_atSlot e.di _ (wf.slots m) hp, hI]
        rfl
      · rw [hvm m hmn, hv m hmg k, hsame m hmg hml]
        have : arguments g.edges v m = arguments g'.edges v' m := by
          refine arguments_congr ?_ (wf.slots m)
          refine (incoming_perm M.split v m).trans ?_
          rw [incoming_cons_ne (by rw [M.edst]; exact fun h => hml h.symm), ← hR]
          rw [← incoming_cons_ne (e := ⟨new, last, e.si, e.di⟩) (E := R) (fun h => hml h.symm),
            ← incoming_cons_ne (e := ⟨first, new, e.si, e.di⟩) (fun h => hmn h.symm)]
          exact (incoming_perm M.edges v' m).symm
        rw [this]
  · rw [M.outputs]
    apply List.map_congr_left
    intro o ho
    rw [hvm _ (fun h' => hnew (h' ▸ wf.outs o ho))]

/-! ### Removing a node between two nodes -/

/-- What `removeBetween` leaves. -/
structure Bypassed (g g' : Gr N) (n first last : N) (e1 e2 : Edge N) (R : List (Edge N)) :
    Prop where
  split : g.edges.Perm (e1 :: e2 :: R)
  e1src : e1.src = first
  e1dst : e1.dst = n
  e2src : e2.src = n
  e2dst : e2.dst = last
  noSrc : ∀ r ∈ R, r.src ≠ n
  noDst : ∀ r ∈ R, r.dst ≠ n
  nodes : g'.nodes = g.nodes.erase n
  inputs : g'.inputs = g.inputs
  outputs : g'.outputs = g.outputs
  edges : g'.edges.Perm (⟨first, last, e1.si, e1.di⟩ :: R)

theorem removeBetween_result {g : Gr N} (wf : WellFormed g) {n first last : N} {e1 e2 : Edge N}
    (hin : inEdges g n = [e1]) (hout : outEdges g n = [e2]) (h1 : e1.src = first)
    (h2 : e2.dst = last) (ho : n ∉ g.outputs.map Prod.fst) :
    ∃ g' R, removeBetween g n first last = some g' ∧ Bypassed g g' n first last e1 e2 R := by
  obtain ⟨R1, hp1, hR1, he1g, he1d⟩ := split_single_in hin
  obtain ⟨R2, hp2, hR2, he2g, he2s⟩ := split_single_out hout
  have hne : e1.src ≠ n := by have := not_self_loop wf he1g; rwa [he1d] at this
  have hne2 : e2.dst ≠ n := by have := not_self_loop wf he2g; rw [he2s] at this; exact this.symm
  have he12 : e2 ≠ e1 := fun h => hne (h ▸ he2s)
  have he2R : e2 ∈ R1 := by
    rcases List.mem_cons.1 (hp1.mem_iff.1 he2g) with h | h
    · exact absurd h he12
    · exact h
  set R := R1.erase e2 with hR
  have hpR : R1.Perm (e2 :: R) := List.perm_cons_erase he2R
  have hp : g.edges.Perm (e1 :: e2 :: R) := hp1.trans (List.Perm.cons _ hpR)
  have hRd : ∀ r ∈ R, r.dst ≠ n := fun r hr => hR1 r (List.mem_of_mem_erase hr)
  have hRs : ∀ r ∈ R, r.src ≠ n := by
    have h3 : (outEdges g n).Perm ((e1 :: e2 :: R).filter (fun e => decide (e.src = n))) :=
      hp.filter _
    rw [hout, List.filter_cons, List.filter_cons] at h3
    simp only [hne, he2s, decide_true, decide_false, if_true, if_false, Bool.false_eq_true] at h3
    have h4 := (List.perm_cons e2).1 h3
    intro r hr hrs
    have : r ∈ R.filter (fun e => decide (e.src = n)) := List.mem_filter.2 ⟨hr, by simp [hrs]⟩
    exact absurd (h4.mem_iff.2 this) (by simp)
  have hnn : n ∈ g.nodes := he1d ▸ wf.dst e1 he1g
  have hfn : first ∈ g.nodes := h1 ▸ wf.src e1 he1g
  have hln : last ∈ g.nodes := h2 ▸ wf.dst e2 he2g
  have hfilt : g.edges.filter (fun e => decide (e.src = first) && decide (e.dst = n)) = [e1] := by
    have : g.edges.filter (fun e => decide (e.src = first) && decide (e.dst = n)) =
        (inEdges g n).filter (fun e => decide (e.src = first)) := by
      rw [inEdges, List.filter_filter]
    rw [this, hin]
    simp [h1]
  have a1 : addEdge g ⟨first, last, e1.si, e1.di⟩ =
      { g with edges := g.edges ++ [⟨first, last, e1.si, e1.di⟩] } := addEdge_of_mem hfn hln
  set g1 : Gr N := { g with edges := g.edges ++ [⟨first, last, e1.si, e1.di⟩] } with hg1
  obtain ⟨E2, r2, p2⟩ := removeEdge_perm (g := g1) (u := first) (w := n) (e := e1)
    (R := e2 :: ⟨first, last, e1.si, e1.di⟩ :: R)
    (by
      show (g.edges ++ [(⟨first, last, e1.si, e1.di⟩ : Edge N)]).Perm _
      refine (List.perm_append_singleton _ _).trans ?_
      refine (List.Perm.cons _ hp).trans ?_
      refine (List.Perm.swap _ _ _).trans (List.Perm.cons _ ?_)
      exact List.Perm.swap _ _ _)
    h1 he1d (by
      intro r hr hc
      rcases List.mem_cons.1 hr with h | hr
      · rw [h] at hc; exact hne2 hc.2
      · rcases List.mem_cons.1 hr with h | hr
        · rw [h] at hc; exact hne2 (h2.trans hc.2)
        · exact hRd r hr hc.2)
  set g2 : Gr N := { g1 with edges := E2 } with hg2
  obtain ⟨E3, r3, p3⟩ := removeEdge_perm (g := g2) (u := n) (w := last) (e := e2)
    (R := ⟨first, last, e1.si, e1.di⟩ :: R) p2 he2s h2 (by
      intro r hr hc
      rcases List.mem_cons.1 hr with h | hr
      · rw [h] at hc; exact hne (h1.trans hc.1)
      · exact hRs r hr hc.1)
  have hE : ∀ x ∈ E3, x.src ≠ n ∧ x.dst ≠ n := by
    intro x hx
    rcases List.mem_cons.1 (p3.mem_iff.1 hx) with h | h
    · rw [h]; exact ⟨h1 ▸ hne, h2 ▸ hne2⟩
    · exact ⟨hRs x h, hRd x h⟩
  have h4 := removeNode_free (g := { g2 with edges := E3 }) (n := n) (i := none) (o := none) ho
    (fun h => wf.insFree e1 he1g (by rw [he1d]; exact h)) hnn
    (fun x hx => (hE x hx).1) (fun x hx => (hE x hx).2)
  refine ⟨{ g2 with edges := E3, nodes := g.nodes.erase n }, R, ?_, hp, h1, he1d, he2s, h2, hRs,
    hRd, rfl, rfl, rfl, p3⟩
  simp only [removeBetween]
  rw [hfilt]
  simp only [a1, r2, r3, h4, ← hg2, Option.bind_eq_bind, Option.bind_some]
  rfl

theorem Bypassed.wf {g g' : Gr N} (wf : WellFormed g) {n first last : N} {e1 e2 : Edge N}
    {R : List (Edge N)} (M : Bypassed g g' n first last e1 e2 R)
    (ho : n ∉ g.outputs.map Prod.fst) (hdi : e1.di = e2.di) : WellFormed g' := by
  obtain ⟨he1g, hRg'⟩ := perm_tail M.split
  have he2g : e2 ∈ g.edges := hRg' e2 List.mem_cons_self
  have hRg : ∀ r ∈ R, r ∈ g.edges := fun r hr => hRg' r (List.mem_cons_of_mem _ hr)
  have hfn : first ∈ g.nodes := M.e1src ▸ wf.src e1 he1g
  have hln : last ∈ g.nodes := M.e2dst ▸ wf.dst e2 he2g
  have hne : first ≠ n := by
    have := not_self_loop wf he1g; rwa [M.e1dst, M.e1src] at this
  have hne2 : last ≠ n := by
    have := not_self_loop wf he2g; rw [M.e2src, M.e2dst] at this; exact this.symm
  have hmem : ∀ m, m ∈ g'.nodes ↔ m ≠ n ∧ m ∈ g.nodes := fun m => by
    rw [M.nodes]; exact wf.nodes.mem_erase_iff
  have cases : ∀ x ∈ g'.edges, x = ⟨first, last, e1.si, e1.di⟩ ∨ x ∈ R := by
    intro x hx
    exact List.mem_cons.1 (M.edges.mem_iff.1 hx)
  refine ⟨?_, ?_, ?_, ?_, ?_, ?_, ?_, ?_, ?_⟩
  · rw [M.nodes]; exact wf.nodes.erase _
  · intro x hx
    rcases cases x hx with rfl | h
    · exact (hmem _).2 ⟨hne, hfn⟩
    · exact (hmem _).2 ⟨M.noSrc x h, wf.src x (hRg x h)⟩
  · intro x hx
    rcases cases x hx with rfl | h
    · exact (hmem _).2 ⟨hne2, hln⟩
    · exact (hmem _).2 ⟨M.noDst x h, wf.dst x (hRg x h)⟩
  · intro o ho'
    rw [M.outputs] at ho'
    exact (hmem _).2 ⟨fun h => ho (List.mem_map.2 ⟨o, ho', h⟩), wf.outs o ho'⟩
  · intro m hm
    rw [M.inputs] at hm
    exact (hmem _).2 ⟨fun h => wf.insFree e1 he1g (by rw [M.e1dst, ← h]; exact hm), wf.ins m hm⟩
  · rw [M.inputs]; exact wf.insNodup
  · intro x hx
    rw [M.inputs]
    rcases cases x hx with rfl | h
    · have := wf.insFree e2 he2g; rwa [M.e2dst] at this
    · exact wf.insFree x (hRg x h)
  · intro m
    have hp2 : g.edges.Perm (e2 :: e1 :: R) := M.split.trans (List.Perm.swap _ _ _)
    have hRs := slots_sub (E := e2 :: R) (E' := R) (e := e2) (n := m) (List.Perm.refl _)
      (slots_sub M.split (wf.slots m))
    refine slots_cons M.edges hRs ?_
    intro hm r hr hrd
    have hm' : last = m := hm
    rw [show (⟨first, last, e1.si, e1.di⟩ : Edge N).di = e2.di from hdi]
    exact slot_free wf hp2 r (List.mem_cons_of_mem _ hr) (by rw [hrd, ← hm', M.e2dst])
  · obtain ⟨rank, hrank⟩ := wf.acyclic
    refine ⟨rank, ?_⟩
    have k1 := hrank e1 he1g
    have k2 := hrank e2 he2g
    rw [M.e1src, M.e1dst] at k1
    rw [M.e2src, M.e2dst] at k2
    intro x hx
    rcases cases x hx with rfl | h
    · exact lt_trans k1 k2
    · exact hrank x (hRg x h)

theorem Bypassed.same {g g' : Gr N} (wf : WellFormed g) {n first last : N} {e1 e2 : Edge N}
    {R : List (Edge N)} (M : Bypassed g g' n first last e1 e2 R) (hin : inEdges g n = [e1])
    (ho : n ∉ g.outputs.map Prod.fst) (hdi : e1.di = e2.di) (hsi : e2.si = 0)
    {I I' : Interp N V} (hsame : ∀ m ∈ g.nodes, m ≠ last → I' m = I m)
    (hI : ∀ (L : List (Nat × V)) k, I last ((L.map (atSlot e2.di (fun x => I n [x] 0))).map
      Prod.snd) k = I' last (L.map Prod.snd) k) :
    SameFunction g I g' I' := by
  have wf' := M.wf wf ho hdi
  obtain ⟨he1g, hRg'⟩ := perm_tail M.split
  have he2g : e2 ∈ g.edges := hRg' e2 List.mem_cons_self
  have hRg : ∀ r ∈ R, r ∈ g.edges := fun r hr => hRg' r (List.mem_cons_of_mem _ hr)
  have hnn : n ∈ g.nodes := M.e1dst ▸ wf.dst e1 he1g
  have hni : n ∉ g.inputs := by have := wf.insFree e1 he1g; rwa [M.e1dst] at this
  have hli : last ∉ g.inputs := by have := wf.insFree e2 he2g; rwa [M.e2dst] at this
  have hne2 : last ≠ n := by
    have := not_self_loop wf he2g; rw [M.e2src, M.e2dst] at this; exact this.symm
  have hmem : ∀ m, m ∈ g'.nodes ↔ m ≠ n ∧ m ∈ g.nodes := fun m => by
    rw [M.nodes]; exact wf.nodes.mem_erase_iff
  have hp2 : g.edges.Perm (e2 :: e1 :: R) := M.split.trans (List.Perm.swap _ _ _)
  refine same_of_forward wf wf' ?_
  intro env v hv
  have hvn : v n 0 = I n [v first e1.si] 0 := by
    rw [hv n hnn 0, if_neg hni, arguments_single hin, M.e1src]
  refine ⟨v, ?_, by rw [M.outputs]⟩
  intro m hm k
  obtain ⟨hmn, hmg⟩ := (hmem m).1 hm
  rw [M.inputs, hv m hmg k]
  by_cases hml : m = last
  · subst hml
    rw [if_neg hli, if_neg hli]
    have hp : (incoming g.edges v m).Perm
        ((incoming g'.edges v m).map (atSlot e2.di (fun x => I n [x] 0))) := by
      refine (incoming_perm hp2 v m).trans ?_
      refine List.Perm.trans ?_ ((incoming_perm M.edges v m).map _).symm
      rw [incoming_cons_eq M.e2dst, incoming_cons_ne (by rw [M.e1dst]; exact hmn.symm),
        incoming_cons_eq (e := ⟨first, m, e1.si, e1.di⟩) rfl, List.map_cons, incoming_atSlot_id]
      · have : atSlot e2.di (fun x => I n [x] 0) (e1.di, v first e1.si) =
            (e2.di, v e2.src e2.si) := by
          simp [atSlot, hdi, M.e2src, hsi, hvn]
        rw [this]
      · intro r hr hrd
        exact slot_free wf hp2 r (List.mem_cons_of_mem _ hr) (hrd.trans M.e2dst.symm)
    rw [arguments_atSlot e2.di _ (wf'.slots m) hp, hI]
    rfl
  · rw [hsame m hmg hml]
    have : arguments g.edges v m = arguments g'.edges v m := by
      refine arguments_congr ?_ (wf.slots m)
      refine (incoming_perm M.split v m).trans ?_
      rw [incoming_cons_ne (by rw [M.e1dst]; exact hmn.symm),
        incoming_cons_ne (by rw [M.e2dst]; exact fun h => hml h.symm)]
      rw [← incoming_cons_ne (e := ⟨first, last, e1.si, e1.di⟩) (E := R) (fun h => hml h.symm)]
      exact (incoming_perm M.edges v m).symm
    rw [this]

end MCT.Graph
