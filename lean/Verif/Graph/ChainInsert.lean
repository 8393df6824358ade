/-
Chains of layers after a node has been inserted between two consecutive ones.
-/
import Verif.Graph.Between
import Verif.Graph.InPlace

namespace MCT.Graph
open MCT.GraphSpec

set_option linter.unusedSectionVars false
set_option linter.unusedVariables false
set_option linter.unusedSimpArgs false

variable {N V : Type*} [DecidableEq N]

theorem chain_drop {g : Gr N} : ∀ (L : List N) {l : List N}, Chain g (L ++ l) → Chain g l
  | [], _, h => h
  | [u], [], _ => trivial
  | [u], v :: l, h => h.2
  | u :: w :: L, l, h => chain_drop (w :: L) h.2

theorem chain_rank {g : Gr N} {rank : N → Nat} (hr : ∀ e ∈ g.edges, rank e.src < rank e.dst) :
    ∀ (L : List N) (u : N), Chain g (u :: L) → ∀ v ∈ L, rank u < rank v
  | [], _, _ => by simp
  | w :: L, u, h => by
      obtain ⟨⟨e, h1, h2⟩, h3⟩ := h
      have he : e ∈ edgesFrom g u := by rw [h1]; simp
      have he' : e ∈ edgesInto g w := by rw [h2]; simp
      have a := (List.mem_filter.1 he)
      have b := (List.mem_filter.1 he')
      have hu : e.src = u := by simpa using a.2
      have hw : e.dst = w := by simpa using b.2
      have huw : rank u < rank w := by rw [← hu, ← hw]; exact hr e a.1
      intro v hv
      rcases List.mem_cons.1 hv with rfl | hv
      · exact huw
      · exact huw.trans (chain_rank hr L w h3 v hv)

section
variable {g g' : Gr N} {new x y : N} {e : Edge N} {R : List (Edge N)}

theorem Inserted.from_other (M : Inserted g g' new x y e R) {u : N} (hu : u ≠ x) (hn : u ≠ new)
    {f : Edge N} (h : edgesFrom g u = [f]) : edgesFrom g' u = [f] := by
  have p1 := M.split.filter (fun e => decide (e.src = u))
  have p2 := M.edges.filter (fun e => decide (e.src = u))
  have hx : ¬ e.src = u := by rw [M.esrc]; exact hu.symm
  simp only [List.filter_cons, hu.symm, hn.symm, hx, decide_false, Bool.false_eq_true, if_false] at p1 p2
  have : (edgesFrom g' u).Perm [f] := by
    rw [← h]; exact p2.trans p1.symm
  exact List.perm_singleton.1 this

theorem Inserted.into_other (M : Inserted g g' new x y e R) {u : N} (hu : u ≠ y) (hn : u ≠ new)
    {f : Edge N} (h : edgesInto g u = [f]) : edgesInto g' u = [f] := by
  have p1 := M.split.filter (fun e => decide (e.dst = u))
  have p2 := M.edges.filter (fun e => decide (e.dst = u))
  have hx : ¬ e.dst = u := by rw [M.edst]; exact hu.symm
  simp only [List.filter_cons, hu.symm, hn.symm, hx, decide_false, Bool.false_eq_true, if_false] at p1 p2
  have : (edgesInto g' u).Perm [f] := by
    rw [← h]; exact p2.trans p1.symm
  exact List.perm_singleton.1 this

/-- The two new links. -/
theorem Inserted.links (wf : WellFormed g) (M : Inserted g g' new x y e R) (hnew : new ∉ g.nodes)
    (h1 : edgesFrom g x = [e]) (h2 : edgesInto g y = [e]) :
    (∃ f, edgesFrom g' x = [f] ∧ edgesInto g' new = [f]) ∧
      ∃ f, edgesFrom g' new = [f] ∧ edgesInto g' y = [f] := by
  obtain ⟨heg, hRg⟩ := perm_tail M.split
  have hxn : x ∈ g.nodes := M.esrc ▸ wf.src e heg
  have hyn : y ∈ g.nodes := M.edst ▸ wf.dst e heg
  have hnx : new ≠ x := fun h => hnew (h ▸ hxn)
  have hny : new ≠ y := fun h => hnew (h ▸ hyn)
  obtain ⟨rank, hr⟩ := wf.acyclic
  have hxy : x ≠ y := by
    intro h
    have := hr e heg
    rw [M.esrc, M.edst, h] at this
    omega
  have rx : R.filter (fun e => decide (e.src = x)) = [] := by
    have p := M.split.filter (fun e => decide (e.src = x))
    rw [show g.edges.filter _ = [e] from h1] at p
    simp only [List.filter_cons, M.esrc, decide_true, if_true] at p
    have := p.length_eq
    simp only [List.length_cons, List.length_nil] at this
    exact List.length_eq_zero_iff.1 (by omega)
  have ry : R.filter (fun e => decide (e.dst = y)) = [] := by
    have p := M.split.filter (fun e => decide (e.dst = y))
    rw [show g.edges.filter _ = [e] from h2] at p
    simp only [List.filter_cons, M.edst, decide_true, if_true] at p
    have := p.length_eq
    simp only [List.length_cons, List.length_nil] at this
    exact List.length_eq_zero_iff.1 (by omega)
  have rn : R.filter (fun e => decide (e.src = new)) = [] := by
    apply List.filter_eq_nil_iff.2
    intro r hr hc
    exact hnew ((by simpa using hc : r.src = new) ▸ wf.src r (hRg r hr))
  have rn' : R.filter (fun e => decide (e.dst = new)) = [] := by
    apply List.filter_eq_nil_iff.2
    intro r hr hc
    exact hnew ((by simpa using hc : r.dst = new) ▸ wf.dst r (hRg r hr))
  refine ⟨⟨⟨x, new, e.si, e.di⟩, ?_, ?_⟩, ⟨⟨new, y, e.si, e.di⟩, ?_, ?_⟩⟩
  · have p := M.edges.filter (fun e => decide (e.src = x))
    simp only [List.filter_cons, hnx, rx, decide_true, decide_false, Bool.false_eq_true, if_true, if_false] at p
    exact List.perm_singleton.1 p
  · have p := M.edges.filter (fun e => decide (e.dst = new))
    simp only [List.filter_cons, hny.symm, rn', decide_true, decide_false, Bool.false_eq_true, if_true, if_false] at p
    exact List.perm_singleton.1 p
  · have p := M.edges.filter (fun e => decide (e.src = new))
    simp only [List.filter_cons, hnx.symm, rn, decide_true, decide_false, Bool.false_eq_true, if_true, if_false] at p
    exact List.perm_singleton.1 p
  · have p := M.edges.filter (fun e => decide (e.dst = y))
    simp only [List.filter_cons, hny, ry, decide_true, decide_false, Bool.false_eq_true, if_true, if_false] at p
    exact List.perm_singleton.1 p

theorem Inserted.link_other (wf : WellFormed g) (M : Inserted g g' new x y e R) (hnew : new ∉ g.nodes)
    (h2 : edgesInto g y = [e]) {u v : N} (hu : u ≠ x)
    (h : ∃ f, edgesFrom g u = [f] ∧ edgesInto g v = [f]) :
    ∃ f, edgesFrom g' u = [f] ∧ edgesInto g' v = [f] := by
  obtain ⟨f, a, b⟩ := h
  have fa := List.mem_filter.1 (show f ∈ edgesFrom g u by rw [a]; simp)
  have fb := List.mem_filter.1 (show f ∈ edgesInto g v by rw [b]; simp)
  have hsu : f.src = u := by simpa using fa.2
  have hdv : f.dst = v := by simpa using fb.2
  have hun : u ≠ new := fun h => hnew (h ▸ hsu ▸ wf.src f fa.1)
  have hvn : v ≠ new := fun h => hnew (h ▸ hdv ▸ wf.dst f fb.1)
  have hvy : v ≠ y := by
    rintro rfl
    rw [h2] at b
    obtain rfl : e = f := by simpa using b
    exact hu (hsu.symm.trans M.esrc)
  exact ⟨f, M.from_other hu hun a, M.into_other hvy hvn b⟩

theorem Inserted.chain_after (wf : WellFormed g) (M : Inserted g g' new x y e R) (hnew : new ∉ g.nodes)
    (h2 : edgesInto g y = [e]) : ∀ L : List N, x ∉ L → Chain g L → Chain g' L
  | [], _, _ => trivial
  | [_], _, _ => trivial
  | u :: v :: L, hx, h =>
      ⟨M.link_other wf hnew h2 (fun hu => hx (by simp [hu])) h.1,
        M.chain_after wf hnew h2 (v :: L) (fun hc => hx (List.mem_cons_of_mem _ hc)) h.2⟩

/-- The inserted node takes its place in the chain. -/
theorem Inserted.chain (wf : WellFormed g) (M : Inserted g g' new x y e R) (hnew : new ∉ g.nodes) :
    ∀ (L : List N) {L' : List N}, Chain g (L ++ x :: y :: L') → Chain g' (L ++ x :: new :: y :: L') := by
  obtain ⟨rank, hr⟩ := wf.acyclic
  have base : ∀ {L' : List N}, Chain g (x :: y :: L') → Chain g' (x :: new :: y :: L') := by
    intro L' h
    have hx : x ∉ y :: L' := fun hc => by have := chain_rank hr _ _ h x hc; omega
    obtain ⟨⟨f, h1, h2⟩, h3⟩ := h
    have hef : f = e := by
      have : e ∈ edgesFrom g x :=
        List.mem_filter.2 ⟨(perm_tail M.split).1, by simp [M.esrc]⟩
      rw [h1] at this
      exact (List.mem_singleton.1 this).symm
    subst hef
    obtain ⟨l1, l2⟩ := M.links wf hnew h1 h2
    exact ⟨l1, l2, M.chain_after wf hnew h2 _ hx h3⟩
  intro L
  induction L with
  | nil => intro L' h; exact base h
  | cons u L ih =>
    intro L' h
    have hux : u ≠ x := by
      rintro rfl
      have := chain_rank hr _ _ h u (by simp)
      omega
    have htail := ih (chain_drop [u] h)
    have hy : edgesInto g y = [e] := by
      obtain ⟨⟨f, h1, h2⟩, -⟩ := chain_drop (u :: L) h
      have : e ∈ edgesFrom g x := List.mem_filter.2 ⟨(perm_tail M.split).1, by simp [M.esrc]⟩
      rw [h1] at this
      rw [List.mem_singleton.1 this]; exact h2
    cases L with
    | nil => exact ⟨M.link_other wf hnew hy hux h.1, htail⟩
    | cons w L => exact ⟨M.link_other wf hnew hy hux h.1, htail⟩

end

theorem same_trans {g g1 g2 : Gr N} {I I1 I2 : Interp N V} (h : SameFunction g I g1 I1)
    (h' : SameFunction g1 I1 g2 I2) : SameFunction g I g2 I2 :=
  fun env outs => (h env outs).trans (h' env outs)

/-- Inserting a layer that does nothing. -/
theorem Inserted.same_id {g g' : Gr N} (wf : WellFormed g) {new first last : N} {e : Edge N}
    {R : List (Edge N)} (M : Inserted g g' new first last e R) (hnew : new ∉ g.nodes)
    (hsi : e.si = 0) {I I' : Interp N V} (hsame : ∀ m ∈ g.nodes, I' m = I m)
    (hid : ∀ x, I' new [x] 0 = x) : SameFunction g I g' I' := by
  obtain ⟨heg, hRg⟩ := perm_tail M.split
  apply M.same wf hnew hsi (fun m hm _ => hsame m hm)
  intro L k
  rw [hsame last (M.edst ▸ wf.dst e heg)]
  have : L.map (atSlot e.di (fun x => I' new [x] 0)) = L := by
    conv_rhs => rw [← List.map_id L]
    apply List.map_congr_left
    intro x _
    simp only [atSlot, hid, id]
    split <;> rfl
  rw [this]

end MCT.Graph
