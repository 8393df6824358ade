/-
C148: one pass of a substitution over the model.

Sources (all under /repo/model_compression_toolkit):
  core/common/substitutions/apply_substitutions.py   substitute
  core/common/graph/graph_searches.py                _node_filter, _edge_filter
  core/common/substitutions/batchnorm_folding.py     both foldings
  core/common/substitutions/remove_identity.py       remove_identity_node

The matches are searched once, before the first of them is substituted.
-/
import Verif.Graph.ChainInsert
import Verif.Graph.Props
import Verif.Graph.Walk

namespace MCT.Graph
open MCT.GraphSpec

set_option linter.unusedSectionVars false
set_option linter.unusedVariables false

variable {N V : Type*} [DecidableEq N]

/-! ### Model -/

/-- One substitution in `substitute` (apply_substitutions.py 32-36): it is applied to every match of the list, which was
made before; `none` is an exception. -/
def substituteAll {G M : Type*} (apply : G → M → Option G) (found : List M) (g : G) : Option G :=
  found.foldlM apply g

/-- `substitute` of the foldings (batchnorm_folding.py 88-152 and 225-299) for one match: `reused` is the first test,
`fold` the tests of the layers that come after the two look-ups (kernel size, groups, kind; always true in the first
folding), `c` the new layer. Asking for the neighbours of a layer that is no longer in the graph is an error of networkx
(base_graph.py 496-535); the second look-up is not made when the first one decides. -/
def foldMatch (reused fold : Edge N → Bool) (c : Edge N → N) (g : Gr N) (e : Edge N) : Option (Gr N) :=
  if reused e = true then some g
  else if e.src ∉ g.nodes then none
  else if (nextNodes g e.src).length > 1 then some g
  else if e.dst ∉ g.nodes then none
  else if (prevNodes g e.dst).length > 1 then some g
  else if fold e = true then mergePair g e.src e.dst (c e) else some g

/-! ### Specification -/

/-- The match is to be folded: the layers allow it, the first is read by the second only, and the second reads only the
first. -/
def Foldable (reused fold : Edge N → Bool) (g : Gr N) (e : Edge N) : Prop :=
  reused e = false ∧ fold e = true ∧ edgesFrom g e.src = [e] ∧ edgesInto g e.dst = [e]

/-! ### One step -/

theorem single_of_le {α : Type*} {l : List α} {x : α} (hx : x ∈ l) (h : ¬ l.length > 1) : l = [x] := by
  match l, h with
  | [y], _ => rw [List.mem_singleton.1 hx]
  | [], _ => exact absurd hx (by simp)
  | _ :: _ :: _, h => exact absurd h (by simp)

theorem mem_from {g : Gr N} {e : Edge N} (he : e ∈ g.edges) : e ∈ edgesFrom g e.src :=
  List.mem_filter.2 ⟨he, by simp⟩

theorem mem_into {g : Gr N} {e : Edge N} (he : e ∈ g.edges) : e ∈ edgesInto g e.dst :=
  List.mem_filter.2 ⟨he, by simp⟩

/-- An edge that is in the graph is folded or nothing happens. -/
theorem foldMatch_of_mem (reused fold : Edge N → Bool) (c : Edge N → N) {g : Gr N} (wf : WellFormed g) {e : Edge N}
    (he : e ∈ g.edges) :
    (Foldable reused fold g e → foldMatch reused fold c g e = mergePair g e.src e.dst (c e)) ∧
    (¬ Foldable reused fold g e → foldMatch reused fold c g e = some g) := by
  have hs := wf.src e he
  have hd := wf.dst e he
  have l1 : (nextNodes g e.src).length = (edgesFrom g e.src).length := by simp [nextNodes, outEdges, edgesFrom]
  have l2 : (prevNodes g e.dst).length = (edgesInto g e.dst).length := by simp [prevNodes, inEdges, edgesInto]
  constructor
  · rintro ⟨h1, h2, h3, h4⟩
    unfold foldMatch
    rw [if_neg (by simp [h1]), if_neg (by simp [hs]), if_neg (by rw [l1, h3]; simp), if_neg (by simp [hd]),
      if_neg (by rw [l2, h4]; simp), if_pos h2]
  · intro h
    unfold foldMatch
    split_ifs with h1 h3 h5 h6
    · rfl
    · rfl
    · rfl
    · exact absurd ⟨by simpa using h1, h6, single_of_le (mem_from he) (by rw [← l1]; exact h3),
        single_of_le (mem_into he) (by rw [← l2]; exact h5)⟩ h
    · rfl

/-- Other edges between layers that are not merged keep their place and their company. -/
theorem Merged.other {g g' : Gr N} (wf : WellFormed g) {a b c : N} {e0 : Edge N} {R : List (Edge N)}
    (M : Merged g g' a b c e0 R) (hc : c ∉ g.nodes) {x : N} (hx : x ∈ g.nodes) (hxa : x ≠ a) (hxb : x ≠ b) :
    (edgesFrom g' x).length = (edgesFrom g x).length ∧ (edgesInto g' x).length = (edgesInto g x).length ∧
    (∀ e ∈ g.edges, e.src = x → e.dst ≠ a → e ∈ g'.edges) ∧ (IsOutput g' x ↔ IsOutput g x) := by
  have hxc : c ≠ x := fun h => hc (h ▸ hx)
  refine ⟨?_, ?_, ?_, ?_⟩
  · unfold edgesFrom
    rw [← List.countP_eq_length_filter, ← List.countP_eq_length_filter, M.edges.countP_eq, M.split.countP_eq,
      List.countP_map, List.countP_cons]
    have : decide (e0.src = x) = false := by simp [M.esrc, hxa.symm]
    rw [this]
    simp only [Bool.false_eq_true, if_false, Nat.add_zero]
    apply List.countP_congr
    intro r _
    simp only [Function.comp, moveDst_src, moveSrc_src, decide_eq_true_eq]
    by_cases h : r.src = b
    · rw [if_pos h]; exact ⟨fun h' => absurd h' hxc, fun h' => absurd (h'.symm.trans h) hxb⟩
    · rw [if_neg h]
  · unfold edgesInto
    rw [← List.countP_eq_length_filter, ← List.countP_eq_length_filter, M.edges.countP_eq, M.split.countP_eq,
      List.countP_map, List.countP_cons]
    have : decide (e0.dst = x) = false := by simp [M.edst, hxb.symm]
    rw [this]
    simp only [Bool.false_eq_true, if_false, Nat.add_zero]
    apply List.countP_congr
    intro r _
    simp only [Function.comp, moveDst_dst, moveSrc_dst, decide_eq_true_eq]
    by_cases h : r.dst = a
    · rw [if_pos h]; exact ⟨fun h' => absurd h' hxc, fun h' => absurd (h'.symm.trans h) hxa⟩
    · rw [if_neg h]
  · intro e he hs hd
    rw [M.edges.mem_iff, List.mem_map]
    refine ⟨e, ?_, ?_⟩
    · rcases List.mem_cons.1 (M.split.mem_iff.1 he) with h | h
      · exact absurd (by rw [← hs, h, M.esrc]) hxa
      · exact h
    · simp [moveDst, moveSrc, hs, hxb, hd]
  · unfold IsOutput
    rw [M.outputs]
    constructor
    · rintro ⟨k, hk⟩
      obtain ⟨o, ho, e⟩ := List.mem_map.1 hk
      split_ifs at e with h
      · exact absurd (congrArg Prod.fst e) hxc
      · exact ⟨k, e ▸ ho⟩
    · rintro ⟨k, hk⟩
      exact ⟨k, List.mem_map.2 ⟨(x, k), hk, by simp [hxb]⟩⟩

/-! ### The whole pass -/

/-- The matches that are left at some point of the pass: all in the graph, and each as foldable as in the beginning. -/
structure Left (reused fold : Edge N → Bool) (c : Edge N → N) (g h : Gr N) (rest : List (Edge N)) : Prop where
  mem : ∀ e ∈ rest, e ∈ h.edges
  same : ∀ e ∈ rest, (Foldable reused fold h e ↔ Foldable reused fold g e)
  out : ∀ e ∈ rest, (IsOutput h e.src ↔ IsOutput g e.src)
  ins : h.inputs = g.inputs
  fresh : ∀ e ∈ rest, c e ∉ h.nodes

theorem foldable_iff_length {reused fold : Edge N → Bool} {g : Gr N} {e : Edge N} (he : e ∈ g.edges) :
    Foldable reused fold g e ↔ reused e = false ∧ fold e = true ∧ (edgesFrom g e.src).length = 1 ∧
      (edgesInto g e.dst).length = 1 := by
  constructor
  · rintro ⟨h1, h2, h3, h4⟩; exact ⟨h1, h2, by rw [h3]; rfl, by rw [h4]; rfl⟩
  · rintro ⟨h1, h2, h3, h4⟩
    exact ⟨h1, h2, single_of_le (mem_from he) (by omega), single_of_le (mem_into he) (by omega)⟩

/-- Two matches, one of them folded, share no layer unless they are consecutive. -/
theorem apart {g : Gr N} {reused fold : Edge N → Bool} {e r : Edge N} (he : Foldable reused fold g e) (hr : r ∈ g.edges)
    (hne : r ≠ e) : r.src ≠ e.src ∧ r.dst ≠ e.dst := by
  constructor
  · intro h
    have : r ∈ edgesFrom g e.src := List.mem_filter.2 ⟨hr, by simp [h]⟩
    rw [he.2.2.1] at this
    exact hne (List.mem_singleton.1 this)
  · intro h
    have : r ∈ edgesInto g e.dst := List.mem_filter.2 ⟨hr, by simp [h]⟩
    rw [he.2.2.2] at this
    exact hne (List.mem_singleton.1 this)

/-- **C148**, as far as it holds: a folding pass. The matches `found` are edges of the graph, in any order. If no match
shares a layer with a folded one (`hchain`), and no layer to be folded is an input or output of the model, then the pass
succeeds, folds every match that is to be folded, and the model computes the same function. Without `hchain` it fails:
`C148_chain_violated`. -/
theorem C148_folding_partial {g : Gr N} (wf : WellFormed g) (reused fold : Edge N → Bool) (c : Edge N → N)
    {found : List (Edge N)} (hmem : ∀ e ∈ found, e ∈ g.edges) (hnd : found.Nodup)
    (hfresh : ∀ e ∈ found, c e ∉ g.nodes) (hinj : ∀ e ∈ found, ∀ r ∈ found, c e = c r → e = r)
    (hchain : ∀ e ∈ found, Foldable reused fold g e → ∀ r ∈ found, r.src ≠ e.dst ∧ r.dst ≠ e.src)
    (hsafe : ∀ e ∈ found, Foldable reused fold g e → ¬ IsOutput g e.src ∧ e.src ∉ g.inputs)
    {I : Interp N V} (hI : ∀ e ∈ found, Foldable reused fold g e → ∀ args k, I (c e) args k = I e.dst [I e.src args e.si] k) :
    ∃ g', substituteAll (foldMatch reused fold c) found g = some g' ∧ WellFormed g' ∧ SameFunction g I g' I ∧
      ∀ m, m ∈ g'.nodes ↔ (m ∈ g.nodes ∧ ∀ e ∈ found, Foldable reused fold g e → m ≠ e.src ∧ m ≠ e.dst) ∨
        ∃ e ∈ found, Foldable reused fold g e ∧ m = c e := by
  suffices H : ∀ (rest : List (Edge N)) (h : Gr N), WellFormed h → (∀ e ∈ rest, e ∈ found) → rest.Nodup →
      Left reused fold c g h rest →
      ∃ g', substituteAll (foldMatch reused fold c) rest h = some g' ∧ WellFormed g' ∧ SameFunction h I g' I ∧
      ∀ m, m ∈ g'.nodes ↔ (m ∈ h.nodes ∧ ∀ e ∈ rest, Foldable reused fold g e → m ≠ e.src ∧ m ≠ e.dst) ∨
        ∃ e ∈ rest, Foldable reused fold g e ∧ m = c e by
    exact H found g wf (fun _ h => h) hnd ⟨hmem, fun _ _ => Iff.rfl, fun _ _ => Iff.rfl, rfl, hfresh⟩
  intro rest
  induction rest with
  | nil =>
    intro h wfh _ _ _
    exact ⟨h, rfl, wfh, fun _ _ => Iff.rfl, by simp⟩
  | cons e rest ih =>
    intro h wfh hsub hnd' L
    have hnd'' := List.nodup_cons.1 hnd'
    have hef := hsub e List.mem_cons_self
    have heh := L.mem e List.mem_cons_self
    have hsub' : ∀ r ∈ rest, r ∈ found := fun r hr => hsub r (List.mem_cons_of_mem _ hr)
    obtain ⟨st1, st2⟩ := foldMatch_of_mem reused fold c wfh heh
    by_cases hF : Foldable reused fold g e
    · have hFh := (L.same e List.mem_cons_self).2 hF
      have hsf := hsafe e hef hF
      have hao : ¬ IsOutput h e.src := fun hh => hsf.1 ((L.out e List.mem_cons_self).1 hh)
      have hai : e.src ∉ h.inputs := by rw [L.ins]; exact hsf.2
      have hcf := L.fresh e List.mem_cons_self
      obtain ⟨h', R, hm, M⟩ := mergePair_result wfh (a := e.src) (b := e.dst) hFh.2.2.1 hFh.2.2.2 hcf (not_output hao) hai
      obtain ⟨_, _, _, _, _, _, _, hn⟩ := M.facts wfh hcf
      have wf' := M.wf wfh hcf (not_output hao) hai
      have same' : SameFunction h I h' I := M.same wfh hFh.2.2.2 hcf (not_output hao) hai (hI e hef hF)
      have hL : Left reused fold c g h' rest := by
        have key : ∀ r ∈ rest, r.src ≠ e.src ∧ r.src ≠ e.dst ∧ r.dst ≠ e.src ∧ r.dst ≠ e.dst := by
          intro r hr
          have h1 := apart hF (hmem r (hsub' r hr)) (fun h => hnd''.1 (h ▸ hr))
          have h2 := hchain e hef hF r (hsub' r hr)
          exact ⟨h1.1, h2.1, h2.2, h1.2⟩
        have hmem' : ∀ r ∈ rest, r ∈ h'.edges := by
          intro r hr
          obtain ⟨k1, k2, k3, k4⟩ := key r hr
          have hrh := L.mem r (List.mem_cons_of_mem _ hr)
          exact (M.other wfh hcf (wfh.src r hrh) k1 k2).2.2.1 r hrh rfl k3
        refine ⟨hmem', ?_, ?_, M.inputs.trans L.ins, ?_⟩
        · intro r hr
          obtain ⟨k1, k2, k3, k4⟩ := key r hr
          have hrh := L.mem r (List.mem_cons_of_mem _ hr)
          rw [← L.same r (List.mem_cons_of_mem _ hr), foldable_iff_length (hmem' r hr), foldable_iff_length hrh,
            (M.other wfh hcf (wfh.src r hrh) k1 k2).1, (M.other wfh hcf (wfh.dst r hrh) k3 k4).2.1]
        · intro r hr
          obtain ⟨k1, k2, k3, k4⟩ := key r hr
          have hrh := L.mem r (List.mem_cons_of_mem _ hr)
          rw [← L.out r (List.mem_cons_of_mem _ hr), (M.other wfh hcf (wfh.src r hrh) k1 k2).2.2.2]
        · intro r hr hcr
          rcases ((hn _).1 hcr).1 with h1 | h1
          · exact hnd''.1 (hinj r (hsub' r hr) e hef h1 ▸ hr)
          · exact L.fresh r (List.mem_cons_of_mem _ hr) h1
      obtain ⟨g', e1, e2, e3, e4⟩ := ih h' wf' hsub' hnd''.2 hL
      refine ⟨g', ?_, e2, same_trans same' e3, ?_⟩
      · unfold substituteAll at e1 ⊢
        rw [List.foldlM_cons, st1 hFh, hm]
        exact e1
      · intro m
        rw [e4 m, hn m]
        constructor
        · rintro (⟨⟨h1 | h1, h2, h3⟩, h4⟩ | ⟨r, hr, h1, h2⟩)
          · exact Or.inr ⟨e, List.mem_cons_self, hF, h1⟩
          · refine Or.inl ⟨h1, fun r hr => ?_⟩
            rcases List.mem_cons.1 hr with rfl | hr
            · exact fun _ => ⟨h2, h3⟩
            · exact h4 r hr
          · exact Or.inr ⟨r, List.mem_cons_of_mem _ hr, h1, h2⟩
        · rintro (⟨h1, h2⟩ | ⟨r, hr, h1, h2⟩)
          · have := h2 e List.mem_cons_self hF
            exact Or.inl ⟨⟨Or.inr h1, this.1, this.2⟩, fun r hr => h2 r (List.mem_cons_of_mem _ hr)⟩
          · rcases List.mem_cons.1 hr with rfl | hr
            · left
              have hfr : ∀ x ∈ h.nodes, m ≠ x := fun x hx hmx => hcf (h2 ▸ hmx ▸ hx)
              refine ⟨⟨Or.inl h2, hfr _ (wfh.src _ heh), hfr _ (wfh.dst _ heh)⟩, fun s hs _ => ?_⟩
              have hsh := L.mem s (List.mem_cons_of_mem _ hs)
              exact ⟨hfr _ (wfh.src s hsh), hfr _ (wfh.dst s hsh)⟩
            · exact Or.inr ⟨r, hr, h1, h2⟩
    · have hFh : ¬ Foldable reused fold h e := fun hh => hF ((L.same e List.mem_cons_self).1 hh)
      obtain ⟨g', e1, e2, e3, e4⟩ := ih h wfh hsub' hnd''.2
        ⟨fun r hr => L.mem r (List.mem_cons_of_mem _ hr), fun r hr => L.same r (List.mem_cons_of_mem _ hr),
          fun r hr => L.out r (List.mem_cons_of_mem _ hr), L.ins, fun r hr => L.fresh r (List.mem_cons_of_mem _ hr)⟩
      refine ⟨g', ?_, e2, e3, ?_⟩
      · unfold substituteAll at e1 ⊢
        rw [List.foldlM_cons, st2 hFh]
        exact e1
      · intro m
        rw [e4 m]
        constructor
        · rintro (⟨h1, h2⟩ | ⟨r, hr, h1, h2⟩)
          · refine Or.inl ⟨h1, fun r hr => ?_⟩
            rcases List.mem_cons.1 hr with rfl | hr
            · exact fun hh => absurd hh hF
            · exact h2 r hr
          · exact Or.inr ⟨r, List.mem_cons_of_mem _ hr, h1, h2⟩
        · rintro (⟨h1, h2⟩ | ⟨r, hr, h1, h2⟩)
          · exact Or.inl ⟨h1, fun r hr => h2 r (List.mem_cons_of_mem _ hr)⟩
          · rcases List.mem_cons.1 hr with rfl | hr
            · exact absurd h1 hF
            · exact Or.inr ⟨r, hr, h1, h2⟩

/-- **C148**, the first folding: the kinds of the two layers are different, so no match is in the way of another. Every
order of the edges. -/
theorem C148_kinds {g : Gr N} (wf : WellFormed g) (reused fold : Edge N → Bool) (c : Edge N → N) (p q : N → Bool)
    (hpq : ∀ n, p n = true → q n = false) {found : List (Edge N)} (hf : found.Perm (edgeFilter g p q))
    (hfresh : ∀ e ∈ found, c e ∉ g.nodes) (hinj : ∀ e ∈ found, ∀ r ∈ found, c e = c r → e = r)
    (hsafe : ∀ e ∈ found, Foldable reused fold g e → ¬ IsOutput g e.src ∧ e.src ∉ g.inputs)
    {I : Interp N V} (hI : ∀ e ∈ found, Foldable reused fold g e → ∀ args k, I (c e) args k = I e.dst [I e.src args e.si] k) :
    ∃ g', substituteAll (foldMatch reused fold c) found g = some g' ∧ WellFormed g' ∧ SameFunction g I g' I ∧
      ∀ e ∈ g.edges, p e.src = true → q e.dst = true → Foldable reused fold g e →
        e.src ∉ g'.nodes ∧ e.dst ∉ g'.nodes ∧ c e ∈ g'.nodes := by
  have hmem : ∀ e, e ∈ found ↔ e ∈ g.edges ∧ p e.src = true ∧ q e.dst = true := by
    intro e
    rw [hf.mem_iff, (C79_nodes_edges g p q).2]
  have hnde : g.edges.Nodup := by
    rw [List.nodup_iff_count_le_one]
    intro e
    by_contra hcount
    have h2 : 2 ≤ g.edges.count e := by omega
    have hsub : (List.replicate 2 e).Sublist g.edges := List.replicate_sublist_iff.2 h2
    have := (hsub.filter (fun r => decide (r.dst = e.dst))).map Edge.di
    have := this.nodup (wf.slots e.dst)
    simp [List.replicate] at this
  obtain ⟨g', h1, h2, h3, h4⟩ := C148_folding_partial wf reused fold c (found := found) (fun e he => ((hmem e).1 he).1)
    (hf.nodup_iff.2 (hnde.filter _)) hfresh hinj (by
      intro e he _ r hr
      obtain ⟨_, e1, e2⟩ := (hmem e).1 he
      obtain ⟨_, r1, r2⟩ := (hmem r).1 hr
      constructor
      · intro h; rw [h] at r1; rw [hpq _ r1] at e2; exact absurd e2 (by simp)
      · intro h; rw [h] at r2; rw [hpq _ e1] at r2; exact absurd r2 (by simp)) hsafe hI
  refine ⟨g', h1, h2, h3, fun e he hp hq hF => ?_⟩
  have hef := (hmem e).2 ⟨he, hp, hq⟩
  refine ⟨fun h => ?_, fun h => ?_, (h4 _).2 (Or.inr ⟨e, hef, hF, rfl⟩)⟩
  · rcases (h4 _).1 h with h5 | ⟨r, hr, _, h5⟩
    · exact (h5.2 e hef hF).1 rfl
    · exact hfresh r hr (h5 ▸ wf.src e he)
  · rcases (h4 _).1 h with h5 | ⟨r, hr, _, h5⟩
    · exact (h5.2 e hef hF).2 rfl
    · exact hfresh r hr (h5 ▸ wf.dst e he)

/-! ### Consecutive matches -/

/-- What holds at every point of a pass. -/
structure Inv (c : Edge N → N) (g h : Gr N) (rest : List (Edge N)) : Prop where
  wf : WellFormed h
  ins : h.inputs = g.inputs
  fresh : ∀ s ∈ rest, c s ∉ h.nodes
  count : ∀ x ∈ h.nodes, x ∈ g.nodes → (edgesFrom h x).length = (edgesFrom g x).length ∧
    (edgesInto h x).length = (edgesInto g x).length ∧ (IsOutput h x ↔ IsOutput g x)
  kept : ∀ s ∈ rest, s.src ∈ h.nodes → s.dst ∈ h.nodes → s ∈ h.edges

theorem Inv.tail {c : Edge N → N} {g h : Gr N} {s : Edge N} {rest : List (Edge N)} (i : Inv c g h (s :: rest)) :
    Inv c g h rest :=
  ⟨i.wf, i.ins, fun r hr => i.fresh r (List.mem_cons_of_mem _ hr), i.count,
    fun r hr => i.kept r (List.mem_cons_of_mem _ hr)⟩

/-- A match whose layer is gone changes nothing. -/
theorem foldMatch_gone (reused fold : Edge N → Bool) (c : Edge N → N) (h : Gr N) (s : Edge N)
    (hg : s.src ∉ h.nodes ∨ s.dst ∉ h.nodes) :
    foldMatch reused fold c h s = none ∨ foldMatch reused fold c h s = some h := by
  unfold foldMatch
  split_ifs with h1 h2 h3 h4 h5 h6
  all_goals first | exact Or.inl rfl | exact Or.inr rfl | skip
  all_goals rcases hg with hg | hg
  all_goals exact absurd ‹_› hg

section
variable {g : Gr N} (wf : WellFormed g) (reused fold : Edge N → Bool) (c : Edge N → N) {found : List (Edge N)}
  (hmem : ∀ e ∈ found, e ∈ g.edges) (hfresh : ∀ e ∈ found, c e ∉ g.nodes)
  (hinj : ∀ e ∈ found, ∀ r ∈ found, c e = c r → e = r)
  (hsafe : ∀ e ∈ found, Foldable reused fold g e → ¬ IsOutput g e.src ∧ e.src ∉ g.inputs)

include wf hmem hfresh hinj hsafe

/-- One step of the pass. -/
theorem step_inv {h h' : Gr N} {s : Edge N} {rest : List (Edge N)} (hsub : ∀ r ∈ s :: rest, r ∈ found)
    (hnd : (s :: rest).Nodup) (i : Inv c g h (s :: rest)) (hs : foldMatch reused fold c h s = some h') :
    Inv c g h' rest ∧ (∀ m ∈ h'.nodes, m ∈ h.nodes ∨ m = c s) ∧
      (Foldable reused fold g s → s.src ∈ h.nodes → s.dst ∈ h.nodes → s.src ∉ h'.nodes ∧ s.dst ∉ h'.nodes) := by
  have hsf := hsub s List.mem_cons_self
  have hsg := hmem s hsf
  by_cases hin : s.src ∈ h.nodes ∧ s.dst ∈ h.nodes
  · have hse := i.kept s List.mem_cons_self hin.1 hin.2
    obtain ⟨st1, st2⟩ := foldMatch_of_mem reused fold c i.wf hse
    have hiff : Foldable reused fold h s ↔ Foldable reused fold g s := by
      rw [foldable_iff_length hse, foldable_iff_length hsg, (i.count _ hin.1 (wf.src s hsg)).1,
        (i.count _ hin.2 (wf.dst s hsg)).2.1]
    by_cases hF : Foldable reused fold h s
    · rw [st1 hF] at hs
      have hsa := hsafe s hsf (hiff.1 hF)
      have hao : ¬ IsOutput h s.src := fun hh => hsa.1 ((i.count _ hin.1 (wf.src s hsg)).2.2.1 hh)
      have hai : s.src ∉ h.inputs := by rw [i.ins]; exact hsa.2
      have hcf := i.fresh s List.mem_cons_self
      obtain ⟨h'', R, hm, M⟩ := mergePair_result i.wf (a := s.src) (b := s.dst) hF.2.2.1 hF.2.2.2 hcf (not_output hao) hai
      rw [hm] at hs
      injection hs with hs
      subst hs
      obtain ⟨_, _, _, _, _, _, _, hn⟩ := M.facts i.wf hcf
      refine ⟨⟨M.wf i.wf hcf (not_output hao) hai, M.inputs.trans i.ins, ?_, ?_, ?_⟩, ?_, ?_⟩
      · intro r hr hcr
        have hrf := hsub r (List.mem_cons_of_mem _ hr)
        rcases ((hn _).1 hcr).1 with h1 | h1
        · exact (List.nodup_cons.1 hnd).1 (hinj r hrf s hsf h1 ▸ hr)
        · exact i.fresh r (List.mem_cons_of_mem _ hr) h1
      · intro x hx hxg
        obtain ⟨h1, h2, h3⟩ := (hn x).1 hx
        have hxh : x ∈ h.nodes := by
          rcases h1 with rfl | h1
          · exact absurd hxg (hfresh s hsf)
          · exact h1
        obtain ⟨o1, o2, _, o4⟩ := M.other i.wf hcf hxh h2 h3
        obtain ⟨c1, c2, c3⟩ := i.count x hxh hxg
        exact ⟨o1.trans c1, o2.trans c2, o4.trans c3⟩
      · intro r hr hrs hrd
        have hrf := hsub r (List.mem_cons_of_mem _ hr)
        have hrg := hmem r hrf
        obtain ⟨a1, a2, a3⟩ := (hn _).1 hrs
        obtain ⟨b1, b2, b3⟩ := (hn _).1 hrd
        have a1 : r.src ∈ h.nodes := a1.resolve_left fun hh => hfresh s hsf (hh ▸ wf.src r hrg)
        have b1 : r.dst ∈ h.nodes := b1.resolve_left fun hh => hfresh s hsf (hh ▸ wf.dst r hrg)
        exact (M.other i.wf hcf a1 a2 a3).2.2.1 r (i.kept r (List.mem_cons_of_mem _ hr) a1 b1) rfl b2
      · intro m hm'
        exact ((hn m).1 hm').1.symm
      · intro _ _ _
        exact ⟨fun hh => ((hn _).1 hh).2.1 rfl, fun hh => ((hn _).1 hh).2.2 rfl⟩
    · rw [st2 hF] at hs
      injection hs with hs
      subst hs
      exact ⟨i.tail, fun m hm => Or.inl hm, fun hh => absurd (hiff.2 hh) hF⟩
  · have hg : s.src ∉ h.nodes ∨ s.dst ∉ h.nodes := by
      by_cases h1 : s.src ∈ h.nodes
      · exact Or.inr fun h2 => hin ⟨h1, h2⟩
      · exact Or.inl h1
    rcases foldMatch_gone reused fold c h s hg with h1 | h1
    · rw [h1] at hs; exact absurd hs (by simp)
    · rw [h1] at hs
      injection hs with hs
      subst hs
      exact ⟨i.tail, fun m hm => Or.inl hm, fun _ h2 h3 => absurd ⟨h2, h3⟩ hin⟩

/-- A match that is not skipped and whose layer is gone stops the pass. -/
theorem fails_of_gone {t : Edge N} (ht : reused t = false) (hone : (edgesFrom g t.src).length ≤ 1) :
    ∀ (rest : List (Edge N)) (h : Gr N), (∀ r ∈ rest, r ∈ found) → rest.Nodup → Inv c g h rest → t ∈ rest →
      (t.src ∉ h.nodes ∨ t.dst ∉ h.nodes) → substituteAll (foldMatch reused fold c) rest h = none := by
  intro rest
  induction rest with
  | nil => intro h _ _ _ hm; exact absurd hm (by simp)
  | cons s rest ih =>
    intro h hsub hnd i hm hg
    unfold substituteAll
    rw [List.foldlM_cons]
    rcases hstep : foldMatch reused fold c h s with _ | h'
    · rfl
    · obtain ⟨i', hn, _⟩ := step_inv wf reused fold c hmem hfresh hinj hsafe hsub hnd i hstep
      rcases List.mem_cons.1 hm with rfl | hm'
      · exfalso
        have htg := hmem t (hsub t List.mem_cons_self)
        unfold foldMatch at hstep
        rw [if_neg (by simp [ht])] at hstep
        by_cases h1 : t.src ∈ h.nodes
        · rw [if_neg (by simp [h1]), if_neg] at hstep
          · rcases hg with hg | hg
            · exact hg h1
            · rw [if_pos hg] at hstep; exact absurd hstep (by simp)
          · have : (nextNodes h t.src).length = (edgesFrom h t.src).length := by simp [nextNodes, outEdges, edgesFrom]
            rw [this, (i.count _ h1 (wf.src t htg)).1]
            omega
        · rw [if_pos h1] at hstep; exact absurd hstep (by simp)
      · have htg := hmem t (hsub t hm)
        have hsf := hfresh s (hsub s List.mem_cons_self)
        refine ih h' (fun r hr => hsub r (List.mem_cons_of_mem _ hr)) (List.nodup_cons.1 hnd).2 i' hm' ?_
        rcases hg with hg | hg
        · exact Or.inl fun hh => (hn _ hh).elim hg fun e => hsf (e ▸ wf.src t htg)
        · exact Or.inr fun hh => (hn _ hh).elim hg fun e => hsf (e ▸ wf.dst t htg)

/-- **C148 (violation).**  A match that is to be folded, and after it in the list a match with one of its layers that is
not skipped for reuse: the pass stops with an error, whatever the rest of the model is. This is so for a batch
normalisation, a convolution of size 1 and another layer the second folding looks at, in sequence. -/
theorem C148_chain_violated {l1 l2 : List (Edge N)} {e t : Edge N} (hfd : found = l1 ++ e :: l2) (hnd : found.Nodup)
    (hF : Foldable reused fold g e) (htl : t ∈ l2) (ht : reused t = false) (hone : (edgesFrom g t.src).length ≤ 1)
    (hshare : t.src = e.dst ∨ t.dst = e.src) :
    substituteAll (foldMatch reused fold c) found g = none := by
  suffices H : ∀ (l1 : List (Edge N)) (h : Gr N), (∀ r ∈ l1 ++ e :: l2, r ∈ found) → (l1 ++ e :: l2).Nodup →
      Inv c g h (l1 ++ e :: l2) → substituteAll (foldMatch reused fold c) (l1 ++ e :: l2) h = none by
    have := H l1 g (fun r hr => hfd ▸ hr) (hfd ▸ hnd)
      ⟨wf, rfl, fun s hs => hfresh s (hfd ▸ hs), fun _ _ _ => ⟨rfl, rfl, Iff.rfl⟩,
        fun s hs _ _ => hmem s (hfd ▸ hs)⟩
    rwa [← hfd] at this
  intro l1
  induction l1 with
  | nil =>
    intro h hsub hnd i
    by_cases hin : e.src ∈ h.nodes ∧ e.dst ∈ h.nodes
    · unfold substituteAll
      rw [List.nil_append, List.foldlM_cons]
      rcases hstep : foldMatch reused fold c h e with _ | h'
      · rfl
      · obtain ⟨i', _, hgone⟩ := step_inv wf reused fold c hmem hfresh hinj hsafe hsub hnd i hstep
        have := hgone hF hin.1 hin.2
        refine fails_of_gone wf reused fold c hmem hfresh hinj hsafe ht hone l2 h'
          (fun r hr => hsub r (List.mem_cons_of_mem _ hr)) (List.nodup_cons.1 hnd).2 i' htl ?_
        rcases hshare with h1 | h1
        · exact Or.inl (h1 ▸ this.2)
        · exact Or.inr (h1 ▸ this.1)
    · refine fails_of_gone wf reused fold c hmem hfresh hinj hsafe hF.1 (by rw [hF.2.2.1]; simp) _ h hsub hnd i
        List.mem_cons_self ?_
      by_cases h1 : e.src ∈ h.nodes
      · exact Or.inr fun h2 => hin ⟨h1, h2⟩
      · exact Or.inl h1
  | cons s l1 ih =>
    intro h hsub hnd i
    unfold substituteAll
    rw [List.cons_append, List.foldlM_cons]
    rcases hstep : foldMatch reused fold c h s with _ | h'
    · rfl
    · obtain ⟨i', _, _⟩ := step_inv wf reused fold c hmem hfresh hinj hsafe hsub hnd i hstep
      exact ih h' (fun r hr => hsub r (List.mem_cons_of_mem _ hr)) (List.nodup_cons.1 hnd).2 i'

end

/-! ### Identity layers -/

/-- **C148**, the removal of the identity layers: all of them in one pass, also when they follow each other, share
consumers or are outputs of the model. Each has one output, and reads the first output of the layer before it. -/
theorem C148_identities_partial {g : Gr N} (wf : WellFormed g) {found : List N} (hnd : found.Nodup)
    (hmem : ∀ n ∈ found, n ∈ g.nodes) (hsi : ∀ r ∈ g.edges, r.src ∈ found ∨ r.dst ∈ found → r.si = 0)
    (hout : ∀ o ∈ g.outputs, o.1 ∈ found → o.2 = 0) {I : Interp N V} (hI : ∀ n ∈ found, ∀ x, I n [x] 0 = x) :
    ∃ g', substituteAll removeIdentity found g = some g' ∧ WellFormed g' ∧ SameFunction g I g' I ∧
      ∀ m, m ∈ g'.nodes ↔ m ∈ g.nodes ∧ ¬ (m ∈ found ∧ (edgesInto g m).length = 1) := by
  suffices H : ∀ (rest : List N) (h : Gr N), WellFormed h → (∀ n ∈ rest, n ∈ found) → rest.Nodup →
      (∀ n ∈ rest, n ∈ h.nodes) → (∀ r ∈ h.edges, r.src ∈ found ∨ r.dst ∈ found → r.si = 0) →
      (∀ o ∈ h.outputs, o.1 ∈ found → o.2 = 0) →
      (∀ n ∈ rest, (edgesInto h n).length = (edgesInto g n).length) →
      ∃ g', substituteAll removeIdentity rest h = some g' ∧ WellFormed g' ∧ SameFunction h I g' I ∧
        ∀ m, m ∈ g'.nodes ↔ m ∈ h.nodes ∧ ¬ (m ∈ rest ∧ (edgesInto g m).length = 1) by
    exact H found g wf (fun _ h => h) hnd hmem hsi hout fun _ _ => rfl
  intro rest
  induction rest with
  | nil => intro h wfh _ _ _ _ _ _; exact ⟨h, rfl, wfh, fun _ _ => Iff.rfl, by simp⟩
  | cons n rest ih =>
    intro h wfh hsub hnd' hin hsi' hout' hcnt
    have hnr := List.nodup_cons.1 hnd'
    have hnf := hsub n List.mem_cons_self
    by_cases hl : (edgesInto h n).length = 1
    · obtain ⟨e, he⟩ := List.length_eq_one_iff.1 hl
      have hee : e ∈ edgesInto h n := by rw [he]; exact List.mem_singleton.2 rfl
      obtain ⟨heh, hed⟩ := List.mem_filter.1 hee
      have hed : e.dst = n := by simpa using hed
      obtain ⟨h1, hm1, wf1, same1, _, _⟩ := C29_identity_removal_partial wfh he
        (hsi' e heh (Or.inr (hed ▸ hnf))) (hI n hnf)
        ⟨fun r hr => hsi' r (List.mem_filter.1 hr).1 (Or.inl (by
          have : r.src = n := by simpa using (List.mem_filter.1 hr).2
          rw [this]; exact hnf)), fun k hk => hout' (n, k) hk hnf⟩
      obtain ⟨h2, R, hm2, hp, hR, hn', _, ho', he'⟩ := removeIdentity_result wfh (show inEdges h n = [e] from he)
      rw [hm1] at hm2
      injection hm2 with hm2
      subst hm2
      have hRh := (perm_tail hp).2
      obtain ⟨g', e1, e2, e3, e4⟩ := ih h1 wf1 (fun m hm => hsub m (List.mem_cons_of_mem _ hm)) hnr.2
        (by
          intro m hm
          rw [hn', wfh.nodes.mem_erase_iff]
          exact ⟨fun hh => hnr.1 (hh ▸ hm), hin m (List.mem_cons_of_mem _ hm)⟩)
        (by
          intro r hr hh
          obtain ⟨r', hr', rfl⟩ := List.mem_map.1 (he'.mem_iff.1 hr)
          rw [moveSrc_si]
          by_cases h3 : r'.src = n
          · exact hsi' r' (hRh r' hr') (Or.inl (h3 ▸ hnf))
          · rw [moveSrc_src, if_neg h3, moveSrc_dst] at hh
            exact hsi' r' (hRh r' hr') hh)
        (by
          intro o ho hh
          rw [ho'] at ho
          obtain ⟨o', ho1, rfl⟩ := List.mem_map.1 ho
          split_ifs at hh ⊢ with h3
          · exact hout' o' ho1 (h3 ▸ hnf)
          · exact hout' o' ho1 hh)
        (by
          intro m hm
          rw [← hcnt m (List.mem_cons_of_mem _ hm)]
          unfold edgesInto
          rw [← List.countP_eq_length_filter, ← List.countP_eq_length_filter, he'.countP_eq, hp.countP_eq, List.countP_map,
            List.countP_cons]
          have : decide (e.dst = m) = false := by
            rw [hed]; simp only [decide_eq_false_iff_not]
            exact fun hh => hnr.1 (hh ▸ hm)
          rw [this]
          simp only [Bool.false_eq_true, if_false, Nat.add_zero]
          apply List.countP_congr
          intro r _
          simp)
      refine ⟨g', ?_, e2, same_trans same1 e3, ?_⟩
      · unfold substituteAll at e1 ⊢
        rw [List.foldlM_cons, hm1]
        exact e1
      · intro m
        rw [e4 m, hn', wfh.nodes.mem_erase_iff]
        have hg1 : (edgesInto g n).length = 1 := by rw [← hcnt n List.mem_cons_self]; exact hl
        constructor
        · rintro ⟨⟨h3, h4⟩, h5⟩
          refine ⟨h4, ?_⟩
          rintro ⟨h6, h7⟩
          rcases List.mem_cons.1 h6 with h6 | h6
          · exact h3 h6
          · exact h5 ⟨h6, h7⟩
        · rintro ⟨h3, h4⟩
          exact ⟨⟨fun hh => h4 ⟨hh ▸ List.mem_cons_self, hh ▸ hg1⟩, h3⟩,
            fun hh => h4 ⟨List.mem_cons_of_mem _ hh.1, hh.2⟩⟩
    · obtain ⟨g', e1, e2, e3, e4⟩ := ih h wfh (fun m hm => hsub m (List.mem_cons_of_mem _ hm)) hnr.2
        (fun m hm => hin m (List.mem_cons_of_mem _ hm)) hsi' hout' (fun m hm => hcnt m (List.mem_cons_of_mem _ hm))
      refine ⟨g', ?_, e2, e3, ?_⟩
      · unfold substituteAll at e1 ⊢
        rw [List.foldlM_cons, C29_other_left_alone hl]
        exact e1
      · intro m
        rw [e4 m]
        have hg1 : (edgesInto g n).length ≠ 1 := by rw [← hcnt n List.mem_cons_self]; exact hl
        constructor
        · rintro ⟨h3, h4⟩
          refine ⟨h3, ?_⟩
          rintro ⟨h6, h7⟩
          rcases List.mem_cons.1 h6 with h6 | h6
          · exact hg1 (h6 ▸ h7)
          · exact h4 ⟨h6, h7⟩
        · rintro ⟨h3, h4⟩
          exact ⟨h3, fun hh => h4 ⟨List.mem_cons_of_mem _ hh.1, hh.2⟩⟩

/-! ### Concrete cases -/

/-- An input 0, convolutions 1 and 3, batch normalisations 2 and 4, an addition 5 of both branches, convolution 6 read
twice, batch normalisation 7 on it, and the output 8. -/
def twoBranches : Gr Nat :=
  { nodes := [0, 1, 2, 3, 4, 5, 6, 7, 8],
    edges := [⟨0, 1, 0, 0⟩, ⟨0, 3, 0, 0⟩, ⟨1, 2, 0, 0⟩, ⟨3, 4, 0, 0⟩, ⟨2, 5, 0, 0⟩, ⟨4, 5, 0, 1⟩, ⟨5, 6, 0, 0⟩,
      ⟨6, 7, 0, 0⟩, ⟨6, 8, 0, 0⟩, ⟨7, 8, 0, 1⟩], inputs := [0], outputs := [(8, 0)] }

def convs : Nat → Bool := fun n => n == 1 || n == 3 || n == 6
def norms : Nat → Bool := fun n => n == 2 || n == 4 || n == 7

example : WellFormed twoBranches ∧ edgeFilter twoBranches convs norms = [⟨1, 2, 0, 0⟩, ⟨3, 4, 0, 0⟩, ⟨6, 7, 0, 0⟩] :=
  ⟨wf_of_check (rank := id) (by decide), by decide⟩

/-- The first two are folded, the third is left, as the convolution has another consumer. -/
example : (substituteAll (foldMatch (fun _ => false) (fun _ => true) (fun e => e.src + 10))
    (edgeFilter twoBranches convs norms) twoBranches).map Gr.nodes = some [0, 5, 6, 7, 8, 11, 13] := by decide

/-- A batch normalisation 1, a convolution 2 of size 1 and a convolution 3 in sequence: the pass stops. -/
def normConvConv : Gr Nat :=
  { nodes := [0, 1, 2, 3], edges := [⟨0, 1, 0, 0⟩, ⟨1, 2, 0, 0⟩, ⟨2, 3, 0, 0⟩], inputs := [0], outputs := [(3, 0)] }

example : WellFormed normConvConv ∧ Foldable (fun _ => false) (fun e => e.src == 1) normConvConv ⟨1, 2, 0, 0⟩ ∧
    edgeFilter normConvConv (fun n => n == 1 || n == 2) (fun n => n == 2 || n == 3) = [⟨1, 2, 0, 0⟩, ⟨2, 3, 0, 0⟩] ∧
    substituteAll (foldMatch (fun _ => false) (fun e => e.src == 1) (fun e => e.dst + 10))
      [⟨1, 2, 0, 0⟩, ⟨2, 3, 0, 0⟩] normConvConv = none :=
  ⟨wf_of_check (rank := id) (by decide), ⟨rfl, rfl, by decide, by decide⟩, by decide, by decide⟩

/-- **C148 (violation).**  Of two batch normalisations after a convolution only the first is folded, although the new
convolution and the second could be folded as well: the matches are not searched again. -/
theorem C148_once_violated : ∃ (g g' : Gr Nat), WellFormed g ∧
    edgeFilter g convs norms = [⟨1, 2, 0, 0⟩] ∧
    substituteAll (foldMatch (fun _ => false) (fun _ => true) (fun _ => 6)) (edgeFilter g convs norms) g = some g' ∧
    edgeFilter g' convs norms = [⟨6, 4, 0, 0⟩] ∧ Foldable (fun _ => false) (fun _ => true) g' ⟨6, 4, 0, 0⟩ :=
  ⟨{ nodes := [0, 1, 2, 4], edges := [⟨0, 1, 0, 0⟩, ⟨1, 2, 0, 0⟩, ⟨2, 4, 0, 0⟩], inputs := [0], outputs := [(4, 0)] },
    { nodes := [0, 4, 6], edges := [⟨6, 4, 0, 0⟩, ⟨0, 6, 0, 0⟩], inputs := [0], outputs := [(4, 0)] },
    wf_of_check (rank := id) (by decide), by decide, by decide, by decide, rfl, rfl, by decide, by decide⟩

/-- Three identity layers: two in sequence, one of them an output, and a third beside them. -/
def identities : Gr Nat :=
  { nodes := [0, 1, 2, 3, 4], edges := [⟨0, 1, 0, 0⟩, ⟨1, 2, 0, 0⟩, ⟨1, 3, 0, 0⟩, ⟨2, 4, 0, 0⟩, ⟨3, 4, 0, 1⟩],
    inputs := [0], outputs := [(4, 0), (2, 0)] }

example : WellFormed identities ∧ nodeFilter identities (fun n => 0 < n && n < 4) = [1, 2, 3] ∧
    substituteAll removeIdentity [1, 2, 3] identities = some
      { nodes := [0, 4], edges := [⟨0, 4, 0, 0⟩, ⟨0, 4, 0, 1⟩], inputs := [0], outputs := [(4, 0), (0, 0)] } :=
  ⟨wf_of_check (rank := id) (by decide), by decide, by decide⟩

end MCT.Graph
