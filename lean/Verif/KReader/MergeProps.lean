/- A graph in which a nested model is unrolled computes the same. -/
import Verif.KReader.Merge

namespace MCT.KReader

open MCT.Graph (Edge)

variable {O V : Type} {M : Path} {m : KModel O} {k : ℕ} {g h : KGraph O}

/-! ### Nodes -/

theorem eraseP_path {p : Path} : ∀ {l : List (GNode O)}, (l.map (·.path)).Nodup →
    l.eraseP (fun n => decide (n.path = p)) = l.filter fun n => decide (n.path ≠ p)
  | [], _ => rfl
  | n :: l, h => by
    rw [List.map_cons, List.nodup_cons] at h
    by_cases e : n.path = p
    · rw [List.eraseP_cons_of_pos (by simpa using e), List.filter_cons_of_neg (by simpa using e)]
      symm
      rw [List.filter_eq_self]
      intro x hx
      have : x.path ≠ p := fun e' => h.1 (List.mem_map.2 ⟨x, hx, e'.trans e.symm⟩)
      simpa using this
    · rw [List.eraseP_cons_of_neg (by simpa using e), List.filter_cons_of_pos (by simpa using e), eraseP_path h.2]

theorem removeNode_eq {p : Path} {l : List (GNode O)} (h : (l.map (·.path)).Nodup) (hp : p ∈ l.map (·.path)) :
    removeNode p l = some (l.filter fun n => decide (n.path ≠ p)) := by
  rw [removeNode, if_pos hp, eraseP_path h]

theorem nodup_filter_map {l : List (GNode O)} (h : (l.map (·.path)).Nodup) (q : GNode O → Bool) :
    ((l.filter q).map (·.path)).Nodup := h.sublist (List.filter_sublist.map _)

theorem removeNodes_eq : ∀ {ps : List Path} {l : List (GNode O)}, (l.map (·.path)).Nodup → ps.Nodup →
    (∀ p ∈ ps, p ∈ l.map (·.path)) → removeNodes ps l = some (l.filter fun n => decide (n.path ∉ ps))
  | [], l, _, _, _ => by simp [removeNodes]
  | p :: ps, l, h, hps, hm => by
    rw [List.nodup_cons] at hps
    rw [removeNodes, removeNode_eq h (hm p List.mem_cons_self), Option.bind_some,
      removeNodes_eq (nodup_filter_map h _) hps.2, List.filter_filter]
    · congr 1
      apply List.filter_congr
      intro x _
      by_cases e : x.path = p <;> simp [e]
    · intro q hq
      obtain ⟨n, hn, rfl⟩ := List.mem_map.1 (hm q (List.mem_cons_of_mem _ hq))
      refine List.mem_map.2 ⟨n, List.mem_filter.2 ⟨hn, ?_⟩, rfl⟩
      have : n.path ≠ p := fun e => hps.1 (e ▸ hq)
      simpa using this

/-- The nodes afterwards. -/
def specNodes (M : Path) (g h : KGraph O) : List (GNode O) :=
  (g.nodes ++ h.nodes).filter fun n => decide (n.path ≠ M) && decide (n.path ∉ h.inputs)

theorem Fits.allPaths (F : Fits M m k g h) : ((g.nodes ++ h.nodes).map (·.path)).Nodup := by
  rw [List.map_append, List.nodup_append]
  refine ⟨F.og.paths, F.ih.paths, ?_⟩
  rintro a ha b hb rfl
  exact F.disj a ha hb

theorem mergeNodes_eq (F : Fits M m k g h) : mergeNodes M g h = some (specNodes M g h) := by
  unfold mergeNodes
  have hN := F.allPaths
  rw [removeNodes_eq hN F.ih.inOnce, Option.bind_some, removeNode_eq (nodup_filter_map hN _), List.filter_filter]
  · rfl
  · obtain hn := F.node
    refine List.mem_map.2 ⟨_, List.mem_filter.2 ⟨List.mem_append_left _ hn, ?_⟩, rfl⟩
    have : M ∉ h.inputs := fun h' => F.disj _ F.M_mem (F.ih.inMem _ h')
    simpa using this
  · intro p hp
    rw [List.map_append]
    exact List.mem_append_right _ (F.ih.inMem p hp)

theorem mem_specNodes (F : Fits M m k g h) {n : GNode O} : n ∈ specNodes M g h ↔
    (n ∈ g.nodes ∧ n.path ≠ M) ∨ (n ∈ h.nodes ∧ n.path ∉ h.inputs) := by
  unfold specNodes
  rw [List.mem_filter, List.mem_append, Bool.and_eq_true, decide_eq_true_eq, decide_eq_true_eq]
  constructor
  · rintro ⟨h1 | h1, h2, h3⟩
    · exact Or.inl ⟨h1, h2⟩
    · exact Or.inr ⟨h1, h3⟩
  · rintro (⟨h1, h2⟩ | ⟨h1, h2⟩)
    · refine ⟨Or.inl h1, h2, fun h' => ?_⟩
      exact F.disj _ (List.mem_map.2 ⟨n, h1, rfl⟩) (F.ih.inMem _ h')
    · refine ⟨Or.inr h1, fun h' => ?_, h2⟩
      exact F.disj _ F.M_mem (h' ▸ List.mem_map.2 ⟨n, h1, rfl⟩)

theorem mem_specPaths (F : Fits M m k g h) {p : Path} : p ∈ (specNodes M g h).map (·.path) ↔
    (p ∈ g.nodes.map (·.path) ∧ p ≠ M) ∨ (p ∈ h.nodes.map (·.path) ∧ p ∉ h.inputs) := by
  simp only [List.mem_map, mem_specNodes F]
  constructor
  · rintro ⟨n, h1 | h1, rfl⟩
    · exact Or.inl ⟨⟨n, h1.1, rfl⟩, h1.2⟩
    · exact Or.inr ⟨⟨n, h1.1, rfl⟩, h1.2⟩
  · rintro (⟨⟨n, h1, rfl⟩, h2⟩ | ⟨⟨n, h1, rfl⟩, h2⟩)
    · exact ⟨n, Or.inl ⟨h1, h2⟩, rfl⟩
    · exact ⟨n, Or.inr ⟨h1, h2⟩, rfl⟩

/-! ### Edges -/

theorem rewOut_eq (F : Fits M m k g h) {e : Edge Path} (he : e ∈ g.edges) :
    (e.src ≠ M ∧ rewOut M h e = e) ∨
      (e.src = M ∧ ∃ o ∈ h.outputs, h.outputs[e.si]? = some o ∧ rewOut M h e = ⟨o.1, e.dst, o.2, e.di⟩) := by
  unfold rewOut
  by_cases hs : e.src = M
  · right
    rw [if_pos hs]
    have hk : e.si < h.outputs.length := by
      have := F.og.si e he _ F.node hs.symm
      rwa [← F.k_eq]
    obtain ⟨o, ho⟩ : ∃ o, h.outputs[e.si]? = some o := ⟨_, List.getElem?_eq_getElem hk⟩
    exact ⟨hs, o, List.mem_of_getElem? ho, ho, by rw [ho]⟩
  · left
    rw [if_neg hs]
    exact ⟨hs, rfl⟩

theorem rewIn_eq (F : Fits M m k g h) (x : Edge Path) :
    (x.src ∉ h.inputs ∧ rewIn M g h x = x) ∨
      (x.src ∈ h.inputs ∧ ∃ e ∈ g.edges, e.dst = M ∧ inAt M g (h.inputs.idxOf x.src) = some e ∧
        e.di = h.inputs.idxOf x.src ∧ rewIn M g h x = ⟨e.src, x.dst, e.si, x.di⟩) := by
  unfold rewIn
  by_cases hs : x.src ∈ h.inputs
  · right
    rw [if_pos hs]
    obtain ⟨e, he⟩ := exists_inAt F (List.idxOf_lt_length_of_mem hs)
    obtain ⟨h1, h2, h3⟩ := inAt_some he
    exact ⟨hs, e, h1, h2, he, h3, by rw [he]; rfl⟩
  · left
    rw [if_neg hs]
    exact ⟨hs, rfl⟩

theorem rewOut_dst (F : Fits M m k g h) {e : Edge Path} (he : e ∈ g.edges) :
    (rewOut M h e).dst = e.dst ∧ (rewOut M h e).di = e.di := by
  rcases rewOut_eq F he with ⟨-, h1⟩ | ⟨-, o, -, -, h1⟩ <;> rw [h1] <;> exact ⟨rfl, rfl⟩

theorem rewIn_dst (F : Fits M m k g h) (x : Edge Path) :
    (rewIn M g h x).dst = x.dst ∧ (rewIn M g h x).di = x.di := by
  rcases rewIn_eq F x with ⟨-, h1⟩ | ⟨-, e, -, -, -, -, h1⟩ <;> rw [h1] <;> exact ⟨rfl, rfl⟩

theorem mem_specEdges {e : Edge Path} : e ∈ specEdges M g h ↔
    (∃ x ∈ g.edges, x.dst ≠ M ∧ rewOut M h x = e) ∨ ∃ x ∈ h.edges, rewIn M g h x = e := by
  unfold specEdges
  rw [List.mem_append, List.mem_map, List.mem_map]
  simp only [List.mem_filter, decide_eq_true_eq, and_assoc]

/-- The edges to a node of the outer graph. -/
theorem filter_outer (F : Fits M m k g h) {es : List (Edge Path)} (hp : es.Perm (specEdges M g h)) {n : Path}
    (hn : n ∈ g.nodes.map (·.path)) (hM : n ≠ M) :
    (es.filter fun e => decide (e.dst = n)).Perm
      ((g.edges.filter fun e => decide (e.dst = n)).map (rewOut M h)) := by
  refine (hp.filter _).trans (List.Perm.of_eq ?_)
  unfold specEdges
  rw [List.filter_append, List.filter_map, List.filter_map]
  have h1 : (h.edges.filter ((fun e => decide (e.dst = n)) ∘ rewIn M g h)) = [] := by
    rw [List.filter_eq_nil_iff]
    intro x hx
    simp only [Function.comp_apply, decide_eq_true_eq, (rewIn_dst F x).1]
    intro e
    exact F.disj n hn (e ▸ F.ih.dst x hx)
  rw [h1, List.map_nil, List.append_nil, List.filter_filter]
  congr 1
  apply List.filter_congr
  intro x hx
  simp only [Function.comp_apply, (rewOut_dst F hx).1]
  by_cases e : x.dst = n <;> simp [e, hM]

/-- The edges to a node of the inner graph. -/
theorem filter_inner (F : Fits M m k g h) {es : List (Edge Path)} (hp : es.Perm (specEdges M g h)) {n : Path}
    (hn : n ∈ h.nodes.map (·.path)) :
    (es.filter fun e => decide (e.dst = n)).Perm
      ((h.edges.filter fun e => decide (e.dst = n)).map (rewIn M g h)) := by
  refine (hp.filter _).trans (List.Perm.of_eq ?_)
  unfold specEdges
  rw [List.filter_append, List.filter_map, List.filter_map]
  have h1 : ((g.edges.filter fun e => decide (e.dst ≠ M)).filter ((fun e => decide (e.dst = n)) ∘ rewOut M h)) = [] := by
    rw [List.filter_eq_nil_iff]
    intro x hx
    have hx' := (List.mem_filter.1 hx).1
    simp only [Function.comp_apply, decide_eq_true_eq, (rewOut_dst F hx').1]
    intro e
    exact F.disj _ (F.og.dst x hx') (e ▸ hn)
  rw [h1, List.map_nil, List.nil_append]
  congr 1
  apply List.filter_congr
  intro x _
  simp only [Function.comp_apply, (rewIn_dst F x).1]

theorem sort_map {A L : List (Edge Path)} {f : Edge Path → Edge Path} (hp : A.Perm (L.map f))
    (hd : ∀ x ∈ L, (f x).di = x.di) (hn : (L.map (·.di)).Nodup) :
    (A.insertionSort fun a b => a.di ≤ b.di) = (L.insertionSort fun a b => a.di ≤ b.di).map f := by
  have hA : (A.map (·.di)).Nodup := by
    have : (A.map (·.di)).Perm (L.map (·.di)) := by
      refine (hp.map _).trans (List.Perm.of_eq ?_)
      rw [List.map_map]
      exact List.map_congr_left hd
    exact this.nodup_iff.2 hn
  have p1 := List.perm_insertionSort (fun a b : Edge Path => a.di ≤ b.di) A
  have p2 := List.perm_insertionSort (fun a b : Edge Path => a.di ≤ b.di) L
  have hT : IsTrans (Edge Path) fun a b => a.di ≤ b.di := ⟨fun _ _ _ => Nat.le_trans⟩
  have hO : Std.Total (α := Edge Path) fun a b => a.di ≤ b.di := ⟨fun a b => Nat.le_total _ _⟩
  have hperm := p1.trans (hp.trans (p2.map f).symm)
  refine List.Perm.eq_of_pairwise (le := fun a b => a.di ≤ b.di) ?_
    (List.pairwise_insertionSort _ _) ?_ hperm
  · intro a b ha hb h1 h2
    have hb' := hperm.mem_iff.2 hb
    exact List.inj_on_of_nodup_map hA (p1.mem_iff.1 ha) (p1.mem_iff.1 hb') (Nat.le_antisymm h1 h2)
  · rw [List.pairwise_map]
    refine (List.pairwise_insertionSort (fun a b : Edge Path => a.di ≤ b.di) L).imp_of_mem ?_
    intro a b ha hb hab
    rw [hd a (p2.mem_iff.1 ha), hd b (p2.mem_iff.1 hb)]
    exact hab

theorem inEdges_outer (F : Fits M m k g h) {r : KGraph O} (hp : r.edges.Perm (specEdges M g h)) {n : Path}
    (hn : n ∈ g.nodes.map (·.path)) (hM : n ≠ M) : inEdges r n = (inEdges g n).map (rewOut M h) := by
  unfold inEdges
  exact sort_map (filter_outer F hp hn hM)
    (fun x hx => (rewOut_dst F (List.mem_filter.1 hx).1).2) (F.og.di n)

theorem inEdges_inner (F : Fits M m k g h) {r : KGraph O} (hp : r.edges.Perm (specEdges M g h)) {n : Path}
    (hn : n ∈ h.nodes.map (·.path)) : inEdges r n = (inEdges h n).map (rewIn M g h) := by
  unfold inEdges
  exact sort_map (filter_inner F hp hn) (fun x _ => (rewIn_dst F x).2) (F.ih.di n)

theorem mem_inEdges {n : Path} {e : Edge Path} : e ∈ inEdges g n ↔ e ∈ g.edges ∧ e.dst = n := by
  unfold inEdges
  rw [List.mem_insertionSort, List.mem_filter, decide_eq_true_eq]

/-- The sources of the in-edges of the model node, by index. -/
theorem inEdges_model (F : Fits M m k g h) : inEdges g M = (List.range h.inputs.length).filterMap (inAt M g) := by
  have hnd := F.og.di M
  have p1 := List.perm_insertionSort (fun a b : Edge Path => a.di ≤ b.di)
    (g.edges.filter fun e => decide (e.dst = M))
  have hT : IsTrans (Edge Path) fun a b => a.di ≤ b.di := ⟨fun _ _ _ => Nat.le_trans⟩
  have hO : Std.Total (α := Edge Path) fun a b => a.di ≤ b.di := ⟨fun a b => Nat.le_total _ _⟩
  have hsorted := List.pairwise_insertionSort (fun a b : Edge Path => a.di ≤ b.di)
    (g.edges.filter fun e => decide (e.dst = M))
  have hdi : (inEdges g M).map (·.di) = List.range h.inputs.length := by
    refine List.Perm.eq_of_pairwise (le := (· ≤ ·)) (fun a b _ _ => Nat.le_antisymm) ?_ ?_
      ((p1.map _).trans F.inDi)
    · rw [List.pairwise_map]; exact hsorted
    · exact List.pairwise_lt_range.imp Nat.le_of_lt
  rw [← hdi, List.filterMap_map]
  have : ∀ l : List (Edge Path), (∀ e ∈ l, e ∈ g.edges ∧ e.dst = M) →
      l.filterMap (inAt M g ∘ fun e => e.di) = l := by
    intro l hl
    induction l with
    | nil => rfl
    | cons a l ih =>
      have ha := hl a List.mem_cons_self
      rw [List.filterMap_cons]
      simp only [Function.comp_apply, inAt_of_mem F ha.1 ha.2]
      exact congrArg (a :: ·) (ih fun e he => hl e (List.mem_cons_of_mem _ he))
  exact (this _ fun e he => mem_inEdges.1 he).symm

/-- The arguments of the model node are the values of the sources, by index. -/
theorem args_model (F : Fits M m k g h) (τ : Path → ℕ → V) (i : ℕ) :
    (args τ g M)[i]? = (if i < h.inputs.length then inAt M g i else none).map fun e => τ e.src e.si := by
  unfold args
  rw [inEdges_model F, List.getElem?_map]
  congr 1
  have h1 : (List.range h.inputs.length).filterMap (inAt M g) =
      (List.range h.inputs.length).map fun i => (inAt M g i).getD ⟨[], [], 0, 0⟩ := by
    have : ∀ l : List ℕ, (∀ i ∈ l, i < h.inputs.length) →
        l.filterMap (inAt M g) = l.map fun i => (inAt M g i).getD ⟨[], [], 0, 0⟩ := by
      intro l hl
      induction l with
      | nil => rfl
      | cons a l ih =>
        obtain ⟨e, he⟩ := exists_inAt F (hl a List.mem_cons_self)
        rw [List.filterMap_cons]
        simp only [he, List.map_cons, Option.getD_some]
        rw [ih fun j hj => hl j (List.mem_cons_of_mem _ hj)]
    exact this _ fun i hi => List.mem_range.1 hi
  rw [h1]
  by_cases hi : i < h.inputs.length
  · obtain ⟨e, he⟩ := exists_inAt F hi
    rw [if_pos hi, List.getElem?_map, List.getElem?_range hi, Option.map_some, he, Option.getD_some]
  · rw [if_neg hi]
    exact List.getElem?_eq_none (by simpa using hi)

/-! ### The merged graph -/

/-- An output of the merged graph. -/
def rewOutput (M : Path) (h : KGraph O) (o : Path × ℕ) : Path × ℕ :=
  if o.1 = M then (h.outputs[o.2]?).getD o else o

theorem outputs_get (F : Fits M m k g h) {o : Path × ℕ} (ho : o ∈ g.outputs) (hM : o.1 = M) :
    ∃ q ∈ h.outputs, h.outputs[o.2]? = some q ∧ rewOutput M h o = q := by
  have hk : o.2 < h.outputs.length := by
    have := F.og.outK o ho _ F.node hM.symm
    rwa [← F.k_eq]
  refine ⟨h.outputs[o.2], List.getElem_mem _, List.getElem?_eq_getElem hk, ?_⟩
  simp [rewOutput, hM, List.getElem?_eq_getElem hk]

theorem mapM_some {A B : Type} {f : A → Option B} {c : A → B} :
    ∀ {l : List A}, (∀ a ∈ l, f a = some (c a)) → l.mapM f = some (l.map c)
  | [], _ => rfl
  | a :: l, h => by
    rw [List.mapM_cons, h a List.mem_cons_self, mapM_some fun b hb => h b (List.mem_cons_of_mem _ hb)]
    rfl

theorem mergeOutputs_eq (F : Fits M m k g h) : mergeOutputs M g h = some (g.outputs.map (rewOutput M h)) := by
  unfold mergeOutputs
  apply mapM_some
  intro o ho
  by_cases hM : o.1 = M
  · obtain ⟨q, -, h1, h2⟩ := outputs_get F ho hM
    rw [if_pos hM, h1, h2]
  · rw [if_neg hM]
    simp [rewOutput, hM]

/-- The ends of the edges afterwards. -/
theorem spec_ends (F : Fits M m k g h) {e : Edge Path} (he : e ∈ specEdges M g h) :
    e.src ∈ (specNodes M g h).map (·.path) ∧ e.dst ∈ (specNodes M g h).map (·.path) := by
  rw [mem_specPaths F, mem_specPaths F]
  rcases mem_specEdges.1 he with ⟨x, hx, hd, rfl⟩ | ⟨x, hx, rfl⟩
  · rcases rewOut_eq F hx with ⟨h1, h2⟩ | ⟨-, o, ho, -, h2⟩
    · rw [h2]
      exact ⟨Or.inl ⟨F.og.src x hx, h1⟩, Or.inl ⟨F.og.dst x hx, hd⟩⟩
    · rw [h2]
      exact ⟨Or.inr ⟨F.ih.outMem o ho, F.fresh o ho⟩, Or.inl ⟨F.og.dst x hx, hd⟩⟩
  · have hdst := F.ih.dst x hx
    have hdin := F.ih.dstIn x hx
    rcases rewIn_eq F x with ⟨h1, h2⟩ | ⟨-, e, he1, he2, -, -, h2⟩
    · rw [h2]
      exact ⟨Or.inr ⟨F.ih.src x hx, h1⟩, Or.inr ⟨hdst, hdin⟩⟩
    · rw [h2]
      exact ⟨Or.inl ⟨F.og.src e he1, fun e' => F.og.loop e he1 (e'.trans he2.symm)⟩, Or.inr ⟨hdst, hdin⟩⟩

theorem merge_eq (F : Fits M m k g h) : ∃ es, es.Perm (specEdges M g h) ∧
    merge M g h = some ⟨specNodes M g h, es, g.inputs, g.outputs.map (rewOutput M h)⟩ := by
  obtain ⟨es, h1, h2⟩ := mergeEdges_perm F
  refine ⟨es, h2, ?_⟩
  unfold merge
  rw [mergeNodes_eq F, Option.bind_some, mergeOutputs_eq F, Option.bind_some, h1, Option.map_some]
  congr 2
  have : ((g.nodes ++ h.nodes).filter fun n => decide (n.path ∉ (specNodes M g h).map (·.path) ∧
      n.path ∈ es.map (·.src) ++ es.map (·.dst))) = [] := by
    rw [List.filter_eq_nil_iff]
    intro n _
    rw [decide_eq_true_eq]
    rintro ⟨h3, h4⟩
    rcases List.mem_append.1 h4 with h5 | h5
    · obtain ⟨e, he, heq⟩ := List.mem_map.1 h5
      exact h3 (heq ▸ (spec_ends F (h2.mem_iff.1 he)).1)
    · obtain ⟨e, he, heq⟩ := List.mem_map.1 h5
      exact h3 (heq ▸ (spec_ends F (h2.mem_iff.1 he)).2)
  rw [this, List.append_nil]

/-- The merged graph is well-formed. -/
theorem merge_good (F : Fits M m k g h) {es : List (Edge Path)} (hp : es.Perm (specEdges M g h)) :
    Good (⟨specNodes M g h, es, g.inputs, g.outputs.map (rewOutput M h)⟩ : KGraph O) where
  paths := nodup_filter_map F.allPaths _
  inMem i hi := (mem_specPaths F).2 (Or.inl ⟨F.og.inMem i hi, fun e => F.notIn (e ▸ hi)⟩)
  inOnce := F.og.inOnce
  src e he := (spec_ends F (hp.mem_iff.1 he)).1
  dst e he := (spec_ends F (hp.mem_iff.1 he)).2
  dstIn e he hi := by
    rcases mem_specEdges.1 (hp.mem_iff.1 he) with ⟨x, hx, -, rfl⟩ | ⟨x, hx, rfl⟩
    · rw [(rewOut_dst F hx).1] at hi
      exact F.og.dstIn x hx hi
    · rw [(rewIn_dst F x).1] at hi
      exact F.disj _ (F.og.inMem _ hi) (F.ih.dst x hx)
  loop e he := by
    rcases mem_specEdges.1 (hp.mem_iff.1 he) with ⟨x, hx, hd, rfl⟩ | ⟨x, hx, rfl⟩
    · rcases rewOut_eq F hx with ⟨-, h2⟩ | ⟨-, o, ho, -, h2⟩
      · rw [h2]; exact F.og.loop x hx
      · rw [h2]
        intro e'
        have e' : o.1 = x.dst := e'
        exact F.disj _ (F.og.dst x hx) (e' ▸ F.ih.outMem o ho)
    · rcases rewIn_eq F x with ⟨-, h2⟩ | ⟨-, e, he1, -, -, -, h2⟩
      · rw [h2]; exact F.ih.loop x hx
      · rw [h2]
        intro e'
        have e' : e.src = x.dst := e'
        exact F.disj _ (F.og.src e he1) (e' ▸ F.ih.dst x hx)
  di n := by
    by_cases hg : n ∈ g.nodes.map (·.path) ∧ n ≠ M
    · have h1 := (filter_outer F hp hg.1 hg.2).map (·.di)
      refine h1.nodup_iff.2 ?_
      rw [List.map_map]
      refine (List.Perm.of_eq (List.map_congr_left fun x hx => ?_)).nodup_iff.2 (F.og.di n)
      exact (rewOut_dst F (List.mem_filter.1 hx).1).2
    · by_cases hh : n ∈ h.nodes.map (·.path)
      · have h1 := (filter_inner F hp hh).map (·.di)
        refine h1.nodup_iff.2 ?_
        rw [List.map_map]
        refine (List.Perm.of_eq (List.map_congr_left fun x _ => ?_)).nodup_iff.2 (F.ih.di n)
        exact (rewIn_dst F x).2
      · have : es.filter (fun e => decide (e.dst = n)) = [] := by
          rw [List.filter_eq_nil_iff]
          intro x hx
          rw [decide_eq_true_eq]
          rintro rfl
          rcases (mem_specPaths F).1 (spec_ends F (hp.mem_iff.1 hx)).2 with h' | h'
          · exact hg h'
          · exact hh h'.1
        show ((es.filter _).map _).Nodup
        rw [this]
        exact List.nodup_nil
  simple a ha b hb h1 h2 h3 := by
    have ha' := mem_specEdges.1 (hp.mem_iff.1 ha)
    have hb' := mem_specEdges.1 (hp.mem_iff.1 hb)
    rcases ha' with ⟨x, hx, hxd, rfl⟩ | ⟨x, hx, rfl⟩ <;> rcases hb' with ⟨y, hy, hyd, rfl⟩ | ⟨y, hy, rfl⟩
    · rw [(rewOut_dst F hx).1, (rewOut_dst F hy).1] at h2
      rcases rewOut_eq F hx with ⟨xs, ex⟩ | ⟨xs, o, ho, hoi, ex⟩ <;>
        rcases rewOut_eq F hy with ⟨ys, ey⟩ | ⟨ys, q, hq, hqi, ey⟩
      · rw [ex, ey] at h1 h3
        rw [F.og.simple x hx y hy h1 h2 h3]
      · exfalso
        rw [ex, ey] at h1
        have h1 : x.src = q.1 := h1
        exact F.disj _ (F.og.src x hx) (h1 ▸ F.ih.outMem q hq)
      · exfalso
        rw [ex, ey] at h1
        have h1 : o.1 = y.src := h1
        exact F.disj _ (F.og.src y hy) (h1 ▸ F.ih.outMem o ho)
      · rw [ex, ey] at h1 h3
        have h1 : o.1 = q.1 := h1
        have h3 : o.2 = q.2 := h3
        have hoq : o = q := Prod.ext h1 h3
        subst hoq
        have hsi : x.si = y.si := by
          obtain ⟨hi, e1⟩ := List.getElem?_eq_some_iff.1 hoi
          obtain ⟨hj, e2⟩ := List.getElem?_eq_some_iff.1 hqi
          exact (F.outsOnce.getElem_inj_iff).1 (e1.trans e2.symm)
        rw [F.og.simple x hx y hy (xs.trans ys.symm) h2 hsi]
    · exfalso
      rw [(rewOut_dst F hx).1, (rewIn_dst F y).1] at h2
      exact F.disj _ (F.og.dst x hx) (h2 ▸ F.ih.dst y hy)
    · exfalso
      rw [(rewIn_dst F x).1, (rewOut_dst F hy).1] at h2
      exact F.disj _ (F.og.dst y hy) (h2 ▸ F.ih.dst x hx)
    · rw [(rewIn_dst F x).1, (rewIn_dst F y).1] at h2
      rcases rewIn_eq F x with ⟨xs, ex⟩ | ⟨xs, e, he1, he2, hei, hed, ex⟩ <;>
        rcases rewIn_eq F y with ⟨ys, ey⟩ | ⟨ys, f, hf1, hf2, hfi, hfd, ey⟩
      · rw [ex, ey] at h1 h3
        rw [F.ih.simple x hx y hy h1 h2 h3]
      · exfalso
        rw [ex, ey] at h1
        have h1 : x.src = f.src := h1
        exact F.disj _ (F.og.src f hf1) (h1 ▸ F.ih.src x hx)
      · exfalso
        rw [ex, ey] at h1
        have h1 : e.src = y.src := h1
        exact F.disj _ (F.og.src e he1) (h1 ▸ F.ih.src y hy)
      · rw [ex, ey] at h1 h3
        have h1 : e.src = f.src := h1
        have h3 : e.si = f.si := h3
        have hef : e = f := F.og.simple e he1 f hf1 h1 (he2.trans hf2.symm) h3
        subst hef
        have hsrc : x.src = y.src := by
          have h4 := get_idxOf xs
          have h5 := get_idxOf ys
          rw [← hed] at h4
          rw [← hfd] at h5
          rw [h4] at h5
          exact Option.some.inj h5
        have hsi : x.si = y.si := by rw [F.ih.inSi x hx xs, F.ih.inSi y hy ys]
        rw [F.ih.simple x hx y hy hsrc h2 hsi]
  inSi e he hi := by
    rcases mem_specEdges.1 (hp.mem_iff.1 he) with ⟨x, hx, hd, rfl⟩ | ⟨x, hx, rfl⟩
    · rcases rewOut_eq F hx with ⟨-, h2⟩ | ⟨-, o, ho, -, h2⟩
      · rw [h2] at hi ⊢; exact F.og.inSi x hx hi
      · rw [h2] at hi
        have hi : o.1 ∈ g.inputs := hi
        exact absurd (F.ih.outMem o ho) (F.disj _ (F.og.inMem _ hi))
    · rcases rewIn_eq F x with ⟨-, h2⟩ | ⟨-, e, he1, -, -, -, h2⟩
      · rw [h2] at hi
        exact absurd (F.ih.src x hx) (F.disj _ (F.og.inMem _ hi))
      · rw [h2] at hi ⊢
        exact F.og.inSi e he1 hi
  outMem o ho := by
    obtain ⟨q, hq, rfl⟩ := List.mem_map.1 ho
    rw [mem_specPaths F]
    by_cases hM : q.1 = M
    · obtain ⟨q', h1, -, h2⟩ := outputs_get F hq hM
      rw [h2]
      exact Or.inr ⟨F.ih.outMem _ h1, F.fresh _ h1⟩
    · simp only [rewOutput, if_neg hM]
      exact Or.inl ⟨F.og.outMem q hq, hM⟩
  arity n hn m' hm := by
    rcases (mem_specNodes F).1 hn with ⟨h1, h2⟩ | ⟨h1, h2⟩
    · obtain ⟨a1, a2⟩ := F.og.arity n h1 m' hm
      refine ⟨a1, ((filter_outer F hp (List.mem_map.2 ⟨n, h1, rfl⟩) h2).map (·.di)).trans ?_⟩
      rw [List.map_map]
      refine (List.Perm.of_eq (List.map_congr_left fun x hx => ?_)).trans a2
      exact (rewOut_dst F (List.mem_filter.1 hx).1).2
    · obtain ⟨a1, a2⟩ := F.ih.arity n h1 m' hm
      refine ⟨a1, ((filter_inner F hp (List.mem_map.2 ⟨n, h1, rfl⟩)).map (·.di)).trans ?_⟩
      rw [List.map_map]
      refine (List.Perm.of_eq (List.map_congr_left fun x _ => ?_)).trans a2
      exact (rewIn_dst F x).2
  si e he n hn hs := by
    rcases mem_specEdges.1 (hp.mem_iff.1 he) with ⟨x, hx, hd, rfl⟩ | ⟨x, hx, rfl⟩
    · rcases rewOut_eq F hx with ⟨-, h2⟩ | ⟨-, o, ho, -, h2⟩
      · rw [h2] at hs ⊢
        rcases (mem_specNodes F).1 hn with ⟨h1, -⟩ | ⟨h1, -⟩
        · exact F.og.si x hx n h1 hs
        · exact absurd (hs ▸ List.mem_map.2 ⟨n, h1, rfl⟩) (F.disj _ (F.og.src x hx))
      · rw [h2] at hs ⊢
        have hs : n.path = o.1 := hs
        rcases (mem_specNodes F).1 hn with ⟨h1, -⟩ | ⟨h1, -⟩
        · exact absurd (hs ▸ F.ih.outMem o ho) (F.disj _ (List.mem_map.2 ⟨n, h1, rfl⟩))
        · exact F.ih.outK o ho n h1 hs
    · rcases rewIn_eq F x with ⟨-, h2⟩ | ⟨-, e, he1, -, -, -, h2⟩
      · rw [h2] at hs ⊢
        rcases (mem_specNodes F).1 hn with ⟨h1, -⟩ | ⟨h1, -⟩
        · exact absurd (hs ▸ F.ih.src x hx) (F.disj _ (List.mem_map.2 ⟨n, h1, rfl⟩))
        · exact F.ih.si x hx n h1 hs
      · rw [h2] at hs ⊢
        have hs : n.path = e.src := hs
        rcases (mem_specNodes F).1 hn with ⟨h1, -⟩ | ⟨h1, -⟩
        · exact F.og.si e he1 n h1 hs
        · exact absurd (hs ▸ List.mem_map.2 ⟨n, h1, rfl⟩) (F.disj _ (F.og.src e he1))
  outK o ho n hn hs := by
    obtain ⟨q, hq, rfl⟩ := List.mem_map.1 ho
    by_cases hM : q.1 = M
    · obtain ⟨q', h1, -, h2⟩ := outputs_get F hq hM
      rw [h2] at hs ⊢
      rcases (mem_specNodes F).1 hn with ⟨h3, -⟩ | ⟨h3, -⟩
      · exact absurd (hs ▸ F.ih.outMem _ h1) (F.disj _ (List.mem_map.2 ⟨n, h3, rfl⟩))
      · exact F.ih.outK _ h1 n h3 hs
    · have e : rewOutput M h q = q := by simp [rewOutput, hM]
      rw [e] at hs ⊢
      rcases (mem_specNodes F).1 hn with ⟨h3, -⟩ | ⟨h3, -⟩
      · exact F.og.outK q hq n h3 hs
      · exact absurd (hs ▸ List.mem_map.2 ⟨n, h3, rfl⟩) (F.disj _ (F.og.outMem q hq))

/-- The merged graph computes the same. -/
theorem merge_runs (F : Fits M m k g h) {es : List (Edge Path)} (hp : es.Perm (specEdges M g h))
    {interp : O → List V → List V} (hm : ∀ xs ys, h.Runs interp xs ys ↔ m.Runs interp xs ys) (xs ys : List V) :
    (⟨specNodes M g h, es, g.inputs, g.outputs.map (rewOutput M h)⟩ : KGraph O).Runs interp xs ys ↔
      g.Runs interp xs ys := by
  set r : KGraph O := ⟨specNodes M g h, es, g.inputs, g.outputs.map (rewOutput M h)⟩ with hr
  have hp' : r.edges.Perm (specEdges M g h) := hp
  have hMin : M ∉ h.nodes.map (·.path) := F.disj _ F.M_mem
  constructor
  · rintro ⟨τ, t1, t2, t3⟩
    -- values of the outer and of the inner graph
    let τg : Path → ℕ → V := fun n s => if n = M then
      (match h.outputs[s]? with | some o => τ o.1 o.2 | none => τ M s) else τ n s
    let τh : Path → ℕ → V := fun n s => if n ∈ h.inputs then
      (match inAt M g (h.inputs.idxOf n) with | some e => τ e.src e.si | none => τ n s) else τ n s
    have gval : ∀ e ∈ g.edges, τ (rewOut M h e).src (rewOut M h e).si = τg e.src e.si := by
      intro e he
      rcases rewOut_eq F he with ⟨h1, h2⟩ | ⟨h1, o, -, h3, h2⟩
      · simp only [h2, τg, if_neg h1]
      · simp only [h2, τg, if_pos h1, h3]
    have hval : ∀ x ∈ h.edges, τ (rewIn M g h x).src (rewIn M g h x).si = τh x.src x.si := by
      intro x _
      rcases rewIn_eq F x with ⟨h1, h2⟩ | ⟨h1, e, -, -, h3, -, h2⟩
      · simp only [h2, τh, if_neg h1]
      · simp only [h2, τh, if_pos h1, h3]
    refine ⟨τg, ?_, ?_, ?_⟩
    · rw [← t1]
      apply List.map_congr_left
      intro i hi
      have : i ≠ M := fun e => F.notIn (e ▸ hi)
      simp only [τg, if_neg this]
    · rw [← t2]
      show g.outputs.map _ = (g.outputs.map (rewOutput M h)).map _
      rw [List.map_map]
      apply List.map_congr_left
      intro o ho
      by_cases hM : o.1 = M
      · obtain ⟨q, -, h1, h2⟩ := outputs_get F ho hM
        simp only [Function.comp_apply, h2, τg, if_pos hM, h1]
      · simp only [Function.comp_apply, rewOutput, τg, if_neg hM]
    · intro n hn hni
      by_cases hM : n.path = M
      · -- the model node: the inner graph runs
        have hnode : n = ⟨M, .model m, k⟩ := List.inj_on_of_nodup_map F.og.paths hn F.node hM
        subst hnode
        show m.Runs interp _ _
        rw [← hm]
        refine ⟨τh, ?_, ?_, ?_⟩
        · apply List.ext_getElem?
          intro i
          rw [args_model F, List.getElem?_map]
          by_cases hi : i < h.inputs.length
          · obtain ⟨e, he⟩ := exists_inAt F hi
            obtain ⟨e1, e2, -⟩ := inAt_some he
            have hne : e.src ≠ M := fun e' => F.og.loop e e1 (e'.trans e2.symm)
            rw [if_pos hi, he, List.getElem?_eq_getElem hi]
            simp only [Option.map_some, τh, if_pos (List.getElem_mem hi), F.ih.inOnce.idxOf_getElem i hi, he,
              τg, if_neg hne]
          · rw [if_neg hi, List.getElem?_eq_none (by omega)]
            rfl
        · apply List.ext_getElem?
          intro s
          rw [List.getElem?_map, List.getElem?_map]
          by_cases hs : s < h.outputs.length
          · have hs' : s < k := by rw [F.k_eq]; exact hs
            rw [List.getElem?_range hs', List.getElem?_eq_getElem hs]
            have hf := F.fresh _ (List.getElem_mem hs)
            simp only [Option.map_some, τh, if_neg hf, τg, if_true, List.getElem?_eq_getElem hs]
          · have hs' : ¬ s < k := by rw [F.k_eq]; exact hs
            rw [List.getElem?_eq_none (by omega), List.getElem?_eq_none (by simpa using hs')]
            rfl
        · intro n' hn' hni'
          have hin : n'.path ∈ h.nodes.map (·.path) := List.mem_map.2 ⟨n', hn', rfl⟩
          have := t3 n' ((mem_specNodes F).2 (Or.inr ⟨hn', hni'⟩)) fun h' =>
            F.disj _ (F.og.inMem _ h') hin
          have ea : args τ r n'.path = args τh h n'.path := by
            unfold args
            rw [inEdges_inner F hp' hin, List.map_map]
            exact List.map_congr_left fun x hx => hval x (mem_inEdges.1 hx).1
          rw [ea] at this
          have eo : τh n'.path = τ n'.path := by
            funext s
            simp only [τh, if_neg hni']
          rwa [eo]
      · have hgm : n.path ∈ g.nodes.map (·.path) := List.mem_map.2 ⟨n, hn, rfl⟩
        have := t3 n ((mem_specNodes F).2 (Or.inl ⟨hn, hM⟩)) hni
        have ea : args τ r n.path = args τg g n.path := by
          unfold args
          rw [inEdges_outer F hp' hgm hM, List.map_map]
          exact List.map_congr_left fun x hx => gval x (mem_inEdges.1 hx).1
        rw [ea] at this
        have eo : τg n.path = τ n.path := by
          funext s
          simp only [τg, if_neg hM]
        rwa [eo]
  · rintro ⟨τg, t1, t2, t3⟩
    have hM := t3 _ F.node F.notIn
    have hM : m.Runs interp (args τg g M) ((List.range k).map (τg M)) := hM
    rw [← hm] at hM
    obtain ⟨τh, s1, s2, s3⟩ := hM
    let τ : Path → ℕ → V := fun n s => if n ∈ h.nodes.map (·.path) then τh n s else τg n s
    have hg : ∀ p ∈ g.nodes.map (·.path), ∀ s, τ p s = τg p s := fun p hp s => by
      simp only [τ, if_neg (F.disj p hp)]
    have hh : ∀ p ∈ h.nodes.map (·.path), ∀ s, τ p s = τh p s := fun p hp s => by
      simp only [τ, if_pos hp]
    have hout : ∀ (s : ℕ) (o : Path × ℕ), h.outputs[s]? = some o → τh o.1 o.2 = τg M s := by
      intro s o ho
      have hs : s < k := by
        rw [F.k_eq]
        obtain ⟨hi, -⟩ := List.getElem?_eq_some_iff.1 ho
        exact hi
      have e1 : (h.outputs.map fun o => τh o.1 o.2)[s]? = some (τh o.1 o.2) := by
        rw [List.getElem?_map, ho]; rfl
      rw [s2, List.getElem?_map, List.getElem?_range hs] at e1
      exact (Option.some.inj e1).symm
    have hinp : ∀ (p : Path) (e : Edge Path), p ∈ h.inputs → inAt M g (h.inputs.idxOf p) = some e →
        τh p 0 = τg e.src e.si := by
      intro p e hp he
      have hi := List.idxOf_lt_length_of_mem hp
      have e1 : (h.inputs.map fun i => τh i 0)[h.inputs.idxOf p]? = some (τh p 0) := by
        rw [List.getElem?_map, get_idxOf hp]; rfl
      rw [s1, args_model F, if_pos hi, he] at e1
      exact (Option.some.inj e1).symm
    have gval : ∀ e ∈ g.edges, τ (rewOut M h e).src (rewOut M h e).si = τg e.src e.si := by
      intro e he
      rcases rewOut_eq F he with ⟨h1, h2⟩ | ⟨h1, o, ho, h3, h2⟩
      · rw [h2]; exact hg _ (F.og.src e he) _
      · rw [h2, h1]
        exact (hh _ (F.ih.outMem o ho) _).trans (hout _ _ h3)
    have hval : ∀ x ∈ h.edges, τ (rewIn M g h x).src (rewIn M g h x).si = τh x.src x.si := by
      intro x hx
      rcases rewIn_eq F x with ⟨h1, h2⟩ | ⟨h1, e, he, -, h3, -, h2⟩
      · rw [h2]; exact hh _ (F.ih.src x hx) _
      · rw [h2, F.ih.inSi x hx h1]
        exact (hg _ (F.og.src e he) _).trans (hinp _ _ h1 h3).symm
    refine ⟨τ, ?_, ?_, ?_⟩
    · rw [← t1]
      exact List.map_congr_left fun i hi => hg i (F.og.inMem i hi) 0
    · rw [← t2]
      show (g.outputs.map (rewOutput M h)).map _ = g.outputs.map _
      rw [List.map_map]
      apply List.map_congr_left
      intro o ho
      by_cases hM : o.1 = M
      · obtain ⟨q, hq, h1, h2⟩ := outputs_get F ho hM
        simp only [Function.comp_apply, h2]
        rw [hh _ (F.ih.outMem q hq), hout _ _ h1, hM]
      · simp only [Function.comp_apply, rewOutput, if_neg hM]
        exact hg _ (F.og.outMem o ho) _
    · intro n hn hni
      rcases (mem_specNodes F).1 hn with ⟨h1, h2⟩ | ⟨h1, h2⟩
      · have hgm : n.path ∈ g.nodes.map (·.path) := List.mem_map.2 ⟨n, h1, rfl⟩
        have := t3 n h1 hni
        have ea : args τ r n.path = args τg g n.path := by
          unfold args
          rw [inEdges_outer F hp' hgm h2, List.map_map]
          exact List.map_congr_left fun x hx => gval x (mem_inEdges.1 hx).1
        rw [ea]
        have eo : τ n.path = τg n.path := funext (hg _ hgm)
        rwa [eo]
      · have hin : n.path ∈ h.nodes.map (·.path) := List.mem_map.2 ⟨n, h1, rfl⟩
        have := s3 n h1 h2
        have ea : args τ r n.path = args τh h n.path := by
          unfold args
          rw [inEdges_inner F hp' hin, List.map_map]
          exact List.map_congr_left fun x hx => hval x (mem_inEdges.1 hx).1
        rw [ea]
        have eo : τ n.path = τh n.path := funext (hh _ hin)
        rwa [eo]

end MCT.KReader
