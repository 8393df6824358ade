/- The graph of a model in which nested models are nodes. -/
import Verif.KReader.MergeProps

namespace MCT.KReader

open MCT.Graph (Edge)

variable {O V : Type}

/-- What is known about the nodes in the connectivity handler. -/
structure HOk (ns : List (HNode O)) (ins outs : List ℕ) : Prop where
  paths : (ns.map (·.path)).Nodup
  uniq : ∀ n ∈ ns, ∀ n' ∈ ns, ∀ t, t ∈ n.outs → t ∈ n'.outs → n = n'
  outsNd : ∀ n ∈ ns, n.outs.Nodup
  insNd : ∀ n ∈ ns, n.ins.Nodup
  produced : ∀ n ∈ ns, ∀ t ∈ n.ins, ∃ n' ∈ ns, t ∈ n'.outs
  input : ∀ n ∈ ns, n.op.isInput = true → ∃ t ∈ ins, n.ins = [t] ∧ n.outs = [t]
  inputs : ∀ t ∈ ins, ∃ n ∈ ns, n.op.isInput = true ∧ n.outs = [t]
  insOnce : ins.Nodup
  loop : ∀ n ∈ ns, n.op.isInput = false → ∀ t ∈ n.ins, t ∉ n.outs
  outputs : ∀ t ∈ outs, ∃ n ∈ ns, t ∈ n.outs
  arity : ∀ n ∈ ns, ∀ m, n.op = .model m →
    n.ins.length = m.inputs.length ∧ n.outs.length = m.outputs.length

/-- Place and index of a tensor. -/
def place (ns : List (HNode O)) (t : ℕ) : Path × ℕ :=
  match producer ns t with
  | some n => (n.path, n.outs.idxOf t)
  | none => ([], 0)

variable {ns : List (HNode O)} {ins outs : List ℕ}

theorem get_idx' {A : Type} [DecidableEq A] {l : List A} {a : A} (h : a ∈ l) : l[l.idxOf a]? = some a := by
  rw [List.getElem?_eq_getElem (List.idxOf_lt_length_of_mem h), List.getElem_idxOf]

theorem HOk.inj (H : HOk ns ins outs) {a b : HNode O} (ha : a ∈ ns) (hb : b ∈ ns) (h : a.path = b.path) : a = b :=
  List.inj_on_of_nodup_map H.paths ha hb h

theorem HOk.nd (H : HOk ns ins outs) : ns.Nodup := List.Nodup.of_map _ H.paths

theorem producer_eq (H : HOk ns ins outs) {n : HNode O} {t : ℕ} (hn : n ∈ ns) (ht : t ∈ n.outs) :
    producer ns t = some n := by
  unfold producer
  cases h : ns.reverse.find? fun n => decide (t ∈ n.outs) with
  | none =>
    rw [List.find?_eq_none] at h
    exact absurd (by simpa using ht) (h n (List.mem_reverse.2 hn))
  | some n' =>
    have h1 := List.mem_reverse.1 (List.mem_of_find?_eq_some h)
    have h2 := List.find?_some h
    rw [decide_eq_true_eq] at h2
    rw [H.uniq n' h1 n hn t h2 ht]

theorem place_eq (H : HOk ns ins outs) {n : HNode O} {t : ℕ} (hn : n ∈ ns) (ht : t ∈ n.outs) :
    place ns t = (n.path, n.outs.idxOf t) := by
  rw [place, producer_eq H hn ht]

/-- Different tensors are at different places. -/
theorem place_inj (H : HOk ns ins outs) {a b : HNode O} {t u : ℕ} (ha : a ∈ ns) (hb : b ∈ ns) (ht : t ∈ a.outs)
    (hu : u ∈ b.outs) (h : place ns t = place ns u) : t = u := by
  rw [place_eq H ha ht, place_eq H hb hu, Prod.mk.injEq] at h
  have := H.inj ha hb h.1
  subst this
  exact (List.idxOf_inj ht).1 h.2

theorem filter_const {A : Type} (n : A) {t : ℕ} : ∀ {l : List ℕ}, l.Nodup →
    ((l.filter fun i => decide (i = t)).map fun _ => n) = if t ∈ l then [n] else []
  | [], _ => by simp
  | a :: l, h => by
    rw [List.nodup_cons] at h
    by_cases e : a = t
    · subst e
      have : (l.filter fun i => decide (i = a)) = [] := by
        rw [List.filter_eq_nil_iff]
        intro x hx
        rw [decide_eq_true_eq]
        rintro rfl
        exact h.1 hx
      simp [List.filter_cons, this]
    · rw [List.filter_cons_of_neg (by simpa using e), filter_const n h.2]
      have e' : t ≠ a := fun h => e h.symm
      simp [e']

theorem consumers_eq {t : ℕ} : ∀ {ns : List (HNode O)}, (∀ n ∈ ns, n.ins.Nodup) →
    consumers ns t = ns.filter fun n => decide (t ∈ n.ins)
  | [], _ => rfl
  | n :: l, h => by
    have ih := consumers_eq (t := t) fun x hx => h x (List.mem_cons_of_mem n hx)
    unfold consumers at ih ⊢
    rw [List.flatMap_cons, filter_const n (h n List.mem_cons_self), ih]
    by_cases e : t ∈ n.ins <;> simp [e]

theorem mem_consumers (H : HOk ns ins outs) {t : ℕ} {n : HNode O} : n ∈ consumers ns t ↔ n ∈ ns ∧ t ∈ n.ins := by
  rw [consumers_eq H.insNd, List.mem_filter, decide_eq_true_eq]

/-! ### Edges -/

theorem mem_getEdges (H : HOk ns ins outs) {e : Edge Path} : e ∈ getEdges ns ↔ ∃ s ∈ ns, ∃ d ∈ ns, ∃ t ∈ s.outs,
    t ∈ d.ins ∧ s.path ≠ d.path ∧ e = ⟨s.path, d.path, s.outs.idxOf t, d.ins.idxOf t⟩ := by
  unfold getEdges outEdgesOf
  simp only [List.mem_flatMap, List.mem_map, List.mem_filter, decide_eq_true_eq, mem_consumers H]
  constructor
  · rintro ⟨s, hs, t, ht, d, ⟨⟨h1, h2⟩, h3⟩, rfl⟩
    exact ⟨s, hs, d, h1, t, ht, h2, h3, rfl⟩
  · rintro ⟨s, hs, d, h1, t, ht, h2, h3, rfl⟩
    exact ⟨s, hs, t, ht, d, ⟨⟨h1, h2⟩, h3⟩, rfl⟩

theorem nodup_flatMap' {A B : Type} {l : List A} {f : A → List B} (h1 : l.Nodup) (h2 : ∀ x ∈ l, (f x).Nodup)
    (h3 : ∀ x ∈ l, ∀ y ∈ l, x ≠ y → ∀ b, b ∈ f x → b ∉ f y) : (l.flatMap f).Nodup := by
  rw [List.nodup_flatMap]
  refine ⟨h2, ?_⟩
  refine List.Pairwise.imp_of_mem ?_ h1
  intro a b ha hb hab x hx hx'
  exact h3 a ha b hb hab x hx hx'

theorem getEdges_nodup (H : HOk ns ins outs) : (getEdges ns).Nodup := by
  unfold getEdges
  refine nodup_flatMap' H.nd ?_ ?_
  · intro s hs
    unfold outEdgesOf
    refine nodup_flatMap' (H.outsNd s hs) ?_ ?_
    · intro t ht
      refine List.Nodup.map_on ?_ ?_
      · intro a ha b hb h
        rw [List.mem_filter, mem_consumers H] at ha hb
        exact H.inj ha.1.1 hb.1.1 (congrArg Edge.dst h)
      · rw [consumers_eq H.insNd]
        exact (H.nd.filter _).filter _
    · intro t ht u hu htu e he he'
      obtain ⟨a, -, rfl⟩ := List.mem_map.1 he
      obtain ⟨b, -, h⟩ := List.mem_map.1 he'
      exact htu ((List.idxOf_inj ht).1 (congrArg Edge.si h).symm)
  · intro s hs s' hs' hne e he he'
    unfold outEdgesOf at he he'
    obtain ⟨t, -, h1⟩ := List.mem_flatMap.1 he
    obtain ⟨t', -, h2⟩ := List.mem_flatMap.1 he'
    obtain ⟨a, -, rfl⟩ := List.mem_map.1 h1
    obtain ⟨b, -, h⟩ := List.mem_map.1 h2
    exact hne (H.inj hs hs' (congrArg Edge.src h).symm)

/-- The in-edges of a node, from its input tensors. -/
def insEdges (ns : List (HNode O)) (d : HNode O) : List (Edge Path) :=
  d.ins.zipIdx.map fun x => ⟨(place ns x.1).1, d.path, (place ns x.1).2, x.2⟩

theorem insEdges_di (d : HNode O) : (insEdges ns d).map (·.di) = List.range d.ins.length := by
  unfold insEdges
  rw [List.map_map]
  show d.ins.zipIdx.map (fun x => x.2) = _
  rw [List.zipIdx_map_snd, List.range_eq_range']

theorem inFilter (H : HOk ns ins outs) {d : HNode O} (hd : d ∈ ns) (hi : d.op.isInput = false) :
    ((getEdges ns).filter fun e => decide (e.dst = d.path)).Perm (insEdges ns d) := by
  rw [List.perm_ext_iff_of_nodup ((getEdges_nodup H).filter _)
    (List.Nodup.of_map (·.di) (by rw [insEdges_di]; exact List.nodup_range))]
  intro e
  rw [List.mem_filter, decide_eq_true_eq, mem_getEdges H]
  unfold insEdges
  rw [List.mem_map]
  constructor
  · rintro ⟨⟨s, hs, d', hd', t, ht, h1, -, rfl⟩, h3⟩
    have := H.inj hd' hd h3
    subst this
    refine ⟨(t, d'.ins.idxOf t), ?_, ?_⟩
    · rw [List.mk_mem_zipIdx_iff_getElem?]
      exact get_idx' h1
    · rw [place_eq H hs ht]
  · rintro ⟨⟨t, i⟩, h1, rfl⟩
    rw [List.mk_mem_zipIdx_iff_getElem?] at h1
    have ht := List.mem_of_getElem? h1
    obtain ⟨s, hs, hts⟩ := H.produced d hd t ht
    refine ⟨⟨s, hs, d, hd, t, hts, ht, ?_, ?_⟩, rfl⟩
    · intro h
      have := H.inj hs hd h
      subst this
      exact H.loop s hs hi t ht hts
    · rw [place_eq H hs hts]
      congr 1
      obtain ⟨h2, h3⟩ := List.getElem?_eq_some_iff.1 h1
      rw [← h3, (H.insNd d hd).idxOf_getElem i h2]

theorem inFilter_input (H : HOk ns ins outs) {d : HNode O} (hd : d ∈ ns) (hi : d.op.isInput = true) :
    (getEdges ns).filter (fun e => decide (e.dst = d.path)) = [] := by
  rw [List.filter_eq_nil_iff]
  intro e he
  rw [decide_eq_true_eq]
  intro h3
  obtain ⟨s, hs, d', hd', t, ht, h1, h4, rfl⟩ := (mem_getEdges H).1 he
  have := H.inj hd' hd h3
  subst this
  obtain ⟨u, -, h5, h6⟩ := H.input d' hd' hi
  rw [h5, List.mem_singleton] at h1
  subst h1
  exact h4 (congrArg HNode.path (H.uniq s hs d' hd' t ht (by rw [h6]; exact List.mem_singleton_self t)))

/-! ### Inputs and outputs -/

theorem filter_unique {A : Type} {l : List A} (h : l.Nodup) {q : A → Bool} {a : A} (ha : a ∈ l) (hq : q a = true)
    (hu : ∀ b ∈ l, q b = true → b = a) : l.filter q = [a] := by
  have hp : (l.filter q).Perm [a] := by
    rw [List.perm_ext_iff_of_nodup (h.filter _) (List.nodup_singleton a)]
    intro b
    rw [List.mem_filter, List.mem_singleton]
    constructor
    · rintro ⟨h1, h2⟩; exact hu b h1 h2
    · rintro rfl; exact ⟨ha, hq⟩
  exact List.perm_singleton.1 hp

theorem buildInputs_eq (H : HOk ns ins outs) : buildInputs ns ins = some (ins.map fun t => (place ns t).1) := by
  unfold buildInputs
  rw [mapM_some (c := fun t => [(place ns t).1]) ?_, Option.map_some]
  · congr 1
    clear H
    induction ins with
    | nil => rfl
    | cons a l ih => rw [List.map_cons, List.flatten_cons, ih]; rfl
  · intro t ht
    obtain ⟨n, hn, h1, h2⟩ := H.inputs t ht
    obtain ⟨u, -, h3, h4⟩ := H.input n hn h1
    have : u = t := by rw [h2] at h4; exact (List.cons.inj h4).1.symm
    subst this
    have hc : n ∈ consumers ns u := (mem_consumers H).2 ⟨hn, by rw [h3]; exact List.mem_singleton_self u⟩
    have hne : (consumers ns u).isEmpty = false := by
      cases h : consumers ns u with
      | nil => rw [h] at hc; exact absurd hc List.not_mem_nil
      | cons a l => rfl
    rw [hne]
    have hf : ((consumers ns u).filter fun n => n.op.isInput) = [n] := by
      refine filter_unique (by rw [consumers_eq H.insNd]; exact H.nd.filter _) hc h1 ?_
      intro b hb hbi
      obtain ⟨hb1, hb2⟩ := (mem_consumers H).1 hb
      obtain ⟨v, -, h5, h6⟩ := H.input b hb1 hbi
      rw [h5, List.mem_singleton] at hb2
      subst hb2
      exact H.uniq b hb1 n hn u (by rw [h6]; exact List.mem_singleton_self u)
        (by rw [h2]; exact List.mem_singleton_self u)
    rw [hf, place_eq H hn (by rw [h2]; exact List.mem_singleton_self u)]
    rfl

theorem buildOutputs_eq (H : HOk ns ins outs) : buildOutputs ns outs = some (outs.map (place ns)) := by
  unfold buildOutputs
  apply mapM_some
  intro t ht
  obtain ⟨n, hn, h1⟩ := H.outputs t ht
  rw [place_eq H hn h1, producer_eq H hn h1]
  rfl

/-- The graph of the handler. -/
def flatGraph (ns : List (HNode O)) (ins outs : List ℕ) : KGraph O :=
  ⟨ns.map fun n => ⟨n.path, n.op, n.outs.length⟩, getEdges ns, ins.map fun t => (place ns t).1, outs.map (place ns)⟩

theorem flat_paths : (flatGraph ns ins outs).nodes.map (·.path) = ns.map (·.path) := by
  unfold flatGraph
  rw [List.map_map]
  rfl

/-- The inputs of the graph are its input layers. -/
theorem mem_flat_inputs (H : HOk ns ins outs) {n : HNode O} (hn : n ∈ ns) :
    n.path ∈ (flatGraph ns ins outs).inputs ↔ n.op.isInput = true := by
  show n.path ∈ ins.map _ ↔ _
  rw [List.mem_map]
  constructor
  · rintro ⟨t, ht, h⟩
    obtain ⟨n', hn', h1, h2⟩ := H.inputs t ht
    rw [place_eq H hn' (by rw [h2]; exact List.mem_singleton_self t)] at h
    rwa [← H.inj hn' hn h]
  · intro h
    obtain ⟨t, ht, -, h2⟩ := H.input n hn h
    exact ⟨t, ht, by rw [place_eq H hn (by rw [h2]; exact List.mem_singleton_self t)]⟩

/-- An output of an input layer is an input. -/
theorem input_out (H : HOk ns ins outs) {n : HNode O} (hn : n ∈ ns) (h : n.op.isInput = true) {t : ℕ}
    (ht : t ∈ n.outs) : t ∈ ins ∧ n.outs.idxOf t = 0 := by
  obtain ⟨u, hu, -, h2⟩ := H.input n hn h
  rw [h2, List.mem_singleton] at ht
  subst ht
  exact ⟨hu, by rw [h2]; simp⟩

theorem flat_good (H : HOk ns ins outs) : Good (flatGraph ns ins outs) where
  paths := by rw [flat_paths]; exact H.paths
  inMem i hi := by
    obtain ⟨t, ht, rfl⟩ := List.mem_map.1 hi
    obtain ⟨n, hn, -, h2⟩ := H.inputs t ht
    rw [flat_paths, place_eq H hn (by rw [h2]; exact List.mem_singleton_self t)]
    exact List.mem_map.2 ⟨n, hn, rfl⟩
  inOnce := by
    refine List.Nodup.map_on ?_ H.insOnce
    intro t ht u hu h
    obtain ⟨n, hn, -, h2⟩ := H.inputs t ht
    obtain ⟨n', hn', -, h2'⟩ := H.inputs u hu
    have m1 : t ∈ n.outs := by rw [h2]; exact List.mem_singleton_self t
    have m2 : u ∈ n'.outs := by rw [h2']; exact List.mem_singleton_self u
    rw [place_eq H hn m1, place_eq H hn' m2] at h
    have := H.inj hn hn' h
    subst this
    rw [h2] at h2'
    exact (List.cons.inj h2').1
  src e he := by
    obtain ⟨s, hs, d, hd, t, -, -, -, rfl⟩ := (mem_getEdges H).1 he
    rw [flat_paths]
    exact List.mem_map.2 ⟨s, hs, rfl⟩
  dst e he := by
    obtain ⟨s, hs, d, hd, t, -, -, -, rfl⟩ := (mem_getEdges H).1 he
    rw [flat_paths]
    exact List.mem_map.2 ⟨d, hd, rfl⟩
  dstIn e he hi := by
    obtain ⟨s, hs, d, hd, t, -, -, -, e1⟩ := (mem_getEdges H).1 he
    rw [e1] at hi
    have h1 := inFilter_input H hd ((mem_flat_inputs H hd).1 hi)
    have : e ∈ (getEdges ns).filter fun e => decide (e.dst = d.path) :=
      List.mem_filter.2 ⟨he, by rw [e1]; simp⟩
    rw [h1] at this
    exact absurd this List.not_mem_nil
  loop e he := by
    obtain ⟨s, hs, d, hd, t, -, -, h, rfl⟩ := (mem_getEdges H).1 he
    exact h
  di n := by
    show (((getEdges ns).filter fun e => decide (e.dst = n)).map (·.di)).Nodup
    by_cases h : ∃ d ∈ ns, d.path = n
    · obtain ⟨d, hd, rfl⟩ := h
      cases hi : d.op.isInput
      · refine ((inFilter H hd hi).map _).nodup_iff.2 ?_
        rw [insEdges_di]
        exact List.nodup_range
      · rw [inFilter_input H hd hi]; exact List.nodup_nil
    · have : (getEdges ns).filter (fun e => decide (e.dst = n)) = [] := by
        rw [List.filter_eq_nil_iff]
        intro e he
        rw [decide_eq_true_eq]
        rintro rfl
        obtain ⟨s, hs, d, hd, t, -, -, -, rfl⟩ := (mem_getEdges H).1 he
        exact h ⟨d, hd, rfl⟩
      rw [this]; exact List.nodup_nil
  simple a ha b hb h1 h2 h3 := by
    obtain ⟨s, hs, d, hd, t, ht, -, -, rfl⟩ := (mem_getEdges H).1 ha
    obtain ⟨s', hs', d', hd', t', ht', -, -, rfl⟩ := (mem_getEdges H).1 hb
    have e1 := H.inj hs hs' h1
    have e2 := H.inj hd hd' h2
    subst e1 e2
    have e3 : t = t' := (List.idxOf_inj ht).1 h3
    rw [e3]
  inSi e he hi := by
    obtain ⟨s, hs, d, hd, t, ht, -, -, rfl⟩ := (mem_getEdges H).1 he
    exact (input_out H hs ((mem_flat_inputs H hs).1 hi) ht).2
  outMem o ho := by
    obtain ⟨t, ht, rfl⟩ := List.mem_map.1 ho
    obtain ⟨n, hn, h1⟩ := H.outputs t ht
    rw [flat_paths, place_eq H hn h1]
    exact List.mem_map.2 ⟨n, hn, rfl⟩
  arity n hn m hm := by
    obtain ⟨d, hd, rfl⟩ := List.mem_map.1 hn
    have hm : d.op = .model m := hm
    obtain ⟨a1, a2⟩ := H.arity d hd m hm
    refine ⟨a2, ((inFilter H hd (by rw [hm]; rfl)).map _).trans ?_⟩
    rw [insEdges_di, a1]
  si e he n hn h := by
    obtain ⟨s, hs, d, hd, t, ht, -, -, rfl⟩ := (mem_getEdges H).1 he
    obtain ⟨n', hn', rfl⟩ := List.mem_map.1 hn
    have := H.inj hn' hs h
    subst this
    exact List.idxOf_lt_length_of_mem ht
  outK o ho n hn h := by
    obtain ⟨t, ht, rfl⟩ := List.mem_map.1 ho
    obtain ⟨n', hn', rfl⟩ := List.mem_map.1 hn
    obtain ⟨s, hs, h1⟩ := H.outputs t ht
    rw [place_eq H hs h1] at h ⊢
    have := H.inj hn' hs h
    subst this
    exact List.idxOf_lt_length_of_mem h1

/-! ### What the graph computes -/

theorem flat_args (H : HOk ns ins outs) (τ : Path → ℕ → V) {d : HNode O} (hd : d ∈ ns) (hi : d.op.isInput = false) :
    args τ (flatGraph ns ins outs) d.path = d.ins.map fun t => τ (place ns t).1 (place ns t).2 := by
  have h1 : inEdges (flatGraph ns ins outs) d.path = insEdges ns d := by
    have hs : (insEdges ns d).Pairwise fun a b => a.di ≤ b.di := by
      have : ((insEdges ns d).map (·.di)).Pairwise (· ≤ ·) := by
        rw [insEdges_di]; exact List.pairwise_lt_range.imp Nat.le_of_lt
      rwa [List.pairwise_map] at this
    have h2 := sort_map (A := (getEdges ns).filter fun e => decide (e.dst = d.path)) (L := insEdges ns d) (f := id)
      (by rw [List.map_id]; exact inFilter H hd hi) (fun _ _ => rfl) (by rw [insEdges_di]; exact List.nodup_range)
    rw [List.map_id, hs.insertionSort_eq] at h2
    exact h2
  unfold args
  rw [h1, insEdges, List.map_map]
  show d.ins.zipIdx.map ((fun t => τ (place ns t).1 (place ns t).2) ∘ Prod.fst) = _
  rw [← List.map_map, List.zipIdx_map_fst]

theorem flat_runs (H : HOk ns ins outs) {interp : O → List V → List V} (xs ys : List V) :
    (flatGraph ns ins outs).Runs interp xs ys ↔ ∃ σ : ℕ → V, ins.map σ = xs ∧ outs.map σ = ys ∧
      ∀ n ∈ ns, opRel interp n.op (n.ins.map σ) (n.outs.map σ) := by
  have key : ∀ (σ : ℕ → V) (τ : Path → ℕ → V), (∀ n ∈ ns, ∀ t ∈ n.outs, τ (place ns t).1 (place ns t).2 = σ t) →
      (((flatGraph ns ins outs).inputs.map (fun i => τ i 0) = xs ∧
        (flatGraph ns ins outs).outputs.map (fun o => τ o.1 o.2) = ys ∧
        ∀ n ∈ (flatGraph ns ins outs).nodes, n.path ∉ (flatGraph ns ins outs).inputs →
          nodeRel interp n.op (args τ (flatGraph ns ins outs) n.path) ((List.range n.k).map (τ n.path))) ↔
      (ins.map σ = xs ∧ outs.map σ = ys ∧ ∀ n ∈ ns, opRel interp n.op (n.ins.map σ) (n.outs.map σ))) := by
    intro σ τ hτ
    have e1 : (flatGraph ns ins outs).inputs.map (fun i => τ i 0) = ins.map σ := by
      show (ins.map fun t => (place ns t).1).map _ = _
      rw [List.map_map]
      apply List.map_congr_left
      intro t ht
      obtain ⟨n, hn, h1, h2⟩ := H.inputs t ht
      have m1 : t ∈ n.outs := by rw [h2]; exact List.mem_singleton_self t
      have := hτ n hn t m1
      have h0 : (place ns t).2 = 0 := by rw [place_eq H hn m1]; exact (input_out H hn h1 m1).2
      rw [h0] at this
      exact this
    have e2 : (flatGraph ns ins outs).outputs.map (fun o => τ o.1 o.2) = outs.map σ := by
      show (outs.map (place ns)).map _ = _
      rw [List.map_map]
      apply List.map_congr_left
      intro t ht
      obtain ⟨n, hn, h1⟩ := H.outputs t ht
      exact hτ n hn t h1
    have e3 : ∀ n ∈ ns, (List.range n.outs.length).map (τ n.path) = n.outs.map σ := by
      intro n hn
      apply List.ext_getElem
      · simp
      · intro i h1 h2
        have hi : i < n.outs.length := by simpa using h2
        rw [List.getElem_map, List.getElem_map, List.getElem_range]
        rw [← hτ n hn _ (List.getElem_mem hi), place_eq H hn (List.getElem_mem hi),
          (H.outsNd n hn).idxOf_getElem i hi]
    have e4 : ∀ n ∈ ns, n.op.isInput = false → args τ (flatGraph ns ins outs) n.path = n.ins.map σ := by
      intro n hn hi
      rw [flat_args H τ hn hi]
      apply List.map_congr_left
      intro t ht
      obtain ⟨n', hn', h1⟩ := H.produced n hn t ht
      exact hτ n' hn' t h1
    rw [e1, e2]
    refine and_congr_right fun _ => and_congr_right fun _ => ?_
    constructor
    · intro h n hn
      cases hi : n.op.isInput
      · have := h ⟨n.path, n.op, n.outs.length⟩ (List.mem_map.2 ⟨n, hn, rfl⟩)
          (fun h' => by rw [(mem_flat_inputs H hn).1 h'] at hi; cases hi)
        simp only at this
        rw [e3 n hn, e4 n hn hi] at this
        cases ho : n.op with
        | input => rw [ho] at hi; cases hi
        | prim o => rw [ho] at this; exact this
        | model m => rw [ho] at this; exact this
      · cases ho : n.op with
        | input => unfold opRel; trivial
        | prim o => rw [ho] at hi; cases hi
        | model m => rw [ho] at hi; cases hi
    · intro h n hn hni
      obtain ⟨n', hn', rfl⟩ := List.mem_map.1 hn
      have hi : n'.op.isInput = false := by
        cases hi : n'.op.isInput
        · rfl
        · exact absurd ((mem_flat_inputs H hn').2 hi) hni
      have := h n' hn'
      simp only
      rw [e3 n' hn', e4 n' hn' hi]
      cases ho : n'.op with
      | input => rw [ho] at hi; cases hi
      | prim o => rw [ho] at this; exact this
      | model m => rw [ho] at this; exact this
  constructor
  · rintro ⟨τ, h⟩
    exact ⟨fun t => τ (place ns t).1 (place ns t).2, (key _ τ fun _ _ _ _ => rfl).1 h⟩
  · rintro ⟨σ, h⟩
    let τ : Path → ℕ → V := fun q s => match ns.find? fun n => decide (n.path = q) with
      | some n => (n.outs[s]?.map σ).getD (σ 0)
      | none => σ 0
    refine ⟨τ, (key σ τ ?_).2 h⟩
    intro n hn t ht
    rw [place_eq H hn ht]
    have hf : ns.find? (fun n' => decide (n'.path = n.path)) = some n := by
      cases hc : ns.find? fun n' => decide (n'.path = n.path) with
      | none =>
        rw [List.find?_eq_none] at hc
        exact absurd (by simp) (hc n hn)
      | some n' =>
        have h2 := List.find?_some hc
        rw [decide_eq_true_eq] at h2
        rw [H.inj (List.mem_of_find?_eq_some hc) hn h2]
    simp only [τ, hf, get_idx' ht, Option.map_some, Option.getD_some]

/-! ### From Keras -/

theorem mem_handler {p : Path} {nodes : List (KNode O)} {n : HNode O} : n ∈ handler p nodes ↔
    ∃ i a, nodes[i]? = some a ∧ n = ⟨p ++ [i], a.op, a.ins, a.outs⟩ := by
  unfold handler
  rw [List.mem_map]
  constructor
  · rintro ⟨⟨a, i⟩, h1, rfl⟩
    exact ⟨i, a, List.mk_mem_zipIdx_iff_getElem?.1 h1, rfl⟩
  · rintro ⟨i, a, h1, rfl⟩
    exact ⟨(a, i), List.mk_mem_zipIdx_iff_getElem?.2 h1, rfl⟩

theorem handler_paths {p : Path} {nodes : List (KNode O)} :
    (handler p nodes).map (·.path) = (List.range nodes.length).map fun i => p ++ [i] := by
  unfold handler
  rw [List.map_map]
  show nodes.zipIdx.map ((fun i => p ++ [i]) ∘ Prod.snd) = _
  rw [← List.map_map, List.zipIdx_map_snd, List.range_eq_range']

theorem flatMap_once {A : Type} {f : A → List ℕ} : ∀ {l : List A}, (l.flatMap f).Nodup → ∀ {i j : ℕ} {a b : A} {t : ℕ},
    l[i]? = some a → l[j]? = some b → t ∈ f a → t ∈ f b → i = j
  | [], _, i, j, a, b, t, h1, _, _, _ => by simp at h1
  | x :: l, h, i, j, a, b, t, h1, h2, h3, h4 => by
    rw [List.flatMap_cons, List.nodup_append] at h
    obtain ⟨-, hl, hd⟩ := h
    cases i with
    | zero =>
      cases j with
      | zero => rfl
      | succ j =>
        simp only [List.getElem?_cons_zero, Option.some.injEq, List.getElem?_cons_succ] at h1 h2
        subst h1
        exact absurd rfl (hd t h3 t (List.mem_flatMap.2 ⟨b, List.mem_of_getElem? h2, h4⟩))
    | succ i =>
      cases j with
      | zero =>
        simp only [List.getElem?_cons_zero, Option.some.injEq, List.getElem?_cons_succ] at h1 h2
        subst h2
        exact absurd rfl (hd t h4 t (List.mem_flatMap.2 ⟨a, List.mem_of_getElem? h1, h3⟩))
      | succ j =>
        simp only [List.getElem?_cons_succ] at h1 h2
        rw [flatMap_once hl h1 h2 h3 h4]

theorem handler_ok {p : Path} {nodes : List (KNode O)} (L : Level nodes ins outs) (P : Plain nodes) :
    HOk (handler p nodes) ins outs := by
  have lift : ∀ {a : KNode O}, a ∈ nodes → ∃ n ∈ handler p nodes, n.op = a.op ∧ n.ins = a.ins ∧ n.outs = a.outs := by
    intro a ha
    obtain ⟨i, hi⟩ := List.mem_iff_getElem?.1 ha
    exact ⟨_, mem_handler.2 ⟨i, a, hi, rfl⟩, rfl, rfl, rfl⟩
  refine ⟨?_, ?_, ?_, ?_, ?_, ?_, ?_, L.insOnce, ?_, ?_, ?_⟩
  · rw [handler_paths]
    refine List.Nodup.map_on ?_ List.nodup_range
    intro a _ b _ h
    simpa using h
  · intro n hn n' hn' t ht ht'
    obtain ⟨i, a, h1, rfl⟩ := mem_handler.1 hn
    obtain ⟨j, b, h2, rfl⟩ := mem_handler.1 hn'
    have := flatMap_once L.once h1 h2 ht ht'
    subst this
    rw [h1] at h2
    rw [Option.some.inj h2]
  · intro n hn
    obtain ⟨i, a, h1, rfl⟩ := mem_handler.1 hn
    exact (List.nodup_flatMap.1 L.once).1 a (List.mem_of_getElem? h1)
  · intro n hn
    obtain ⟨i, a, h1, rfl⟩ := mem_handler.1 hn
    exact P.distinct a (List.mem_of_getElem? h1)
  · intro n hn t ht
    obtain ⟨i, a, h1, rfl⟩ := mem_handler.1 hn
    obtain ⟨b, hb, h2⟩ := L.produced a (List.mem_of_getElem? h1) t ht
    obtain ⟨n', hn', -, -, h3⟩ := lift hb
    exact ⟨n', hn', h3 ▸ h2⟩
  · intro n hn hi
    obtain ⟨i, a, h1, rfl⟩ := mem_handler.1 hn
    exact L.input a (List.mem_of_getElem? h1) hi
  · intro t ht
    obtain ⟨a, ha, h1, h2⟩ := L.inputs t ht
    obtain ⟨n', hn', e1, -, e3⟩ := lift ha
    exact ⟨n', hn', e1 ▸ h1, e3 ▸ h2⟩
  · intro n hn hi
    obtain ⟨i, a, h1, rfl⟩ := mem_handler.1 hn
    exact L.loop a (List.mem_of_getElem? h1) hi
  · intro t ht
    obtain ⟨a, ha, h1⟩ := L.outputs t ht
    obtain ⟨n', hn', -, -, e3⟩ := lift ha
    exact ⟨n', hn', e3 ▸ h1⟩
  · intro n hn
    obtain ⟨i, a, h1, rfl⟩ := mem_handler.1 hn
    exact L.arity a (List.mem_of_getElem? h1)

theorem nodesRun_iff {interp : O → List V → List V} {σ : ℕ → V} : ∀ {nodes : List (KNode O)},
    nodesRun interp nodes σ ↔ ∀ n ∈ nodes, opRel interp n.op (n.ins.map σ) (n.outs.map σ)
  | [] => by simp [nodesRun]
  | .mk l op i o :: ns => by
    rw [nodesRun, nodesRun_iff (nodes := ns), List.forall_mem_cons]
    rfl

/-- The graph of a model with the nested models as nodes. -/
theorem buildGraph_ok {p : Path} {nodes : List (KNode O)} (L : Level nodes ins outs) (P : Plain nodes) :
    buildGraph p nodes ins outs = some (flatGraph (handler p nodes) ins outs) := by
  have H := handler_ok (p := p) L P
  unfold buildGraph
  dsimp only
  rw [buildInputs_eq H, Option.bind_some, buildOutputs_eq H, Option.map_some]
  rfl

theorem buildGraph_runs {p : Path} {nodes : List (KNode O)} (L : Level nodes ins outs) (P : Plain nodes)
    {interp : O → List V → List V} (xs ys : List V) :
    (flatGraph (handler p nodes) ins outs).Runs interp xs ys ↔ (KModel.mk nodes ins outs).Runs interp xs ys := by
  rw [flat_runs (handler_ok L P), KModel.Runs]
  refine exists_congr fun σ => and_congr_right fun _ => and_congr_right fun _ => ?_
  rw [nodesRun_iff]
  constructor
  · intro h n hn
    obtain ⟨i, hi⟩ := List.mem_iff_getElem?.1 hn
    exact h _ (mem_handler.2 ⟨i, n, hi, rfl⟩)
  · intro h n hn
    obtain ⟨i, a, h1, rfl⟩ := mem_handler.1 hn
    exact h a (List.mem_of_getElem? h1)

/-- What the conditions on a nested model give for its graph. -/
structure Outer (g : KGraph O) : Prop where
  first : ∀ e ∈ g.edges, e.src ∈ g.inputs → e.di = 0
  fresh : ∀ o ∈ g.outputs, o.1 ∉ g.inputs
  outsOnce : g.outputs.Nodup

theorem flat_outer {p : Path} {nodes : List (KNode O)} (L : Level nodes ins outs) (P : Plain nodes)
    (I : Inner (.mk nodes ins outs)) : Outer (flatGraph (handler p nodes) ins outs) := by
  have H := handler_ok (p := p) L P
  refine ⟨?_, ?_, ?_⟩
  · intro e he hs
    obtain ⟨s, hs', d, hd, t, ht, h1, -, rfl⟩ := (mem_getEdges H).1 he
    have hin := (input_out H hs' ((mem_flat_inputs H hs').1 hs) ht).1
    obtain ⟨i, a, h2, rfl⟩ := mem_handler.1 hd
    exact I.first a (List.mem_of_getElem? h2) _ t (get_idx' h1) hin
  · intro o ho hi
    obtain ⟨t, ht, rfl⟩ := List.mem_map.1 ho
    obtain ⟨n, hn, h1⟩ := H.outputs t ht
    rw [place_eq H hn h1] at hi
    exact I.fresh t ht (input_out H hn ((mem_flat_inputs H hn).1 hi) h1).1
  · refine List.Nodup.map_on ?_ I.outsOnce
    intro t ht u hu h
    obtain ⟨n, hn, h1⟩ := H.outputs t ht
    obtain ⟨n', hn', h2⟩ := H.outputs u hu
    exact place_inj H hn hn' h1 h2 h

end MCT.KReader
