import Mathlib.Algebra.BigOperators.Group.Finset.Basic
import Mathlib.Algebra.BigOperators.Ring.List
import Mathlib.Tactic.Linarith
import Verif.Common.Lists
import Verif.Pruning.Sections

/-! Lemmas about pruning sections. -/

namespace MCT.Pruning

/-- `ms` and `x` follow `cur` in a chain whose links are the only out-edge of their source and the only
in-edge of their target. -/
def IsChain (g : PGraph) : ℕ → List ℕ → ℕ → Prop
  | cur, [], x => g.outs cur = [x] ∧ g.inDeg x = 1
  | cur, m :: ms, x => g.outs cur = [m] ∧ g.inDeg m = 1 ∧ g.inter m = true ∧ IsChain g m ms x

theorem prunableFrom_spec (g : PGraph) (hty : ∀ i, g.entry i = true → g.inter i = false) :
    ∀ (fuel e cur : ℕ), g.prunableFrom fuel e cur = true →
      ∃ ms x, g.findExit fuel e cur = some (ms, x) ∧ IsChain g cur ms x ∧ g.isExit x e = true := by
  intro fuel
  induction fuel with
  | zero => intro e cur h; simp [PGraph.prunableFrom] at h
  | succ f ih =>
    intro e cur h
    unfold PGraph.prunableFrom at h
    split at h
    · rename_i nx hnx
      split at h
      · rename_i hx
        exact ⟨[], nx, by simp [PGraph.findExit, hnx, hx.1], ⟨hnx, hx.2⟩, hx.1⟩
      · rename_i hx
        split at h
        · simp at h
        · rename_i hi
          push Not at hi
          obtain ⟨hi1, hi2, hi3⟩ := hi
          have hi1 : g.inter nx = true := by simpa using hi1
          have hne : ¬ g.isExit nx e = true := by
            intro he
            have : g.entry nx = true := by
              simp only [PGraph.isExit, Bool.and_eq_true] at he; exact he.1
            rw [hty nx this] at hi1; exact absurd hi1 (by simp)
          obtain ⟨ms, x, h1, h2, h3⟩ := ih e nx h
          exact ⟨nx :: ms, x, by simp [PGraph.findExit, hnx, hne, h1], ⟨hnx, hi2, hi1, h2⟩, h3⟩
    · simp at h

theorem mem_outs {g : PGraph} {a b : ℕ} : b ∈ g.outs a ↔ (a, b) ∈ g.edges := by
  simp only [PGraph.outs, List.mem_map, List.mem_filter, decide_eq_true_eq]
  constructor
  · rintro ⟨⟨x, y⟩, ⟨h1, h2⟩, h3⟩; simp only at h2 h3; subst h2; subst h3; exact h1
  · intro h; exact ⟨(a, b), ⟨h, rfl⟩, rfl⟩

theorem pred_unique {g : PGraph} {a b y : ℕ} (h : g.inDeg y = 1) (ha : y ∈ g.outs a) (hb : y ∈ g.outs b) :
    a = b := by
  rw [mem_outs] at ha hb
  unfold PGraph.inDeg at h
  obtain ⟨e, he⟩ := List.length_eq_one_iff.1 h
  have h1 : (a, y) ∈ g.edges.filter fun e => decide (e.2 = y) := by simp [ha]
  have h2 : (b, y) ∈ g.edges.filter fun e => decide (e.2 = y) := by simp [hb]
  rw [he, List.mem_singleton] at h1 h2
  have := h1.trans h2.symm
  simpa using this

/-- Nodes reached from `e` by such a chain. -/
inductive Reach (g : PGraph) (e : ℕ) : ℕ → Prop
  | first (y) : y ∈ g.outs e → g.inDeg y = 1 → Reach g e y
  | step (y z) : Reach g e y → g.inter y = true → z ∈ g.outs y → g.inDeg z = 1 → Reach g e z

theorem Reach.inj {g : PGraph} {e e' y : ℕ} (he : g.inter e = false) (he' : g.inter e' = false)
    (h : Reach g e y) : Reach g e' y → e = e' := by
  induction h with
  | first y h1 h2 =>
    intro h'
    cases h' with
    | first _ h1' _ => exact pred_unique h2 h1 h1'
    | step y0 _ _ hi h1' _ =>
      have := pred_unique h2 h1 h1'
      subst this; rw [he] at hi; exact absurd hi (by simp)
  | step y0 y _ hi h1 h2 ih =>
    intro h'
    cases h' with
    | first _ h1' _ =>
      have := pred_unique h2 h1 h1'
      subst this; rw [he'] at hi; exact absurd hi (by simp)
    | step y0' _ h0' hi' h1' _ =>
      have := pred_unique h2 h1 h1'
      subst this; exact ih h0'

theorem chain_reach {g : PGraph} {e : ℕ} : ∀ (ms : List ℕ) (cur x : ℕ),
    (cur = e ∨ (Reach g e cur ∧ g.inter cur = true)) → IsChain g cur ms x →
    (∀ m ∈ ms, Reach g e m ∧ g.inter m = true) ∧ Reach g e x
  | [], cur, x, hc, h => by
    refine ⟨by simp, ?_⟩
    have hm : x ∈ g.outs cur := by rw [h.1]; simp
    rcases hc with hc | hc
    · subst hc; exact .first _ hm h.2
    · exact .step cur x hc.1 hc.2 hm h.2
  | m :: ms, cur, x, hc, h => by
    obtain ⟨h1, h2, h3, h4⟩ := h
    have hm : m ∈ g.outs cur := by rw [h1]; simp
    have hr : Reach g e m := by
      rcases hc with hc | hc
      · subst hc; exact .first _ hm h2
      · exact .step cur m hc.1 hc.2 hm h2
    obtain ⟨i1, i2⟩ := chain_reach ms m x (.inr ⟨hr, h3⟩) h4
    refine ⟨?_, i2⟩
    intro k hk
    rcases List.mem_cons.1 hk with hk | hk
    · subst hk; exact ⟨hr, h3⟩
    · exact i1 k hk

theorem chain_sorted {g : PGraph} (hac : ∀ e ∈ g.edges, e.1 < e.2) : ∀ (ms : List ℕ) (cur x : ℕ),
    IsChain g cur ms x → (cur :: (ms ++ [x])).Pairwise (· < ·)
  | [], cur, x, h => by
    have hm : x ∈ g.outs cur := by rw [h.1]; simp
    simpa using hac _ (mem_outs.1 hm)
  | m :: ms, cur, x, h => by
    obtain ⟨h1, h2, h3, h4⟩ := h
    have hm : m ∈ g.outs cur := by rw [h1]; simp
    have hlt : cur < m := hac _ (mem_outs.1 hm)
    have ih := chain_sorted hac ms m x h4
    rw [List.cons_append, List.pairwise_cons]
    refine ⟨?_, ih⟩
    intro k hk
    rcases List.mem_cons.1 hk with hk | hk
    · subst hk; exact hlt
    · exact hlt.trans ((List.pairwise_cons.1 ih).1 k hk)

/-- What the section finder guarantees. -/
structure Sec (g : PGraph) (s : Section) : Prop where
  entry_lt : s.entry < g.n
  entry : g.entry s.entry = true
  exit : g.entry s.exit = true
  chan : g.chanMatch s.exit s.entry = true
  chain : IsChain g s.entry s.inters s.exit
  reach : ∀ m ∈ s.inters, Reach g s.entry m ∧ g.inter m = true
  reachX : Reach g s.entry s.exit

theorem createSection_spec (g : PGraph) (hty : ∀ i, g.entry i = true → g.inter i = false) {e : ℕ}
    (he : e ∈ g.entryNodes) : ∃ s, g.createSection e = some s ∧ s.entry = e ∧ Sec g s := by
  simp only [PGraph.entryNodes, List.mem_filter, List.mem_range, Bool.and_eq_true] at he
  obtain ⟨hlt, hen, hp⟩ := he
  obtain ⟨ms, x, h1, h2, h3⟩ := prunableFrom_spec g hty _ _ _ hp
  obtain ⟨r1, r2⟩ := chain_reach (e := e) ms e x (.inl rfl) h2
  have h3' := h3
  simp only [PGraph.isExit, Bool.and_eq_true] at h3'
  exact ⟨⟨e, ms, x⟩, by simp [PGraph.createSection, hen, h1, h3], rfl,
    ⟨hlt, hen, h3'.1, h3'.2, h2, r1, r2⟩⟩

theorem mapM_createSection (g : PGraph) (hty : ∀ i, g.entry i = true → g.inter i = false) :
    ∀ l : List ℕ, (∀ e ∈ l, e ∈ g.entryNodes) →
      ∃ ss, l.mapM g.createSection = some ss ∧ ss.map Section.entry = l ∧ ∀ s ∈ ss, Sec g s
  | [], _ => ⟨[], rfl, rfl, by simp⟩
  | e :: l, h => by
    obtain ⟨s, h1, h2, h3⟩ := createSection_spec g hty (h e (by simp))
    obtain ⟨ss, i1, i2, i3⟩ := mapM_createSection g hty l (fun k hk => h k (by simp [hk]))
    refine ⟨s :: ss, by simp [List.mapM_cons, h1, i1], by simp [h2, i2], ?_⟩
    intro t ht
    rcases List.mem_cons.1 ht with ht | ht
    · subst ht; exact h3
    · exact i3 t ht

theorem sections_spec (g : PGraph) (hty : ∀ i, g.entry i = true → g.inter i = false) :
    ∃ ss, g.sections = some ss ∧ ss.map Section.entry = g.entryNodes ∧ ∀ s ∈ ss, Sec g s :=
  mapM_createSection g hty _ (fun _ h => h)

theorem entryNodes_nodup (g : PGraph) : g.entryNodes.Nodup := List.nodup_range.filter _

/-- The structural facts used by the counting lemmas. -/
structure Layout (n : ℕ) (ss : List Section) : Prop where
  lt : ∀ s ∈ ss, ∀ i ∈ s.nodes, i < n
  entries : (ss.map Section.entry).Nodup
  exits : (ss.map Section.exit).Nodup
  inters : (ss.flatMap Section.inters).Nodup
  sep : ∀ s ∈ ss, ∀ t ∈ ss, ∀ m ∈ s.inters, m ≠ t.entry ∧ m ≠ t.exit
  ends : ∀ s ∈ ss, s.entry ≠ s.exit

theorem nodup_map_of {α β : Type} {f : α → β} {l : List α} (hl : l.Nodup)
    (hf : ∀ a ∈ l, ∀ b ∈ l, f a = f b → a = b) : (l.map f).Nodup := by
  rw [List.nodup_map_iff_inj_on hl]; exact hf

theorem sec_eq {ss : List Section} (h : (ss.map Section.entry).Nodup) {s t : Section} (hs : s ∈ ss)
    (ht : t ∈ ss) (he : s.entry = t.entry) : s = t := by
  have hn : ss.Nodup := h.of_map
  exact (List.nodup_map_iff_inj_on hn).1 h s hs t ht he

theorem layout_of (g : PGraph) (hac : ∀ e ∈ g.edges, e.1 < e.2) (hn : ∀ e ∈ g.edges, e.2 < g.n)
    (hty : ∀ i, g.entry i = true → g.inter i = false) {ss : List Section} (h : g.sections = some ss) :
    Layout g.n ss := by
  obtain ⟨ss', h1, h2, h3⟩ := sections_spec g hty
  rw [h] at h1; cases h1
  have hnd : (ss.map Section.entry).Nodup := by rw [h2]; exact entryNodes_nodup g
  have hreach : ∀ s ∈ ss, ∀ t ∈ ss, ∀ y, Reach g s.entry y → Reach g t.entry y → s = t := by
    intro s hs t ht y h1 h2
    exact sec_eq hnd hs ht (h1.inj (hty _ (h3 s hs).entry) (hty _ (h3 t ht).entry) h2)
  have hlt : ∀ e y, Reach g e y → y < g.n := by
    intro e y hr
    cases hr with
    | first _ h _ => exact hn _ (mem_outs.1 h)
    | step _ _ _ _ h _ => exact hn _ (mem_outs.1 h)
  refine ⟨?_, hnd, ?_, ?_, ?_, ?_⟩
  · intro s hs i hi
    simp only [Section.nodes, List.mem_cons, List.mem_append, List.not_mem_nil, or_false] at hi
    rcases hi with hi | hi | hi
    · subst hi; exact (h3 s hs).entry_lt
    · exact hlt _ _ ((h3 s hs).reach i hi).1
    · subst hi; exact hlt _ _ (h3 s hs).reachX
  · apply nodup_map_of hnd.of_map
    intro s hs t ht he
    exact hreach s hs t ht s.exit (h3 s hs).reachX (he ▸ (h3 t ht).reachX)
  · rw [List.nodup_flatMap]
    constructor
    · intro s hs
      have := chain_sorted hac _ _ _ (h3 s hs).chain
      have h4 := (List.pairwise_append.1 (List.pairwise_cons.1 this).2).1
      exact h4.imp (fun h => ne_of_lt h)
    · refine (List.Nodup.pairwise_of_forall_ne hnd.of_map ?_)
      intro s hs t ht hne
      rw [Function.onFun, List.disjoint_left]
      intro m hm hm'
      exact hne (hreach s hs t ht m ((h3 s hs).reach m hm).1 ((h3 t ht).reach m hm').1)
  · intro s hs t ht m hm
    have hi := ((h3 s hs).reach m hm).2
    constructor
    · rintro rfl; rw [hty _ (h3 t ht).entry] at hi; exact absurd hi (by simp)
    · rintro rfl; rw [hty _ (h3 t ht).exit] at hi; exact absurd hi (by simp)
  · intro s hs
    have := chain_sorted hac _ _ _ (h3 s hs).chain
    exact ne_of_lt ((List.pairwise_cons.1 this).1 _ (by simp))

/-! ### The estimate -/

theorem sum_filter_range {n : ℕ} (p : ℕ → Bool) (f : ℕ → ℤ) :
    (((List.range n).filter p).map f).sum = ∑ i ∈ (Finset.range n).filter (fun i => p i = true), f i := by
  rw [← List.sum_toFinset f (List.nodup_range.filter _)]
  congr 1
  ext i; simp

theorem sum_flatMap' {f : ℕ → ℤ} : ∀ ss : List Section,
    (ss.map fun s => (s.inters.map f).sum).sum = ((ss.flatMap Section.inters).map f).sum
  | [] => rfl
  | s :: ss => by simp [sum_flatMap' ss]

theorem count_once {n : ℕ} {ss : List Section} (hL : Layout n ss) (f : ℕ → ℤ) :
    (((List.range n).filter fun i => !decide (i ∈ ss.flatMap Section.nodes)).map f).sum
      + (ss.map fun s => f s.entry + (s.inters.map f).sum + f s.exit).sum
      - ((sharedNodes ss).map f).sum = ((List.range n).map f).sum := by
  classical
  have hR : ((List.range n).map f).sum = ∑ i ∈ Finset.range n, f i := by
    rw [← List.sum_toFinset f List.nodup_range]
    congr 1; ext i; simp
  have hS : (ss.map fun s => f s.entry + (s.inters.map f).sum + f s.exit).sum
      = ∑ i ∈ (ss.map Section.entry).toFinset, f i + ∑ i ∈ (ss.flatMap Section.inters).toFinset, f i
        + ∑ i ∈ (ss.map Section.exit).toFinset, f i := by
    rw [List.sum_toFinset f hL.entries, List.sum_toFinset f hL.exits, List.sum_toFinset f hL.inters,
      ← sum_flatMap', List.map_map, List.map_map, List.sum_map_add, List.sum_map_add]
    rfl
  have hI : ((sharedNodes ss).map f).sum
      = ∑ i ∈ (ss.map Section.entry).toFinset ∩ (ss.map Section.exit).toFinset, f i := by
    unfold sharedNodes
    rw [← List.sum_toFinset f (List.nodup_dedup _)]
    congr 1; ext i; simp
  have hdisj : Disjoint ((ss.map Section.entry).toFinset ∪ (ss.map Section.exit).toFinset)
      (ss.flatMap Section.inters).toFinset := by
    rw [Finset.disjoint_right]
    intro m hm hm'
    simp only [List.mem_toFinset, List.mem_flatMap] at hm
    obtain ⟨s, hs, hms⟩ := hm
    simp only [Finset.mem_union, List.mem_toFinset, List.mem_map] at hm'
    rcases hm' with ⟨t, ht, rfl⟩ | ⟨t, ht, rfl⟩
    · exact (hL.sep s hs t ht _ hms).1 rfl
    · exact (hL.sep s hs t ht _ hms).2 rfl
  have hU := Finset.sum_union_inter (s₁ := (ss.map Section.entry).toFinset)
    (s₂ := (ss.map Section.exit).toFinset) (f := f)
  have hfilter : (Finset.range n).filter (fun i => (i ∈ ss.flatMap Section.nodes))
      = ((ss.map Section.entry).toFinset ∪ (ss.map Section.exit).toFinset)
        ∪ (ss.flatMap Section.inters).toFinset := by
    ext i
    simp only [Finset.mem_filter, Finset.mem_range, Finset.mem_union, List.mem_toFinset, List.mem_map,
      List.mem_flatMap, Section.nodes, List.mem_cons, List.mem_append, List.not_mem_nil, or_false]
    constructor
    · rintro ⟨_, s, hs, h | h | h⟩
      · exact .inl (.inl ⟨s, hs, h.symm⟩)
      · exact .inr ⟨s, hs, h⟩
      · exact .inl (.inr ⟨s, hs, h.symm⟩)
    · rintro ((⟨s, hs, h⟩ | ⟨s, hs, h⟩) | ⟨s, hs, h⟩)
      · exact ⟨hL.lt s hs i (by simp [Section.nodes, h]), s, hs, .inl h.symm⟩
      · exact ⟨hL.lt s hs i (by simp [Section.nodes, h]), s, hs, .inr (.inr h.symm)⟩
      · exact ⟨hL.lt s hs i (by simp [Section.nodes, h]), s, hs, .inr (.inl h)⟩
  rw [sum_filter_range, hR, hS, hI, ← Finset.sum_filter_add_sum_filter_not (Finset.range n)
    (fun i => i ∈ ss.flatMap Section.nodes) f, hfilter, Finset.sum_union hdisj]
  have hnot : (Finset.range n).filter (fun i => (!decide (i ∈ ss.flatMap Section.nodes)) = true)
      = (Finset.range n).filter (fun i => i ∉ ss.flatMap Section.nodes) := by
    ext i; simp
  rw [hnot]
  linarith

theorem inputMask_exit {n : ℕ} {ss : List Section} (hL : Layout n ss) (masks : ℕ → Option (List Bool))
    (nic : ℕ → ℕ) {s : Section} (hs : s ∈ ss) : inputMask ss masks nic s.exit = masks s.entry := by
  unfold inputMask
  cases h : ss.find? fun t => decide (t.exit = s.exit) with
  | none =>
    rw [List.find?_eq_none] at h
    have := h s hs
    simp at this
  | some t =>
    have ht := List.mem_of_find?_eq_some h
    have he : t.exit = s.exit := by simpa using List.find?_some h
    have : t = s := (List.nodup_map_iff_inj_on hL.entries.of_map).1 hL.exits t ht s hs he
    rw [this]

theorem inputMask_other {ss : List Section} (masks : ℕ → Option (List Bool)) (nic : ℕ → ℕ) {i : ℕ}
    (h : ∀ s ∈ ss, s.exit ≠ i) : inputMask ss masks nic i = some (List.replicate (nic i) true) := by
  unfold inputMask
  have : ss.find? (fun t => decide (t.exit = i)) = none := by
    rw [List.find?_eq_none]; intro s hs; simpa using h s hs
  rw [this]

/-! ### The pruned graph -/

/-- Slice both axes of every attribute. -/
def sliceAttrs (inM outM : Option (List Bool)) (attrs : List PAttr) : List PAttr :=
  attrs.map fun a => { a with shape := pruneShape (pruneShape a.shape inM a.inAx) outM a.outAx }

/-- The mask of a section, if it prunes anything. -/
def effMask (masks : ℕ → Option (List Bool)) (s : Section) : Option (List Bool) :=
  (masks s.entry).filter fun m => m.any fun b => !b

/-- Masks as the graph builder applies them. -/
def effIn (masks : ℕ → Option (List Bool)) (l : List Section) (i : ℕ) : Option (List Bool) :=
  (l.find? fun s => decide (s.exit = i)).bind (effMask masks)

def effOut (masks : ℕ → Option (List Bool)) (l : List Section) (i : ℕ) : Option (List Bool) :=
  (l.find? fun s => decide (s.entry = i ∨ i ∈ s.inters)).bind (effMask masks)

theorem foldl_update (P : List PAttr → List PAttr) : ∀ (l : List ℕ) (w : ℕ → List PAttr) (i : ℕ), l.Nodup →
    l.foldl (fun v j => fun i => if i = j then P (v i) else v i) w i = if i ∈ l then P (w i) else w i
  | [], w, i, _ => by simp
  | j :: l, w, i, h => by
    rw [List.foldl_cons, foldl_update P l _ i (List.nodup_cons.1 h).2]
    by_cases hij : i = j
    · subst hij; simp [(List.nodup_cons.1 h).1]
    · simp [hij]

theorem pruneShape_comm (sh : List ℕ) (a b : Option (List Bool)) (x y : Option ℕ)
    (h : ∀ k, x = some k → y ≠ some k) :
    pruneShape (pruneShape sh a x) b y = pruneShape (pruneShape sh b y) a x := by
  cases a <;> cases b <;> cases x <;> cases y <;> simp only [pruneShape]
  rename_i k k'
  exact List.set_comm _ _ (fun hk => h k rfl (by rw [hk]))

/-- Input and output axes differ. -/
def AxesOK (attrs : List PAttr) : Prop := ∀ a ∈ attrs, ∀ k, a.inAx = some k → a.outAx ≠ some k

theorem AxesOK.slice {inM outM} {attrs : List PAttr} (h : AxesOK attrs) : AxesOK (sliceAttrs inM outM attrs) := by
  intro a ha
  simp only [sliceAttrs, List.mem_map] at ha
  obtain ⟨b, hb, rfl⟩ := ha
  exact h b hb

theorem slice_none (attrs : List PAttr) : sliceAttrs none none attrs = attrs := by
  unfold sliceAttrs
  conv_rhs => rw [← List.map_id attrs]
  apply List.map_congr_left
  intro a _; cases a; simp [pruneShape]

theorem applySection_eq {n : ℕ} {ss : List Section} (hL : Layout n ss) {s : Section} (hs : s ∈ ss)
    (w : ℕ → List PAttr) (m : List Bool) (i : ℕ) :
    applySection w s m i = sliceAttrs (if s.exit = i then some m else none)
      (if s.entry = i ∨ i ∈ s.inters then some m else none) (w i) := by
  have hn : s.inters.Nodup := (List.nodup_flatMap.1 hL.inters).1 s hs
  unfold applySection
  simp only [foldl_update _ _ _ _ hn]
  by_cases h1 : i = s.exit
  · have h2 : ¬ i ∈ s.inters := fun h => (hL.sep s hs s hs i h).2 h1
    have h3 : ¬ i = s.entry := fun h => hL.ends s hs (h.symm.trans h1)
    rw [if_pos h1, if_neg h2, if_neg h3, if_pos h1.symm, if_neg (by rintro (h | h); exact h3 h.symm; exact h2 h)]
    simp [pruneIn, sliceAttrs, pruneShape]
  · rw [if_neg h1, if_neg (fun h => h1 (Eq.symm h))]
    by_cases h2 : i ∈ s.inters
    · have h3 : ¬ i = s.entry := (hL.sep s hs s hs i h2).1
      rw [if_pos h2, if_neg h3, if_pos (.inr h2)]
      simp [pruneOut, sliceAttrs, pruneShape]
    · rw [if_neg h2]
      by_cases h3 : i = s.entry
      · rw [if_pos h3, if_pos (.inl h3.symm)]
        simp [pruneOut, sliceAttrs, pruneShape]
      · rw [if_neg h3, if_neg (by rintro (h | h); exact h3 h.symm; exact h2 h), slice_none]

theorem slice_slice {a b c d : Option (List Bool)} {attrs : List PAttr} (h : AxesOK attrs)
    (hac : a = none ∨ c = none) (hbd : b = none ∨ d = none) :
    sliceAttrs c d (sliceAttrs a b attrs) = sliceAttrs (a.or c) (b.or d) attrs := by
  unfold sliceAttrs
  rw [List.map_map]
  apply List.map_congr_left
  intro x hx
  have hx' := h x hx
  have hn : ∀ (sh : List ℕ) (o : Option ℕ), pruneShape sh none o = sh := by intro sh o; simp [pruneShape]
  simp only [Function.comp, PAttr.mk.injEq, and_true]
  rcases hac with rfl | rfl <;> rcases hbd with rfl | rfl
  · simp [hn]
  · simp only [hn, Option.or_none, Option.none_or]
    exact (pruneShape_comm _ _ _ _ _ hx').symm
  · simp [hn]
  · simp only [hn, Option.or_none]

theorem Layout.tail {n : ℕ} {s : Section} {l : List Section} (h : Layout n (s :: l)) : Layout n l where
  lt := fun t ht => h.lt t (by simp [ht])
  entries := (List.nodup_cons.1 (by simpa using h.entries)).2
  exits := (List.nodup_cons.1 (by simpa using h.exits)).2
  inters := by
    have := h.inters
    rw [List.flatMap_cons] at this
    exact this.of_append_right
  sep := fun t ht u hu => h.sep t (by simp [ht]) u (by simp [hu])
  ends := fun t ht => h.ends t (by simp [ht])

theorem buildPruned_spec (masks : ℕ → Option (List Bool)) {n : ℕ} : ∀ (l : List Section) (w w' : ℕ → List PAttr),
    Layout n l → (∀ i, AxesOK (w i)) → buildPruned w l masks = some w' →
    ∀ i, w' i = sliceAttrs (effIn masks l i) (effOut masks l i) (w i)
  | [], w, w', _, _, h, i => by
    simp only [buildPruned, List.foldlM_nil] at h
    cases h
    simp [effIn, effOut, slice_none]
  | s :: l, w, w', hL, hax, h, i => by
    unfold buildPruned at h
    rw [List.foldlM_cons] at h
    cases hm : masks s.entry with
    | none => simp [hm] at h
    | some m =>
      simp only [hm, Option.bind_eq_bind, Option.bind_some] at h
      have hstep : ∀ i, (if m.any (fun b => !b) then applySection w s m else w) i
          = sliceAttrs (if s.exit = i then effMask masks s else none)
            (if s.entry = i ∨ i ∈ s.inters then effMask masks s else none) (w i) := by
        intro i
        by_cases ha : m.any (fun b => !b) = true
        · have : effMask masks s = some m := by simp [effMask, hm, Option.filter, ha]
          rw [if_pos ha, applySection_eq hL (by simp), this]
        · have : effMask masks s = none := by simp [effMask, hm, Option.filter, ha]
          rw [if_neg ha, this]; simp [slice_none]
      have ih := buildPruned_spec masks l _ w' hL.tail (by
        intro j; rw [hstep j]; exact (hax j).slice) h i
      rw [ih, hstep i, slice_slice (hax i)]
      · congr 1
        · unfold effIn
          by_cases he : s.exit = i
          · have hno : l.find? (fun t => decide (t.exit = i)) = none := by
              rw [List.find?_eq_none]
              intro t ht
              have := hL.exits
              rw [List.map_cons, List.nodup_cons] at this
              simp only [decide_eq_true_eq]
              rintro rfl
              exact this.1 (he ▸ List.mem_map_of_mem ht)
            simp [he, hno]
          · simp [he]
        · unfold effOut
          by_cases he : s.entry = i ∨ i ∈ s.inters
          · have hno : l.find? (fun t => decide (t.entry = i ∨ i ∈ t.inters)) = none := by
              rw [List.find?_eq_none]
              intro t ht
              simp only [decide_eq_true_eq]
              have h1 := hL.entries
              rw [List.map_cons, List.nodup_cons] at h1
              have h2 := hL.inters
              rw [List.flatMap_cons, List.nodup_append] at h2
              rintro (ht2 | ht2)
              · rcases he with he | he
                · exact h1.1 (by rw [he, ← ht2]; exact List.mem_map_of_mem ht)
                · exact (hL.sep s (by simp) t (by simp [ht]) i he).1 ht2.symm
              · rcases he with he | he
                · exact (hL.sep t (by simp [ht]) s (by simp) i ht2).1 he.symm
                · exact h2.2.2 i he i (List.mem_flatMap.2 ⟨t, ht, ht2⟩) rfl
            rw [List.find?_cons_of_pos (by simpa using he), if_pos he, hno]; simp
          · rw [List.find?_cons_of_neg (by simpa using he), if_neg he]; simp
      · by_cases he : s.exit = i
        · right
          unfold effIn
          have hno : l.find? (fun t => decide (t.exit = i)) = none := by
            rw [List.find?_eq_none]
            intro t ht
            have := hL.exits
            rw [List.map_cons, List.nodup_cons] at this
            simp only [decide_eq_true_eq]
            rintro rfl
            exact this.1 (he ▸ List.mem_map_of_mem ht)
          simp [hno]
        · left; simp [he]
      · by_cases he : s.entry = i ∨ i ∈ s.inters
        · right
          unfold effOut
          have hno : l.find? (fun t => decide (t.entry = i ∨ i ∈ t.inters)) = none := by
            rw [List.find?_eq_none]
            intro t ht
            simp only [decide_eq_true_eq]
            have h1 := hL.entries
            rw [List.map_cons, List.nodup_cons] at h1
            have h2 := hL.inters
            rw [List.flatMap_cons, List.nodup_append] at h2
            rintro (ht2 | ht2)
            · rcases he with he | he
              · exact h1.1 (by rw [he, ← ht2]; exact List.mem_map_of_mem ht)
              · exact (hL.sep s (by simp) t (by simp [ht]) i he).1 ht2.symm
            · rcases he with he | he
              · exact (hL.sep t (by simp [ht]) s (by simp) i ht2).1 he.symm
              · exact h2.2.2 i he i (List.mem_flatMap.2 ⟨t, ht, ht2⟩) rfl
          rw [hno]; rfl
        · left; simp [he]

/-- Two masks that slice an axis alike. -/
def SameSlice (sh : List ℕ) (ax : Option ℕ) (a b : Option (List Bool)) : Prop :=
  a = b ∨ ax = none ∨
    (b = none ∧ ∃ m, a = some m ∧ m.any (fun b => !b) = false ∧ ∀ k, ax = some k → sh[k]? = some m.length)

theorem count_true_of_all {m : List Bool} (h : m.any (fun b => !b) = false) : m.count true = m.length := by
  rw [List.count_eq_length]
  intro b hb
  rw [List.any_eq_false] at h
  have := h b hb
  cases b <;> simp_all

theorem SameSlice.eq {sh : List ℕ} {ax a b} (h : SameSlice sh ax a b) : pruneShape sh a ax = pruneShape sh b ax := by
  rcases h with rfl | rfl | ⟨rfl, m, rfl, hm, hk⟩
  · rfl
  · cases a <;> cases b <;> rfl
  · cases ax with
    | none => rfl
    | some k =>
      have hk := hk k rfl
      simp only [pruneShape, count_true_of_all hm]
      obtain ⟨hlt, hk⟩ := List.getElem?_eq_some_iff.1 hk
      rw [← hk]; exact List.set_getElem_self hlt

theorem slice_same {a : PAttr} {i i' o o' : Option (List Bool)} (hax : ∀ k, a.inAx = some k → a.outAx ≠ some k)
    (hi : SameSlice a.shape a.inAx i i') (ho : SameSlice a.shape a.outAx o o') :
    pruneShape (pruneShape a.shape i a.inAx) o a.outAx = pruneShape (pruneShape a.shape i' a.inAx) o' a.outAx := by
  rw [hi.eq, pruneShape_comm _ _ _ _ _ hax, ho.eq, pruneShape_comm _ _ _ _ _ hax]

theorem sameSlice_eff {masks : ℕ → Option (List Bool)} {s : Section} {m : List Bool} (hm : masks s.entry = some m)
    {sh : List ℕ} {ax : Option ℕ} (h : ∀ k, ax = some k → sh[k]? = some m.length) :
    SameSlice sh ax (some m) (effMask masks s) := by
  by_cases ha : m.any (fun b => !b) = true
  · left; simp [effMask, hm, Option.filter, ha]
  · right; right
    refine ⟨by simp [effMask, hm, Option.filter, ha], m, rfl, by simpa using ha, h⟩

theorem nodeParams_slice {w : List PAttr} {i i' o o' : Option (List Bool)}
    (h : ∀ a ∈ w, (∀ k, a.inAx = some k → a.outAx ≠ some k) ∧ SameSlice a.shape a.inAx i i' ∧
      SameSlice a.shape a.outAx o o') :
    nodeParams w i o = (((sliceAttrs i' o' w).map fun a => a.shape.prod).sum : ℕ) := by
  unfold nodeParams sliceAttrs
  rw [List.map_map]
  congr 2
  apply List.map_congr_left
  intro a ha
  obtain ⟨h1, h2, h3⟩ := h a ha
  simp only [Function.comp]
  rw [slice_same h1 h2 h3]

theorem effIn_exit {n : ℕ} {ss : List Section} (hL : Layout n ss) (masks : ℕ → Option (List Bool))
    {s : Section} (hs : s ∈ ss) : effIn masks ss s.exit = effMask masks s := by
  unfold effIn
  cases h : ss.find? fun t => decide (t.exit = s.exit) with
  | none => rw [List.find?_eq_none] at h; have := h s hs; simp at this
  | some t =>
    have ht := List.mem_of_find?_eq_some h
    have he : t.exit = s.exit := by simpa using List.find?_some h
    have : t = s := (List.nodup_map_iff_inj_on hL.entries.of_map).1 hL.exits t ht s hs he
    rw [this]; rfl

theorem effIn_other {ss : List Section} (masks : ℕ → Option (List Bool)) {i : ℕ}
    (h : ∀ s ∈ ss, s.exit ≠ i) : effIn masks ss i = none := by
  unfold effIn
  have : ss.find? (fun t => decide (t.exit = i)) = none := by
    rw [List.find?_eq_none]; intro s hs; simpa using h s hs
  rw [this]; rfl

theorem effOut_inner {n : ℕ} {ss : List Section} (hL : Layout n ss) (masks : ℕ → Option (List Bool))
    {s : Section} (hs : s ∈ ss) {i : ℕ} (hi : s.entry = i ∨ i ∈ s.inters) :
    effOut masks ss i = effMask masks s := by
  unfold effOut
  cases h : ss.find? fun t => decide (t.entry = i ∨ i ∈ t.inters) with
  | none => rw [List.find?_eq_none] at h; exact absurd hi (by simpa using h s hs)
  | some t =>
    have ht := List.mem_of_find?_eq_some h
    have he : t.entry = i ∨ i ∈ t.inters := by simpa using List.find?_some h
    have hts : t = s := by
      rcases he with he | he <;> rcases hi with hi | hi
      · exact sec_eq hL.entries ht hs (he.trans hi.symm)
      · exact absurd he.symm (hL.sep s hs t ht i hi).1
      · exact absurd hi.symm (hL.sep t ht s hs i he).1
      · by_contra hne
        have h3 := (List.nodup_flatMap.1 hL.inters).2
        have : Std.Symm (Function.onFun List.Disjoint Section.inters) := ⟨fun _ _ h => h.symm⟩
        have h4 : List.Disjoint t.inters s.inters := h3.forall ht hs hne
        exact h4 he hi
    rw [hts]; rfl

theorem effOut_other {ss : List Section} (masks : ℕ → Option (List Bool)) {i : ℕ}
    (h : ∀ s ∈ ss, ¬ (s.entry = i ∨ i ∈ s.inters)) : effOut masks ss i = none := by
  unfold effOut
  have : ss.find? (fun t => decide (t.entry = i ∨ i ∈ t.inters)) = none := by
    rw [List.find?_eq_none]; intro s hs; simpa using h s hs
  rw [this]; rfl

end MCT.Pruning
