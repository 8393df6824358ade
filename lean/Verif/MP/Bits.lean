import Verif.MP.VirtualRecon
import Verif.MP.RULemmas

set_option linter.unusedVariables false

/-!
# The bits of a tensor, and the networks a search for bit operations accepts

Further statements of C25 and C101 about `_extract_qc` and `_get_activation_nbits`
(core/common/mixed_precision/resource_utilization_tools/resource_utilization_calculator.py:346-365, 684-718) and about
the checks of the virtual graph (virtual_activation_weights_node.py:139-154, weights_activation_split.py:55-71).
-/

namespace MCT.MP

/-! ### Specification -/

/-- The output of `i` is quantized by `j`: the way from `i` back over nodes that keep the quantization of their only
input ends at `j`. -/
inductive QuantizedBy (net : Net) : ℕ → ℕ → Prop
  | here {i : ℕ} {n : Node} : net.nodes[i]? = some n → n.mode ≠ .preserve → QuantizedBy net i i
  | back {i p j : ℕ} {n : Node} : net.nodes[i]? = some n → n.mode = .preserve → n.prev = [p] → QuantizedBy net p j →
      QuantizedBy net i j

/-- Two candidates of the list have different bits for attribute `j`, which is quantized. -/
def Varies (attrs : List (ℕ × Bool)) (cs : List Cand) (j : ℕ) : Prop :=
  (∃ s, attrs[j]? = some (s, true)) ∧ ∃ c ∈ cs, ∃ d ∈ cs, c.w j ≠ d.w j

/-- `c` is the first candidate of the list with its bits of the kernel. -/
def FirstOf (k : ℕ) (cs : List Cand) (c : Cand) : Prop :=
  ∃ pre post, cs = pre ++ c :: post ∧ ∀ d ∈ pre, d.w k ≠ c.w k

/-! ### C25: bits of a tensor -/

theorem preserved_sound (net : Net) : ∀ (fuel i j : ℕ), net.preserved fuel i = some j → QuantizedBy net i j
  | 0, _, _, h => by simp [Net.preserved] at h
  | fuel + 1, i, j, h => by
    unfold Net.preserved at h
    rcases hn : net.nodes[i]? with _ | n
    · rw [hn] at h; simp at h
    · rw [hn] at h
      simp only [] at h
      by_cases hm : n.mode = .preserve
      · rw [if_pos hm] at h
        rcases hp : n.prev with _ | ⟨p, _ | ⟨q, l⟩⟩
        · rw [hp] at h; simp at h
        · rw [hp] at h
          exact .back hn hm hp (preserved_sound net fuel p j h)
        · rw [hp] at h; simp at h
      · rw [if_neg hm] at h
        injection h with h; subst h
        exact .here hn hm

theorem preserved_complete (net : Net) (topo : ∀ (i : ℕ) (n : Node), net.nodes[i]? = some n → ∀ p ∈ n.prev, p < i) {i j : ℕ}
    (h : QuantizedBy net i j) : ∀ fuel, i < fuel → net.preserved fuel i = some j := by
  induction h with
  | here hn hm =>
    intro fuel hf
    cases fuel with
    | zero => omega
    | succ f => unfold Net.preserved; rw [hn]; simp only []; rw [if_neg hm]
  | back hn hm hp _ ih =>
    intro fuel hf
    cases fuel with
    | zero => omega
    | succ f =>
      unfold Net.preserved; rw [hn]; simp only []; rw [if_pos hm, hp]
      have := topo _ _ hn
      rw [hp] at this
      exact ih f (by have := this _ (List.mem_singleton.mpr rfl); omega)

theorem uniqueBits_some {bs : List ℕ} {b : ℕ} (h : uniqueBits bs = some b) : b ∈ bs ∧ ∀ x ∈ bs, x = b := by
  unfold uniqueBits at h
  rcases hd : bs.dedup with _ | ⟨a, _ | ⟨c, l⟩⟩
  · rw [hd] at h; simp at h
  · rw [hd] at h
    injection h with h; subst h
    refine ⟨List.mem_dedup.mp (by rw [hd]; simp), fun x hx => ?_⟩
    have := List.mem_dedup.mpr hx
    rw [hd] at this
    simpa using this
  · rw [hd] at h; simp at h

theorem confAct_iff (n : Node) :
    n.confAct = true ↔ n.mode = .quant ∧ ∃ c ∈ n.cands, ∃ d ∈ n.cands, c.aBits ≠ d.aBits := by
  unfold Node.confAct
  rw [Bool.and_eq_true, decide_eq_true_eq]
  have := allEqual_iff (n.cands.map Cand.aBits)
  constructor
  · rintro ⟨h1, h2⟩
    refine ⟨h1, ?_⟩
    by_contra hne
    push Not at hne
    rw [this.mpr (by
      intro a ha b hb
      obtain ⟨c, hc, rfl⟩ := List.mem_map.mp ha
      obtain ⟨d, hd, rfl⟩ := List.mem_map.mp hb
      exact hne c hc d hd)] at h2
    simp at h2
  · rintro ⟨h1, c, hc, d, hd, hne⟩
    refine ⟨h1, ?_⟩
    rcases hb : allEqual (n.cands.map Cand.aBits) with _ | _
    · rfl
    · exact absurd (this.mp hb _ (List.mem_map_of_mem hc) _ (List.mem_map_of_mem hd)) hne

/-- **C25 (bits).**  The bits counted for a tensor are those of the node that quantizes it: if its candidates differ in
the bits of the activation, those of the selected candidate; if not, the bits all of them have; and 32 if that node does
not quantize its activation. -/
theorem C25_bits (net : Net) (cfg : ℕ → ℕ) (i b : ℕ) (h : net.actBits cfg i = some b) :
    ∃ j n, QuantizedBy net i j ∧ net.nodes[j]? = some n ∧
      (n.mode = .quant → (∃ c ∈ n.cands, ∃ d ∈ n.cands, c.aBits ≠ d.aBits) →
        ∃ c, n.cands[cfg j]? = some c ∧ b = c.aBits) ∧
      (n.mode = .quant → (∀ c ∈ n.cands, ∀ d ∈ n.cands, c.aBits = d.aBits) → ∀ c ∈ n.cands, b = c.aBits) ∧
      (n.mode ≠ .quant → b = 32) := by
  unfold Net.actBits at h
  rcases hp : net.preserved (net.nodes.length + 1) i with _ | j
  · rw [hp] at h; simp at h
  rw [hp] at h
  simp only [] at h
  rcases hn : net.nodes[j]? with _ | n
  · rw [hn] at h; simp at h
  rw [hn] at h
  simp only [] at h
  refine ⟨j, n, preserved_sound _ _ _ _ hp, hn, ?_⟩
  by_cases hc : n.conf = true
  · rw [if_pos hc] at h
    rcases hq : n.cands[cfg j]? with _ | c
    · rw [hq] at h; simp at h
    rw [hq] at h
    simp only [] at h
    injection h with h
    refine ⟨fun hm _ => ⟨c, rfl, ?_⟩, fun hm ha d hd => ?_, fun hm => ?_⟩
    · rw [if_pos hm] at h; exact h.symm
    · rw [if_pos hm] at h; rw [← h]; exact ha _ (List.mem_of_getElem? hq) _ hd
    · rw [if_neg hm] at h; exact h.symm
  · rw [if_neg hc] at h
    refine ⟨fun hm hv => absurd ?_ hc, fun hm ha d hd => ?_, fun hm => ?_⟩
    · unfold Node.conf
      rw [(confAct_iff n).mpr ⟨hm, hv⟩]; rfl
    · rw [if_pos hm] at h
      exact ((uniqueBits_some h).2 _ (List.mem_map_of_mem hd)).symm
    · rw [if_neg hm] at h; injection h with h; exact h.symm

/-- **C25 (bits, existence).**  In a sorted graph the bits are found for each tensor that some node quantizes, if that
node has candidates and the selection is one of them. -/
theorem C25_bits_exist (net : Net) (cfg : ℕ → ℕ) (topo : ∀ (i : ℕ) (n : Node), net.nodes[i]? = some n → ∀ p ∈ n.prev, p < i)
    (i j : ℕ) (n : Node) (hi : i < net.nodes.length) (h : QuantizedBy net i j) (hn : net.nodes[j]? = some n)
    (hc : cfg j < n.cands.length) : ∃ b, net.actBits cfg i = some b := by
  unfold Net.actBits
  rw [preserved_complete net topo h _ (by omega)]
  simp only [hn]
  by_cases hcf : n.conf = true
  · rw [if_pos hcf, List.getElem?_eq_getElem hc]
    exact ⟨_, rfl⟩
  · rw [if_neg hcf]
    by_cases hm : n.mode = .quant
    · rw [if_pos hm]
      have hall : ∀ x ∈ n.cands.map Cand.aBits, ∀ y ∈ n.cands.map Cand.aBits, x = y := by
        have : ¬ n.confAct = true := fun h => hcf (by unfold Node.conf; rw [h]; rfl)
        rw [confAct_iff] at this
        push Not at this
        intro x hx y hy
        obtain ⟨c, hc, rfl⟩ := List.mem_map.mp hx
        obtain ⟨d, hd, rfl⟩ := List.mem_map.mp hy
        exact this hm c hc d hd
      unfold uniqueBits
      have nd := List.nodup_dedup (n.cands.map Cand.aBits)
      rcases hd : (n.cands.map Cand.aBits).dedup with _ | ⟨a, _ | ⟨c, l⟩⟩
      · have : n.cands[cfg j].aBits ∈ (n.cands.map Cand.aBits).dedup :=
          List.mem_dedup.mpr (List.mem_map_of_mem (List.getElem_mem hc))
        rw [hd] at this; simp at this
      · exact ⟨a, rfl⟩
      · rw [hd] at nd
        have ha : a ∈ n.cands.map Cand.aBits := List.mem_dedup.mp (by rw [hd]; simp)
        have hb : c ∈ n.cands.map Cand.aBits := List.mem_dedup.mp (by rw [hd]; simp)
        rw [hall a ha c hb] at nd
        simp at nd
    · rw [if_neg hm]; exact ⟨_, rfl⟩

/-! ### C101: networks that are accepted -/

theorem mem_firstBy_iff {β : Type} [DecidableEq β] (f : Cand → β) (c : Cand) : ∀ (cs : List Cand) (seen : List β),
    c ∈ firstBy f seen cs ↔ f c ∉ seen ∧ ∃ pre post, cs = pre ++ c :: post ∧ ∀ d ∈ pre, f d ≠ f c
  | [], seen => by simp [firstBy]
  | a :: cs, seen => by
    unfold firstBy
    have split : (∃ pre post, a :: cs = pre ++ c :: post ∧ ∀ d ∈ pre, f d ≠ f c) ↔
        a = c ∨ (f a ≠ f c ∧ ∃ pre post, cs = pre ++ c :: post ∧ ∀ d ∈ pre, f d ≠ f c) := by
      constructor
      · rintro ⟨pre, post, e, h⟩
        cases pre with
        | nil => left; simpa using (List.cons.inj e).1
        | cons x pre =>
          obtain ⟨rfl, e'⟩ := List.cons.inj e
          exact Or.inr ⟨h _ (by simp), pre, post, e', fun d hd => h d (by simp [hd])⟩
      · rintro (rfl | ⟨h0, pre, post, e, h⟩)
        · exact ⟨[], cs, rfl, by simp⟩
        · refine ⟨a :: pre, post, by rw [e]; rfl, fun d hd => ?_⟩
          rcases List.mem_cons.mp hd with rfl | hd
          · exact h0
          · exact h d hd
    rw [split]
    by_cases ha : f a ∈ seen
    · rw [if_pos ha, mem_firstBy_iff f c cs seen]
      constructor
      · rintro ⟨h1, h2⟩
        exact ⟨h1, Or.inr ⟨fun e => h1 (e ▸ ha), h2⟩⟩
      · rintro ⟨h1, rfl | ⟨_, h2⟩⟩
        · exact absurd ha h1
        · exact ⟨h1, h2⟩
    · rw [if_neg ha, List.mem_cons, mem_firstBy_iff f c cs (f a :: seen)]
      constructor
      · rintro (rfl | ⟨h1, h2⟩)
        · exact ⟨ha, Or.inl rfl⟩
        · rw [List.mem_cons] at h1
          push Not at h1
          exact ⟨h1.2, Or.inr ⟨fun e => h1.1 e.symm, h2⟩⟩
      · rintro ⟨h1, rfl | ⟨h0, h2⟩⟩
        · exact Or.inl rfl
        · refine Or.inr ⟨?_, h2⟩
          rw [List.mem_cons]
          push Not
          exact ⟨fun e => h0 e.symm, h1⟩

theorem mem_uniqueW_iff (k : ℕ) (cs : List Cand) (c : Cand) : c ∈ uniqueW k cs ↔ FirstOf k cs c := by
  unfold uniqueW FirstOf
  rw [mem_firstBy_iff]
  simp

theorem confWeight_iff (n : Node) (j : ℕ) : n.confWeight j = true ↔ Varies n.attrs n.cands j := by
  unfold Node.confWeight Varies
  rcases ha : n.attrs[j]? with _ | ⟨s, q⟩
  · simp
  · simp only [Bool.and_eq_true, Bool.not_eq_true', Option.some.injEq, Prod.mk.injEq, exists_and_left]
    have := allEqual_iff (n.cands.map fun c => c.w j)
    constructor
    · rintro ⟨h1, h2⟩
      refine ⟨⟨s, rfl, h1⟩, ?_⟩
      by_contra hne
      push Not at hne
      rw [this.mpr (by
        intro a ha b hb
        obtain ⟨c, hc, rfl⟩ := List.mem_map.mp ha
        obtain ⟨d, hd, rfl⟩ := List.mem_map.mp hb
        exact hne c hc d hd)] at h2
      simp at h2
    · rintro ⟨⟨_, _, h1⟩, c, hc, d, hd, hne⟩
      refine ⟨h1, ?_⟩
      rcases hb : allEqual (n.cands.map fun c => c.w j) with _ | _
      · exact hb
      · exact absurd (this.mp hb _ (List.mem_map_of_mem (f := fun c : Cand => c.w j) hc) _
          (List.mem_map_of_mem (f := fun c : Cand => c.w j) hd)) hne

theorem wtsPart_varies (n : Node) (k j : ℕ) :
    (n.wtsPart k).confWeight j = true ↔ (∃ s, n.attrs[j]? = some (s, true)) ∧
      ∃ c d, FirstOf k n.cands c ∧ FirstOf k n.cands d ∧ c.w j ≠ d.w j := by
  rw [confWeight_iff]
  unfold Varies Node.wtsPart
  simp only [List.mem_map]
  constructor
  · rintro ⟨h, _, ⟨c, hc, rfl⟩, _, ⟨d, hd, rfl⟩, hne⟩
    exact ⟨h, c, d, (mem_uniqueW_iff _ _ _).mp hc, (mem_uniqueW_iff _ _ _).mp hd, hne⟩
  · rintro ⟨h, c, d, hc, hd, hne⟩
    exact ⟨h, _, ⟨c, (mem_uniqueW_iff _ _ _).mpr hc, rfl⟩, _, ⟨d, (mem_uniqueW_iff _ _ _).mpr hd, rfl⟩, hne⟩

theorem one_conf (p : ℕ → Bool) (m k : ℕ) (hp : ∀ j, p j = true → j < m) :
    (!(decide (1 < ((List.range m).filter p).length) ||
      (decide (((List.range m).filter p).length = 1) && !p k))) = true ↔ ∀ j, p j = true → j = k := by
  have nd : ((List.range m).filter p).Nodup := List.nodup_range.filter _
  have mem : ∀ j, j ∈ (List.range m).filter p ↔ p j = true := by
    intro j
    rw [List.mem_filter, List.mem_range]
    exact ⟨fun h => h.2, fun h => ⟨hp j h, h⟩⟩
  generalize (List.range m).filter p = l at nd mem
  rcases l with _ | ⟨a, _ | ⟨b, l⟩⟩
  · simp only [List.length_nil]
    refine ⟨fun _ j hj => absurd ((mem j).mpr hj) (by simp), fun _ => by simp⟩
  · simp only [List.length_singleton, List.mem_singleton] at mem ⊢
    simp only [lt_irrefl, decide_false, decide_true, Bool.true_and, Bool.false_or, Bool.not_not]
    constructor
    · intro h j hj
      rw [(mem j).mpr hj, (mem k).mpr h]
    · intro h
      have := h a ((mem a).mp rfl)
      rw [← this]; exact (mem a).mp rfl
  · simp only [List.length_cons]
    constructor
    · intro h
      simp at h
    · intro h
      have ha := h a ((mem a).mp (by simp))
      have hb := h b ((mem b).mp (by simp))
      rw [ha, hb] at nd
      simp at nd

theorem pairOk_iff (na nw : Node) (k : ℕ) :
    na.pairOk nw k = true ↔ (∀ j, (nw.wtsPart k).confWeight j = true → j = k) ∧
      (na.kernel = none → ∀ j, ¬ Varies na.attrs na.cands j) := by
  unfold Node.pairOk
  dsimp only
  rw [Bool.and_eq_true]
  have lt : ∀ (n : Node) (j : ℕ), n.confWeight j = true → j < n.attrs.length := by
    intro n j h
    obtain ⟨⟨s, hs⟩, _⟩ := (confWeight_iff n j).mp h
    exact (List.getElem?_eq_some_iff.mp hs).1
  refine and_congr (one_conf _ _ _ (fun j hj => lt (nw.wtsPart k) j hj)) ?_
  have e : (!(!na.feeding.attrs.isEmpty && na.feeding.anyConfWeight)) = true ↔
      ∀ j, na.feeding.confWeight j ≠ true := by
    unfold Node.anyConfWeight
    constructor
    · intro h j hj
      have l := lt _ _ hj
      have h1 : na.feeding.attrs.isEmpty = false := by
        rcases h0 : na.feeding.attrs with _ | _
        · rw [h0] at l; simp at l
        · rfl
      have h2 : (List.range na.feeding.attrs.length).any na.feeding.confWeight = true :=
        List.any_eq_true.mpr ⟨j, List.mem_range.mpr l, hj⟩
      rw [h1, h2] at h
      simp at h
    · intro h
      have h2 : (List.range na.feeding.attrs.length).any na.feeding.confWeight = false := by
        rw [List.any_eq_false]; exact fun j _ => h j
      rw [h2]; simp
  rw [e]
  unfold Node.feeding
  rcases hk : na.kernel with _ | k'
  · simp only [Option.isSome_none, Bool.false_eq_true, if_false, true_implies]
    exact forall_congr' fun j => not_congr (confWeight_iff na j)
  · simp only [Option.isSome_some, if_true]
    refine ⟨fun _ h => (by cases h), fun _ j => ?_⟩
    intro h
    obtain ⟨⟨s, hs⟩, _⟩ := (confWeight_iff _ j).mp h
    simp [Node.actPart] at hs

theorem splitOk_iff (n : Node) : n.splitOk = true ↔
    ∀ k, n.kernel = some k → Varies n.attrs n.cands k →
      (n.mode = .quant ∧ ∃ c ∈ n.cands, ∃ d ∈ n.cands, c.aBits ≠ d.aBits) →
      ∀ c ∈ n.cands, ∀ d ∈ n.cands, ∃ q ∈ n.cands, q.w k = c.w k ∧ q.aBits = d.aBits := by
  constructor
  · intro h k hk hw ha c hc d hd
    exact splitOk_spec h hk ((confWeight_iff _ _).mpr hw) ((confAct_iff n).mpr ha) hc hd
  · intro h
    unfold Node.splitOk
    rcases hk : n.kernel with _ | k
    · rfl
    · simp only []
      by_cases hb : (n.confWeight k && n.confAct) = true
      · rw [if_pos hb]
        rw [Bool.and_eq_true] at hb
        refine List.all_eq_true.mpr fun w hw => List.all_eq_true.mpr fun a ha => List.any_eq_true.mpr ?_
        obtain ⟨c, hc, ec⟩ := (mem_uniqueW_bits k n.cands _).mp ⟨w, hw, rfl⟩
        obtain ⟨d, hd, ed⟩ := (mem_uniqueA_bits n.cands _).mp ⟨a, ha, rfl⟩
        obtain ⟨q, hq, e1, e2⟩ := h k hk ((confWeight_iff _ _).mp hb.1) ((confAct_iff n).mp hb.2) c hc d hd
        exact ⟨q, hq, by simp [e1, e2, ec, ed]⟩
      · rw [if_neg hb]

/-- **C101 (accepted networks).**  The search for bit operations accepts a network exactly if each node with a kernel
has one input; a node whose kernel and activation both vary has all combinations of their bits; and, for a node with a
kernel whose input feeds nothing else, only the kernel varies among the candidates that are first with their bits of the
kernel, and no weight of the node that feeds it varies, if that is a node without a kernel. -/
theorem C101_accepted (net : Net) : net.vcheck = true ↔ ∀ n ∈ net.nodes,
    (∀ k, n.kernel = some k → Varies n.attrs n.cands k →
      (n.mode = .quant ∧ ∃ c ∈ n.cands, ∃ d ∈ n.cands, c.aBits ≠ d.aBits) →
      ∀ c ∈ n.cands, ∀ d ∈ n.cands, ∃ q ∈ n.cands, q.w k = c.w k ∧ q.aBits = d.aBits) ∧
    ∀ k, n.kernel = some k → ∃ a na, n.prev = [a] ∧ net.nodes[a]? = some na ∧
      ((net.nodes.flatMap Node.prev).count a ≤ 1 →
        (∀ j, (∃ s, n.attrs[j]? = some (s, true)) →
          (∃ c d, FirstOf k n.cands c ∧ FirstOf k n.cands d ∧ c.w j ≠ d.w j) → j = k) ∧
        (na.kernel = none → ∀ j, ¬ Varies na.attrs na.cands j)) := by
  unfold Net.vcheck
  rw [List.all_eq_true]
  refine forall_congr' fun n => forall_congr' fun hn => ?_
  rw [Bool.and_eq_true, splitOk_iff]
  refine and_congr Iff.rfl ?_
  rcases hk : n.kernel with _ | k
  · simp
  · simp only []
    have one : ∀ a na, net.nodes[a]? = some na → ((!net.single a || na.pairOk n k) = true ↔
        ((net.nodes.flatMap Node.prev).count a ≤ 1 →
        (∀ j, (∃ s, n.attrs[j]? = some (s, true)) →
          (∃ c d, FirstOf k n.cands c ∧ FirstOf k n.cands d ∧ c.w j ≠ d.w j) → j = k) ∧
        (na.kernel = none → ∀ j, ¬ Varies na.attrs na.cands j))) := by
      intro a na hna
      rw [Bool.or_eq_true, Bool.not_eq_true', pairOk_iff]
      have e : net.single a = false ↔ ¬ (net.nodes.flatMap Node.prev).count a ≤ 1 := by
        unfold Net.single Net.outDeg
        simp
      rw [e, ← imp_iff_not_or]
      refine imp_congr_right fun _ => and_congr (forall_congr' fun j => ?_) Iff.rfl
      rw [wtsPart_varies, and_imp]
    constructor
    · intro h k' hk'
      injection hk' with hk'; subst hk'
      rcases hp : n.prev with _ | ⟨a, _ | ⟨b, l⟩⟩
      · rw [hp] at h; simp at h
      · rw [hp] at h
        simp only [] at h
        rcases hna : net.nodes[a]? with _ | na
        · rw [hna] at h; simp at h
        · rw [hna] at h
          exact ⟨a, na, rfl, hna, (one a na hna).mp h⟩
      · rw [hp] at h; simp at h
    · intro h
      obtain ⟨a, na, hp, hna, h'⟩ := h k rfl
      rw [hp]
      simp only [hna]
      exact (one a na hna).mpr h'

/-- An input, a convolution with two weights of 8 or 4 bits, and an addition that keeps its quantization. -/
def exBits : Net where
  nodes := [⟨false, [], none, [⟨8, []⟩], .quant, 4, false, 0, []⟩,
    ⟨false, [(16, true)], some 0, [⟨8, [8]⟩, ⟨8, [4]⟩, ⟨4, [8]⟩, ⟨4, [4]⟩], .quant, 4, false, 9, [0]⟩,
    ⟨false, [], none, [⟨8, []⟩], .preserve, 4, false, 0, [1]⟩]
  cuts := []

example : exBits.actBits (fun _ => 2) 2 = some 4 ∧ exBits.actBits (fun _ => 0) 0 = some 8 ∧ exBits.vcheck = true ∧
    QuantizedBy exBits 2 1 := by
  refine ⟨by decide +kernel, by decide +kernel, by decide +kernel, ?_⟩
  exact .back rfl rfl rfl (.here rfl (by decide))

/-- With varying bits of a constant before the convolution the search is refused. -/
example : ({ exBits with nodes := exBits.nodes.set 0 (Node.mk false [(4, true)] none [⟨8, [8]⟩, ⟨8, [4]⟩] .quant 4 false 0 []) } : Net).vcheck = false := by
  decide +kernel

end MCT.MP
