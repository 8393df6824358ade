import Verif.MP.Virtual
import Verif.MP.Refine

set_option linter.unusedSectionVars false
set_option linter.unusedVariables false
set_option linter.unusedSimpArgs false

/-! # The virtual graph: candidates, holders and reconstruction -/

namespace MCT.MP

open MCT.MPSpec

/-! ### Candidate lists -/

theorem mem_firstBy {β : Type} [DecidableEq β] (f : Cand → β) (seen : List β) (cs : List Cand) (c : Cand)
    (h : c ∈ firstBy f seen cs) : c ∈ cs := by
  induction cs generalizing seen with
  | nil => simp [firstBy] at h
  | cons a l ih =>
    unfold firstBy at h
    split_ifs at h with hs
    · exact List.mem_cons_of_mem _ (ih _ h)
    · rcases List.mem_cons.mp h with e | e
      · rw [e]; simp
      · exact List.mem_cons_of_mem _ (ih _ e)

theorem firstBy_cover {β : Type} [DecidableEq β] (f : Cand → β) (seen : List β) (cs : List Cand) (c : Cand)
    (h : c ∈ cs) (hs : f c ∉ seen) : ∃ d ∈ firstBy f seen cs, f d = f c := by
  induction cs generalizing seen with
  | nil => simp at h
  | cons a l ih =>
    unfold firstBy
    by_cases ha : f a ∈ seen
    · rw [if_pos ha]
      rcases List.mem_cons.mp h with e | e
      · rw [e] at hs; exact absurd ha hs
      · exact ih _ e hs
    · rw [if_neg ha]
      by_cases hfa : f a = f c
      · exact ⟨a, by simp, hfa⟩
      · rcases List.mem_cons.mp h with e | e
        · rw [e] at hfa; exact absurd rfl hfa
        · obtain ⟨d, hd, he⟩ := ih (f a :: seen) e (by
            intro hm
            rcases List.mem_cons.mp hm with e' | e'
            · exact hfa e'.symm
            · exact hs e')
          exact ⟨d, List.mem_cons_of_mem _ hd, he⟩

theorem mem_uniqueA_bits (cs : List Cand) (b : ℕ) :
    (∃ c ∈ uniqueA cs, c.aBits = b) ↔ ∃ c ∈ cs, c.aBits = b := by
  constructor
  · rintro ⟨c, hc, e⟩; exact ⟨c, mem_firstBy _ _ _ _ hc, e⟩
  · rintro ⟨c, hc, e⟩
    obtain ⟨d, hd, h⟩ := firstBy_cover Cand.aBits [] cs c hc (by simp)
    exact ⟨d, hd, h.trans e⟩

theorem mem_uniqueW_bits (k : ℕ) (cs : List Cand) (b : ℕ) :
    (∃ c ∈ uniqueW k cs, c.w k = b) ↔ ∃ c ∈ cs, c.w k = b := by
  constructor
  · rintro ⟨c, hc, e⟩; exact ⟨c, mem_firstBy _ _ _ _ hc, e⟩
  · rintro ⟨c, hc, e⟩
    obtain ⟨d, hd, h⟩ := firstBy_cover (fun c : Cand => c.w k) [] cs c hc (by simp)
    exact ⟨d, hd, h.trans e⟩

theorem mem_pairCands {k : ℕ} {as ws : List Cand} {c : Cand} :
    c ∈ pairCands k as ws ↔ ∃ a ∈ as, ∃ w ∈ uniqueW k ws, c = ⟨a.aBits, w.wBits⟩ := by
  unfold pairCands
  rw [(List.perm_insertionSort (keyGe k) _).mem_iff, List.mem_flatMap]
  constructor
  · rintro ⟨a, ha, h⟩
    obtain ⟨w, hw, e⟩ := List.mem_map.mp h
    exact ⟨a, ha, w, hw, e.symm⟩
  · rintro ⟨a, ha, w, hw, e⟩
    exact ⟨a, ha, List.mem_map.mpr ⟨w, hw, e.symm⟩⟩

theorem uniqueW_ne_nil {k : ℕ} {cs : List Cand} (h : cs ≠ []) : uniqueW k cs ≠ [] := by
  obtain ⟨c, hc⟩ := List.exists_mem_of_ne_nil _ h
  obtain ⟨d, hd, _⟩ := (mem_uniqueW_bits k cs (c.w k)).mpr ⟨c, hc, rfl⟩
  exact List.ne_nil_of_mem hd

theorem uniqueA_ne_nil {cs : List Cand} (h : cs ≠ []) : uniqueA cs ≠ [] := by
  obtain ⟨c, hc⟩ := List.exists_mem_of_ne_nil _ h
  obtain ⟨d, hd, _⟩ := (mem_uniqueA_bits cs c.aBits).mpr ⟨c, hc, rfl⟩
  exact List.ne_nil_of_mem hd

/-- A list of bits takes one value: whether it does depends on the values only. -/
theorem allEqual_congr {l l' : List ℕ} (h : ∀ x, x ∈ l ↔ x ∈ l') : allEqual l = allEqual l' := by
  rw [Bool.eq_iff_iff, allEqual_iff, allEqual_iff]
  constructor
  · intro H a ha b hb; exact H a ((h a).mpr ha) b ((h b).mpr hb)
  · intro H a ha b hb; exact H a ((h a).mp ha) b ((h b).mp hb)

theorem allEqual_sub {l l' : List ℕ} (h : ∀ x ∈ l, x ∈ l') (h' : allEqual l' = true) : allEqual l = true := by
  rw [allEqual_iff] at h' ⊢
  intro a ha b hb; exact h' a (h a ha) b (h b hb)

theorem mem_map_bits {f : Cand → ℕ} {cs : List Cand} {b : ℕ} : b ∈ cs.map f ↔ ∃ c ∈ cs, f c = b :=
  List.mem_map

/-! ### The parts of a node -/

theorem feeding_mode (n : Node) : n.feeding.mode = n.mode := by
  unfold Node.feeding; split_ifs <;> rfl

theorem feeding_bits (n : Node) (b : ℕ) :
    (∃ c ∈ n.feeding.cands, c.aBits = b) ↔ ∃ c ∈ n.cands, c.aBits = b := by
  unfold Node.feeding
  split_ifs
  · exact mem_uniqueA_bits n.cands b
  · rfl

theorem feeding_ne_nil {n : Node} (h : n.cands ≠ []) : n.feeding.cands ≠ [] := by
  unfold Node.feeding
  split_ifs
  · exact uniqueA_ne_nil h
  · exact h

theorem wtsPart_bits (n : Node) (k : ℕ) (b : ℕ) :
    (∃ c ∈ (n.wtsPart k).cands, c.w k = b) ↔ ∃ c ∈ n.cands, c.w k = b := by
  rw [← mem_uniqueW_bits k n.cands b]
  unfold Node.wtsPart
  constructor
  · rintro ⟨c, hc, e⟩
    obtain ⟨d, hd, h⟩ := List.mem_map.mp hc
    exact ⟨d, hd, by rw [← e, ← h]; rfl⟩
  · rintro ⟨c, hc, e⟩
    exact ⟨_, List.mem_map.mpr ⟨c, hc, rfl⟩, e⟩

/-- Candidates of the weights part carry the weights of original candidates. -/
theorem wtsPart_mem {n : Node} {k : ℕ} {c : Cand} (h : c ∈ (n.wtsPart k).cands) :
    ∃ d ∈ n.cands, ∀ j, c.w j = d.w j := by
  obtain ⟨d, hd, e⟩ := List.mem_map.mp h
  exact ⟨d, mem_firstBy _ _ _ _ hd, fun j => by rw [← e]; rfl⟩

theorem wtsPart_ne_nil {n : Node} {k : ℕ} (h : n.cands ≠ []) : (n.wtsPart k).cands ≠ [] := by
  unfold Node.wtsPart
  simpa using uniqueW_ne_nil (k := k) h

theorem pair_mem {na nw : Node} {k : ℕ} {c : Cand} (h : c ∈ (na.pair nw k).cands) :
    (∃ d ∈ na.cands, c.aBits = d.aBits) ∧ ∃ d ∈ nw.cands, ∀ j, c.w j = d.w j := by
  obtain ⟨a, ha, w, hw, e⟩ := mem_pairCands.mp h
  refine ⟨?_, ?_⟩
  · obtain ⟨d, hd, e'⟩ := (feeding_bits na a.aBits).mp ⟨a, ha, rfl⟩
    exact ⟨d, hd, by rw [e, e']⟩
  · obtain ⟨d, hd, e'⟩ := wtsPart_mem (mem_firstBy _ _ _ _ hw)
    exact ⟨d, hd, fun j => by rw [← e' j, e]; rfl⟩

/-- Every combination of bits is a candidate of the joined node. -/
theorem pair_cover {na nw : Node} {k : ℕ} {ca cw : Cand} (ha : ca ∈ na.cands) (hw : cw ∈ nw.cands) :
    ∃ c ∈ (na.pair nw k).cands, c.aBits = ca.aBits ∧ c.w k = cw.w k := by
  obtain ⟨a, ha', ea⟩ := (feeding_bits na ca.aBits).mpr ⟨ca, ha, rfl⟩
  obtain ⟨w, hw', ew⟩ := (mem_uniqueW_bits k (nw.wtsPart k).cands (cw.w k)).mpr
    ((wtsPart_bits nw k _).mpr ⟨cw, hw, rfl⟩)
  exact ⟨_, mem_pairCands.mpr ⟨a, ha', w, hw', rfl⟩, ea, ew⟩

theorem confWeight_lt {n : Node} {k : ℕ} (h : n.confWeight k = true) : k < n.attrs.length := by
  unfold Node.confWeight at h
  by_contra hk
  rw [List.getElem?_eq_none (by omega)] at h
  simp at h

theorem anyConfWeight_iff (n : Node) : n.anyConfWeight = true ↔ ∃ k, n.confWeight k = true := by
  unfold Node.anyConfWeight
  rw [List.any_eq_true]
  constructor
  · rintro ⟨k, _, h⟩; exact ⟨k, h⟩
  · rintro ⟨k, h⟩; exact ⟨k, List.mem_range.mpr (confWeight_lt h), h⟩

/-- Configurability of an attribute depends on the attributes and the values of the candidates. -/
theorem confWeight_congr {n n' : Node} {k : ℕ} (ha : n'.attrs = n.attrs)
    (hv : ∀ b, (∃ c ∈ n'.cands, c.w k = b) ↔ ∃ c ∈ n.cands, c.w k = b) :
    n'.confWeight k = n.confWeight k := by
  have : allEqual (n'.cands.map fun c => c.w k) = allEqual (n.cands.map fun c => c.w k) := by
    apply allEqual_congr
    intro x
    rw [List.mem_map, List.mem_map]; exact hv x
  unfold Node.confWeight
  rw [ha]
  rcases n.attrs[k]? with _ | ⟨s, q⟩
  · rfl
  · simp only [this]

theorem confWeight_sub {n n' : Node} {k : ℕ} (ha : n'.attrs = n.attrs)
    (hv : ∀ c ∈ n'.cands, ∃ d ∈ n.cands, d.w k = c.w k) (h : n.confWeight k = false) :
    n'.confWeight k = false := by
  unfold Node.confWeight at h ⊢
  rw [ha]
  rcases hk : n.attrs[k]? with _ | ⟨s, q⟩
  · rfl
  · rw [hk] at h
    simp only [] at h ⊢
    cases q with
    | false => rfl
    | true =>
      simp only [Bool.true_and, Bool.not_eq_false'] at h ⊢
      apply allEqual_sub _ h
      intro x hx
      obtain ⟨c, hc, e⟩ := List.mem_map.mp hx
      obtain ⟨d, hd, e'⟩ := hv c hc
      exact List.mem_map.mpr ⟨d, hd, by rw [e', e]⟩

theorem confAct_congr {n n' : Node} (hm : n'.mode = n.mode)
    (hv : ∀ b, (∃ c ∈ n'.cands, c.aBits = b) ↔ ∃ c ∈ n.cands, c.aBits = b) : n'.confAct = n.confAct := by
  have : allEqual (n'.cands.map Cand.aBits) = allEqual (n.cands.map Cand.aBits) := by
    apply allEqual_congr
    intro x
    rw [List.mem_map, List.mem_map]; exact hv x
  unfold Node.confAct
  rw [hm, this]

theorem actPart_confAct (n : Node) : n.actPart.confAct = n.confAct :=
  confAct_congr rfl (mem_uniqueA_bits n.cands)

theorem pair_confAct {na nw : Node} {k : ℕ} (hw : nw.cands ≠ []) : (na.pair nw k).confAct = na.confAct := by
  refine confAct_congr rfl fun b => ?_
  constructor
  · rintro ⟨c, hc, e⟩
    obtain ⟨⟨d, hd, h⟩, _⟩ := pair_mem hc
    exact ⟨d, hd, h.symm.trans e⟩
  · rintro ⟨c, hc, e⟩
    obtain ⟨cw, hcw⟩ := List.exists_mem_of_ne_nil _ hw
    obtain ⟨d, hd, h, _⟩ := pair_cover (k := k) hc hcw
    exact ⟨d, hd, h.trans e⟩

/-- The weights part varies in what the node varies, when only the kernel does. -/
theorem wtsPart_confWeight {n : Node} {k : ℕ} (hk : ∀ j, n.confWeight j = true → j = k) (j : ℕ) :
    (n.wtsPart k).confWeight j = n.confWeight j := by
  by_cases e : j = k
  · rw [e]; exact confWeight_congr rfl (wtsPart_bits n k)
  · have hf : n.confWeight j = false := by
      cases h : n.confWeight j
      · rfl
      · exact absurd (hk j h) e
    rw [hf]
    apply confWeight_sub (n := n) (n' := n.wtsPart k) (by rfl) _ hf
    intro c hc
    obtain ⟨d, hd, h⟩ := wtsPart_mem hc
    exact ⟨d, hd, (h j).symm⟩

theorem pair_confWeight {na nw : Node} {k : ℕ} (ha : na.cands ≠ [])
    (hk : ∀ j, nw.confWeight j = true → j = k) (j : ℕ) :
    (na.pair nw k).confWeight j = nw.confWeight j := by
  by_cases e : j = k
  · rw [e]
    refine confWeight_congr (by rfl) fun b => ?_
    constructor
    · rintro ⟨c, hc, e⟩
      obtain ⟨_, d, hd, h⟩ := pair_mem hc
      exact ⟨d, hd, (h k).symm.trans e⟩
    · rintro ⟨c, hc, e⟩
      obtain ⟨ca, hca⟩ := List.exists_mem_of_ne_nil _ ha
      obtain ⟨d, hd, _, h⟩ := pair_cover (k := k) hca hc
      exact ⟨d, hd, h.trans e⟩
  · have hf : nw.confWeight j = false := by
      cases h : nw.confWeight j
      · rfl
      · exact absurd (hk j h) e
    rw [hf]
    apply confWeight_sub (n := nw) (by rfl) _ hf
    intro c hc
    obtain ⟨_, d, hd, h⟩ := pair_mem hc
    exact ⟨d, hd, (h j).symm⟩

theorem positions_mem {p : Cand → Bool} {cs : List Cand} {x : ℕ} :
    x ∈ positions p cs ↔ ∃ c, cs[x]? = some c ∧ p c = true := by
  unfold positions
  rw [List.mem_filter, List.mem_range]
  constructor
  · rintro ⟨hx, h⟩
    rw [List.getElem?_eq_getElem hx] at h
    exact ⟨_, List.getElem?_eq_getElem hx, h⟩
  · rintro ⟨c, hc, h⟩
    refine ⟨(List.getElem?_eq_some_iff.mp hc).1, ?_⟩
    rw [hc]; exact h

theorem positions_nodup (p : Cand → Bool) (cs : List Cand) : (positions p cs).Nodup :=
  List.Nodup.filter _ List.nodup_range

/-! ### The virtual nodes -/

theorem count_one {l : List Node} {i : ℕ} {n : Node} {j : ℕ} (h : l[i]? = some n) :
    n.prev.count j ≤ (l.flatMap Node.prev).count j := by
  induction l generalizing i with
  | nil => simp at h
  | cons a l ih =>
    rw [List.flatMap_cons, List.count_append]
    cases i with
    | zero => simp at h; rw [h]; omega
    | succ i => have := ih (by simpa using h); omega

theorem count_two {l : List Node} {i i' : ℕ} {n n' : Node} {j : ℕ} (hi : i < i') (h : l[i]? = some n)
    (h' : l[i']? = some n') :
    n.prev.count j + n'.prev.count j ≤ (l.flatMap Node.prev).count j := by
  induction l generalizing i i' with
  | nil => simp at h
  | cons a l ih =>
    rw [List.flatMap_cons, List.count_append]
    cases i' with
    | zero => omega
    | succ i' =>
      cases i with
      | zero =>
        have := count_one (j := j) (l := l) (i := i') (n := n') (by simpa using h')
        simp at h; rw [h]; omega
      | succ i =>
        have := ih (i := i) (i' := i') (by omega) (by simpa using h) (by simpa using h')
        omega

/-- Only one node reads an activation with a single outgoing edge. -/
theorem single_unique {net : Net} {j i i' : ℕ} {n n' : Node} (hs : net.single j = true)
    (h : net.nodes[i]? = some n) (h' : net.nodes[i']? = some n') (hp : n.prev = [j]) (hp' : n'.prev = [j]) :
    i = i' := by
  unfold Net.single Net.outDeg at hs
  rw [decide_eq_true_eq] at hs
  rcases Nat.lt_trichotomy i i' with e | e | e
  · have := count_two (j := j) e h h'
    rw [hp, hp'] at this; simp at this; omega
  · exact e
  · have := count_two (j := j) e h' h
    rw [hp, hp'] at this; simp at this; omega

theorem joined_iff {net : Net} {j : ℕ} : net.joined j = true ↔
    net.single j = true ∧ ∃ (i : ℕ) (n : Node) (k : ℕ), net.nodes[i]? = some n ∧ n.kernel = some k ∧ n.prev = [j] := by
  unfold Net.joined
  rw [Bool.and_eq_true, List.any_eq_true]
  constructor
  · rintro ⟨h1, n, hn, h2⟩
    rw [Bool.and_eq_true, decide_eq_true_eq] at h2
    obtain ⟨i, hi⟩ := List.mem_iff_getElem?.mp hn
    obtain ⟨k, hk⟩ := Option.isSome_iff_exists.mp h2.1
    exact ⟨h1, i, n, k, hi, hk, h2.2⟩
  · rintro ⟨h1, i, n, k, hi, hk, hp⟩
    refine ⟨h1, n, List.mem_of_getElem? hi, ?_⟩
    rw [hk, hp]; simp

/-- Which nodes are in the virtual graph. -/
theorem mem_vpart {net : Net} {i : ℕ} {v : VNode} : v ∈ net.vpart i ↔
    ∃ n, net.nodes[i]? = some n ∧
      ((v = .reg i ∧ n.kernel = none ∧ net.joined i = false) ∨
       (v = .act i ∧ n.kernel.isSome = true ∧ net.joined i = false) ∨
       (∃ a, v = .pair a i ∧ n.kernel.isSome = true ∧ n.prev = [a] ∧ net.single a = true) ∨
       (v = .wts i ∧ n.kernel.isSome = true ∧ ∀ a, n.prev = [a] → net.single a = false)) := by
  unfold Net.vpart
  rcases hn : net.nodes[i]? with _ | n
  · simp
  simp only [Option.some.injEq, exists_eq_left']
  rcases hk : n.kernel with _ | k
  · simp only [Option.isSome_none]
    split_ifs with hj
    · simp [hj]
    · simp [hj]
  · simp only [Option.isSome_some, List.mem_append]
    rcases hp : n.prev with _ | ⟨a, _ | ⟨b, l⟩⟩
    · split_ifs with hj <;> simp [hj] <;> tauto
    · simp only []
      by_cases hs : net.single a = true
      · rw [if_pos hs]
        have : ∀ b, [a] = [b] ↔ b = a := by
          intro b; simp; exact eq_comm
        split_ifs with hj <;> simp [hj, this, hs] <;> tauto
      · rw [if_neg hs]
        have : ∀ b, [a] = [b] ↔ b = a := by
          intro b; simp; exact eq_comm
        have hs' : net.single a = false := by simpa using hs
        split_ifs with hj <;> simp [hj, this, hs'] <;> tauto
    · split_ifs with hj <;> simp [hj] <;> tauto

/-- The original node a virtual node is placed at. -/
def VNode.main : VNode → ℕ
  | .reg i => i
  | .wts i => i
  | .act i => i
  | .pair _ i => i

theorem main_vpart {net : Net} {i : ℕ} {v : VNode} (h : v ∈ net.vpart i) : v.main = i := by
  obtain ⟨n, _, h⟩ := mem_vpart.mp h
  rcases h with ⟨e, _⟩ | ⟨e, _⟩ | ⟨a, e, _⟩ | ⟨e, _⟩ <;> rw [e] <;> rfl

theorem mem_vnodes {net : Net} {v : VNode} : v ∈ net.vnodes ↔ v ∈ net.vpart v.main := by
  unfold Net.vnodes
  rw [List.mem_flatMap]
  constructor
  · rintro ⟨i, _, h⟩; rw [main_vpart h]; exact h
  · intro h
    refine ⟨v.main, List.mem_range.mpr ?_, h⟩
    obtain ⟨n, hn, _⟩ := mem_vpart.mp h
    exact (List.getElem?_eq_some_iff.mp hn).1

theorem vpart_nodup (net : Net) (i : ℕ) : (net.vpart i).Nodup := by
  unfold Net.vpart
  rcases net.nodes[i]? with _ | n
  · simp
  simp only []
  rcases n.kernel with _ | k
  · simp only []; split_ifs <;> simp
  · simp only []
    rcases n.prev with _ | ⟨a, _ | ⟨b, l⟩⟩
    · split_ifs <;> simp
    · simp only []; split_ifs <;> simp
    · split_ifs <;> simp

theorem vnodes_nodup (net : Net) : net.vnodes.Nodup := by
  unfold Net.vnodes
  rw [List.nodup_flatMap]
  refine ⟨fun i _ => vpart_nodup net i, ?_⟩
  apply List.Nodup.pairwise_of_forall_ne List.nodup_range
  intro a _ b _ hab
  rw [Function.onFun, List.disjoint_left]
  intro v h1 h2
  exact hab ((main_vpart h1).symm.trans (main_vpart h2))

theorem vnodes_inj {net : Net} {l l' : ℕ} {v : VNode} (h : net.vnodes[l]? = some v)
    (h' : net.vnodes[l']? = some v) : l = l' := by
  obtain ⟨hl, e⟩ := List.getElem?_eq_some_iff.mp h
  obtain ⟨hl', e'⟩ := List.getElem?_eq_some_iff.mp h'
  exact (List.Nodup.getElem_inj_iff (vnodes_nodup net)).mp (e.trans e'.symm)

theorem mem_vlayers {net : Net} {l : ℕ} : l ∈ net.vlayers ↔
    ∃ v vn, net.vnodes[l]? = some v ∧ net.vnode v = some vn ∧ vn.conf = true := by
  unfold Net.vlayers
  rw [List.mem_filter, List.mem_range]
  constructor
  · rintro ⟨hl, h⟩
    rw [List.getElem?_eq_getElem hl] at h
    simp only [Option.bind_some] at h
    rcases hv : net.vnode net.vnodes[l] with _ | vn
    · rw [hv] at h; simp at h
    · rw [hv] at h
      exact ⟨_, vn, List.getElem?_eq_getElem hl, hv, h⟩
  · rintro ⟨v, vn, h1, h2, h3⟩
    refine ⟨(List.getElem?_eq_some_iff.mp h1).1, ?_⟩
    rw [h1, Option.bind_some, h2]; exact h3

theorem vlayers_nodup (net : Net) : net.vlayers.Nodup := List.Nodup.filter _ List.nodup_range

/-! ### Holders -/

theorem holdsAct_unique {net : Net} {v v' : VNode} {j : ℕ} (h : v ∈ net.vnodes) (h' : v' ∈ net.vnodes)
    (hv : HoldsAct v j) (hv' : HoldsAct v' j) : v = v' := by
  have key : ∀ u : VNode, u ∈ net.vnodes → HoldsAct u j →
      (u = .reg j ∧ (∃ n, net.nodes[j]? = some n ∧ n.kernel = none) ∧ net.joined j = false) ∨
      (u = .act j ∧ (∃ n, net.nodes[j]? = some n ∧ n.kernel.isSome = true) ∧ net.joined j = false) ∨
      (∃ i n, u = .pair j i ∧ net.nodes[i]? = some n ∧ n.kernel.isSome = true ∧ n.prev = [j] ∧
        net.single j = true) := by
    intro u hu hh
    rw [mem_vnodes] at hu
    obtain ⟨n, hn, hu⟩ := mem_vpart.mp hu
    rcases hh with e | e | ⟨i, e⟩
    · rw [e] at hu hn
      rcases hu with ⟨_, h1, h2⟩ | ⟨e', _⟩ | ⟨a, e', _⟩ | ⟨e', _⟩
      · exact Or.inl ⟨e, ⟨n, hn, h1⟩, h2⟩
      all_goals cases e'
    · rw [e] at hu hn
      rcases hu with ⟨e', _⟩ | ⟨_, h1, h2⟩ | ⟨a, e', _⟩ | ⟨e', _⟩
      · cases e'
      · exact Or.inr (Or.inl ⟨e, ⟨n, hn, h1⟩, h2⟩)
      all_goals cases e'
    · rw [e] at hu hn
      rcases hu with ⟨e', _⟩ | ⟨e', _⟩ | ⟨a, e', h1, h2, h3⟩ | ⟨e', _⟩
      · cases e'
      · cases e'
      · cases e'
        exact Or.inr (Or.inr ⟨i, n, e, hn, h1, h2, h3⟩)
      · cases e'
  have hj : ∀ (i : ℕ) (n : Node), net.nodes[i]? = some n → n.kernel.isSome = true → n.prev = [j] →
      net.single j = true → net.joined j = true := by
    intro i n hn hk hp hs
    obtain ⟨k, hk⟩ := Option.isSome_iff_exists.mp hk
    exact joined_iff.mpr ⟨hs, i, n, k, hn, hk, hp⟩
  rcases key v h hv with ⟨e, ⟨n, hn, hk⟩, hjn⟩ | ⟨e, ⟨n, hn, hk⟩, hjn⟩ | ⟨i, n, e, hn, hk, hp, hs⟩ <;>
  rcases key v' h' hv' with ⟨e', ⟨n', hn', hk'⟩, hjn'⟩ | ⟨e', ⟨n', hn', hk'⟩, hjn'⟩ | ⟨i', n', e', hn', hk', hp', hs'⟩
  · rw [e, e']
  · rw [hn] at hn'; injection hn' with h; rw [← h, hk] at hk'; simp at hk'
  · rw [hj i' n' hn' hk' hp' hs'] at hjn; simp at hjn
  · rw [hn] at hn'; injection hn' with h; rw [← h] at hk'; rw [hk'] at hk; simp at hk
  · rw [e, e']
  · rw [hj i' n' hn' hk' hp' hs'] at hjn; simp at hjn
  · rw [hj i n hn hk hp hs] at hjn'; simp at hjn'
  · rw [hj i n hn hk hp hs] at hjn'; simp at hjn'
  · rw [e, e', single_unique hs hn hn' hp hp']

theorem holdsWts_unique {net : Net} {v v' : VNode} {i : ℕ} (h : v ∈ net.vnodes) (h' : v' ∈ net.vnodes)
    (hv : HoldsWts v i) (hv' : HoldsWts v' i) : v = v' := by
  have key : ∀ u : VNode, u ∈ net.vnodes → HoldsWts u i → ∃ n, net.nodes[i]? = some n ∧
      ((u = .wts i ∧ ∀ a, n.prev = [a] → net.single a = false) ∨
       ∃ a, u = .pair a i ∧ n.prev = [a] ∧ net.single a = true) := by
    intro u hu hh
    rw [mem_vnodes] at hu
    obtain ⟨n, hn, hu⟩ := mem_vpart.mp hu
    rcases hh with e | ⟨a, e⟩
    · rw [e] at hu hn
      refine ⟨n, hn, ?_⟩
      rcases hu with ⟨e', _⟩ | ⟨e', _⟩ | ⟨a, e', _⟩ | ⟨_, _, h2⟩
      · cases e'
      · cases e'
      · cases e'
      · exact Or.inl ⟨e, h2⟩
    · rw [e] at hu hn
      refine ⟨n, hn, ?_⟩
      rcases hu with ⟨e', _⟩ | ⟨e', _⟩ | ⟨b, e', h1, h2, h3⟩ | ⟨e', _⟩
      · cases e'
      · cases e'
      · cases e'; exact Or.inr ⟨_, e, h2, h3⟩
      · cases e'
  obtain ⟨n, hn, h1⟩ := key v h hv
  obtain ⟨n', hn', h2⟩ := key v' h' hv'
  rw [hn] at hn'; injection hn' with hnn; subst hnn
  rcases h1 with ⟨e, h1⟩ | ⟨a, e, hp, hs⟩ <;> rcases h2 with ⟨e', h2⟩ | ⟨a', e', hp', hs'⟩
  · rw [e, e']
  · rw [h1 a' hp'] at hs'; simp at hs'
  · rw [h2 a hp] at hs; simp at hs
  · rw [hp] at hp'; injection hp' with ha _; rw [e, e', ha]

/-- The virtual graph has a node for the activation of every node. -/
theorem exists_holdsAct {net : Net} {j : ℕ} {n : Node} (hn : net.nodes[j]? = some n) :
    ∃ v ∈ net.vnodes, HoldsAct v j := by
  by_cases hj : net.joined j = true
  · obtain ⟨hs, i, m, k, hm, hk, hp⟩ := joined_iff.mp hj
    refine ⟨.pair j i, ?_, Or.inr (Or.inr ⟨i, rfl⟩)⟩
    rw [mem_vnodes]
    exact mem_vpart.mpr ⟨m, hm, Or.inr (Or.inr (Or.inl ⟨j, rfl, by rw [hk]; rfl, hp, hs⟩))⟩
  · have hj' : net.joined j = false := by simpa using hj
    rcases hk : n.kernel with _ | k
    · exact ⟨.reg j, mem_vnodes.mpr (mem_vpart.mpr ⟨n, hn, Or.inl ⟨rfl, hk, hj'⟩⟩), Or.inl rfl⟩
    · exact ⟨.act j, mem_vnodes.mpr (mem_vpart.mpr ⟨n, hn, Or.inr (Or.inl ⟨rfl, by rw [hk]; rfl, hj'⟩)⟩),
        Or.inr (Or.inl rfl)⟩

/-- The virtual graph has a node for the weights of every node with a kernel. -/
theorem exists_holdsWts {net : Net} {i k : ℕ} {n : Node} (hn : net.nodes[i]? = some n)
    (hk : n.kernel = some k) : ∃ v ∈ net.vnodes, HoldsWts v i := by
  by_cases h : ∃ a, n.prev = [a] ∧ net.single a = true
  · obtain ⟨a, hp, hs⟩ := h
    exact ⟨.pair a i, mem_vnodes.mpr (mem_vpart.mpr ⟨n, hn, Or.inr (Or.inr (Or.inl
      ⟨a, rfl, by rw [hk]; rfl, hp, hs⟩))⟩), Or.inr ⟨a, rfl⟩⟩
  · refine ⟨.wts i, mem_vnodes.mpr (mem_vpart.mpr ⟨n, hn, Or.inr (Or.inr (Or.inr
      ⟨rfl, by rw [hk]; rfl, fun a hp => ?_⟩))⟩), Or.inl rfl⟩
    cases hs : net.single a
    · rfl
    · exact absurd ⟨a, hp, hs⟩ h

end MCT.MP
