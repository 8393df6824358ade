import Verif.Concat.Model
import Verif.ActQ.Keras

/-!
# C140: the thresholds of concatenated tensors
-/

namespace MCT.Concat

open MCT.ActQ MCT.Quant MCT.QuantSpec

variable {K : Type}

/-! ### Specification -/

/-- The only use of the output of `p` is as an input of `c`. -/
def OnlyFeeds (g : Graph K) (p c : ℕ) : Prop := (g.edges.filter fun e => e.1 = p) = [(p, c)]

/-- A node with one candidate only, whose threshold is `t`. -/
def HasThreshold (x : Node K) (t : K) : Prop := ∃ y, x.cands = [y] ∧ y.params.threshold = some t

/-- The node `p` gets the threshold `t` of the concatenation `c`. -/
def Gets (g : Graph K) (order : List ℕ) (p : ℕ) (t : K) : Prop :=
  (g.node p).isConcat = false ∧ ∃ c ∈ order, OnlyFeeds g p c ∧ HasThreshold (g.node c) t

/-- The same candidate with another threshold. -/
def withThreshold (t : K) (x : Cand K) : Cand K := { x with params := { x.params with threshold := some t } }

/-! ### Proofs -/

theorem onlyFeeds_iff {g : Graph K} {p c : ℕ} : OnlyFeeds g p c ↔ g.next p = [c] := by
  unfold OnlyFeeds Graph.next
  constructor
  · intro h
    rw [h]
    rfl
  · intro h
    obtain ⟨e, he, hec⟩ := List.map_eq_singleton_iff.mp h
    have : e ∈ g.edges.filter fun e => e.1 = p := by rw [he]; exact List.mem_singleton.mpr rfl
    rw [List.mem_filter, decide_eq_true_eq] at this
    rw [he]
    obtain ⟨a, b⟩ := e
    simp only at hec this
    rw [this.2, hec]

theorem hasThreshold_iff {x : Node K} {t : K} : HasThreshold x t ↔ concatThreshold x = some t := by
  unfold HasThreshold concatThreshold
  constructor
  · rintro ⟨y, hy, ht⟩
    rw [hy]
    exact ht
  · intro h
    split at h
    next y hy => exact ⟨y, hy, h⟩
    next => cases h

theorem mem_prev {g : Graph K} {p c : ℕ} : p ∈ g.prev c ↔ (p, c) ∈ g.edges := by
  simp [Graph.prev]

theorem mem_next {g : Graph K} {p c : ℕ} : c ∈ g.next p ↔ (p, c) ∈ g.edges := by
  simp [Graph.next]

theorem visit_edges {t : K} {g g' : Graph K} {p : ℕ} (h : visit t g p = some g') : g'.edges = g.edges := by
  unfold visit at h
  split at h
  · obtain ⟨cs, -, rfl⟩ := Option.map_eq_some_iff.mp h
    rfl
  · cases h; rfl

/-- What one turn of the loop does. -/
theorem visit_node {t : K} {g g' : Graph K} {p : ℕ} (h : visit t g p = some g') (q : ℕ) :
    (g'.node q).isConcat = (g.node q).isConcat ∧
    (g'.node q).cands = if q = p ∧ (g.next p).length = 1 ∧ (g.node p).isConcat = false then
      (match (g.node q).cands with
        | [] => []
        | x :: xs => withThreshold t x :: xs) else (g.node q).cands := by
  unfold visit at h
  split at h
  next hc =>
    obtain ⟨cs, hcs, rfl⟩ := Option.map_eq_some_iff.mp h
    by_cases hq : q = p
    · subst hq
      simp only [Graph.set, if_true, true_and, if_pos hc]
      cases hcd : (g.node q).cands with
      | nil => rw [hcd] at hcs; cases hcs
      | cons a as =>
        rw [hcd] at hcs
        cases hcs
        rfl
    · simp only [Graph.set, hq, false_and, if_false, true_and]
  next hc =>
    cases h
    refine ⟨rfl, ?_⟩
    rw [if_neg (fun hx => hc hx.2)]

/-- Writing a threshold into the first candidate. -/
def firstWith (t : K) : List (Cand K) → List (Cand K)
  | [] => []
  | x :: xs => withThreshold t x :: xs

theorem firstWith_twice (t : K) (l : List (Cand K)) : firstWith t (firstWith t l) = firstWith t l := by
  cases l <;> rfl

theorem next_eq {g g' : Graph K} (h : g'.edges = g.edges) (n : ℕ) : g'.next n = g.next n := by
  unfold Graph.next; rw [h]

theorem loop_spec {t : K} : ∀ (ps : List ℕ) {g g' : Graph K}, ps.foldlM (visit t) g = some g' →
    g'.edges = g.edges ∧ ∀ q, (g'.node q).isConcat = (g.node q).isConcat ∧
      (g'.node q).cands = if q ∈ ps ∧ (g.next q).length = 1 ∧ (g.node q).isConcat = false then
        firstWith t (g.node q).cands else (g.node q).cands
  | [], g, g', h => by
    simp only [List.foldlM_nil] at h
    cases h
    simp
  | p :: ps, g, g', h => by
    rw [List.foldlM_cons] at h
    obtain ⟨g1, h1, h2⟩ := Option.bind_eq_some_iff.mp h
    have e1 := visit_edges h1
    obtain ⟨e2, n2⟩ := loop_spec ps h2
    refine ⟨e2.trans e1, fun q => ?_⟩
    obtain ⟨a1, a2⟩ := visit_node h1 q
    obtain ⟨b1, b2⟩ := n2 q
    refine ⟨b1.trans a1, ?_⟩
    rw [b2, next_eq e1, a1]
    have a3 : (g1.node q).cands = if q = p ∧ (g.next p).length = 1 ∧ (g.node p).isConcat = false then
        firstWith t (g.node q).cands else (g.node q).cands := by
      rw [a2]
      cases (g.node q).cands <;> rfl
    rw [a3]
    by_cases hc : (g.next q).length = 1 ∧ (g.node q).isConcat = false
    · by_cases hq : q = p
      · subst hq
        simp only [hc, and_self, and_true, if_true, List.mem_cons, true_or]
        split
        · exact firstWith_twice t _
        · rfl
      · simp only [hq, false_and, if_false, List.mem_cons, false_or]
    · rw [if_neg (fun hx => hc hx.2), if_neg (c := q ∈ p :: ps ∧ _) (fun hx => hc hx.2), if_neg]
      rintro ⟨rfl, hx⟩
      exact hc hx

theorem substitute_spec {g g' : Graph K} {c : ℕ} (h : substitute g c = some g') :
    g'.edges = g.edges ∧ ∀ q, (g'.node q).isConcat = (g.node q).isConcat ∧
      ((∀ t, ¬ ((g.node q).isConcat = false ∧ OnlyFeeds g q c ∧ concatThreshold (g.node c) = some t)) →
        (g'.node q).cands = (g.node q).cands) ∧
      ∀ t, (g.node q).isConcat = false → OnlyFeeds g q c → concatThreshold (g.node c) = some t →
        (g'.node q).cands = firstWith t (g.node q).cands := by
  unfold substitute at h
  split at h
  next t ht =>
    obtain ⟨he, hn⟩ := loop_spec _ h
    refine ⟨he, fun q => ⟨(hn q).1, fun hno => ?_, fun t' hc ho ht' => ?_⟩⟩
    · rw [(hn q).2, if_neg]
      rintro ⟨hm, hl, hcc⟩
      refine hno t ⟨hcc, ?_, ht⟩
      have hmem := mem_next.mpr (mem_prev.mp hm)
      obtain ⟨a, ha⟩ := List.length_eq_one_iff.mp hl
      rw [ha, List.mem_singleton] at hmem
      rw [onlyFeeds_iff, ha, hmem]
    · rw [ht] at ht'
      cases ht'
      rw [(hn q).2, if_pos]
      have : c ∈ g.next q := by rw [onlyFeeds_iff.mp ho]; exact List.mem_singleton.mpr rfl
      refine ⟨mem_prev.mpr (mem_next.mp this), ?_, hc⟩
      rw [onlyFeeds_iff.mp ho]; rfl
  next hnone =>
    cases h
    refine ⟨rfl, fun q => ⟨rfl, fun _ => rfl, fun t' _ _ ht' => ?_⟩⟩
    rw [ht'] at hnone
    cases hnone

theorem concatThreshold_kept {g g' : Graph K} {c d : ℕ} (h : substitute g c = some g')
    (hd : (g.node d).isConcat = true) : g'.node d = g.node d := by
  obtain ⟨-, hn⟩ := substitute_spec h
  obtain ⟨h1, h2, -⟩ := hn d
  have h3 := h2 (fun t hx => by rw [hd] at hx; cases hx.1)
  cases hA : g'.node d
  cases hB : g.node d
  rw [hA, hB] at h1 h3
  simp only at h1 h3
  rw [h1, h3]

/-- **C140 (exactly).**  After the substitution, whatever the order in which the concatenations are visited, every node
whose output is used once, by a concatenation with a single candidate and a threshold, and that is not a
concatenation, has this threshold in its first candidate; all else is as before: the edges, the other parameters, the other
candidates, the other nodes, and the concatenations. -/
theorem C140_exact {g g' : Graph K} {order : List ℕ} (ho : ∀ c ∈ order, (g.node c).isConcat = true)
    (h : substituteAll g order = some g') :
    g'.edges = g.edges ∧ ∀ p, (g'.node p).isConcat = (g.node p).isConcat ∧
      ((∀ t, ¬ Gets g order p t) → (g'.node p).cands = (g.node p).cands) ∧
      ∀ t, Gets g order p t → ∀ x xs, (g.node p).cands = x :: xs → (g'.node p).cands = withThreshold t x :: xs := by
  suffices H : ∀ (order : List ℕ) (g g' : Graph K), (∀ c ∈ order, (g.node c).isConcat = true) →
      order.foldlM substitute g = some g' → g'.edges = g.edges ∧ ∀ p, (g'.node p).isConcat = (g.node p).isConcat ∧
      ((∀ t, ¬ Gets g order p t) → (g'.node p).cands = (g.node p).cands) ∧
      ∀ t, Gets g order p t → (g'.node p).cands = firstWith t (g.node p).cands by
    obtain ⟨h1, h2⟩ := H order g g' ho h
    refine ⟨h1, fun p => ⟨(h2 p).1, (h2 p).2.1, fun t ht x xs hx => ?_⟩⟩
    rw [(h2 p).2.2 t ht, hx]
    rfl
  clear h ho g g' order
  intro order
  induction order with
  | nil =>
    intro g g' _ h
    simp only [List.foldlM_nil] at h
    cases h
    refine ⟨rfl, fun p => ⟨rfl, fun _ => rfl, ?_⟩⟩
    rintro t ⟨-, c, hc, -⟩
    cases hc
  | cons c cs ih =>
    intro g g' ho h
    rw [List.foldlM_cons] at h
    obtain ⟨g1, h1, h2⟩ := Option.bind_eq_some_iff.mp h
    obtain ⟨e1, n1⟩ := substitute_spec h1
    have ho1 : ∀ d ∈ cs, (g1.node d).isConcat = true := fun d hd => by
      rw [(n1 d).1]; exact ho d (List.mem_cons_of_mem _ hd)
    obtain ⟨e2, n2⟩ := ih g1 g' ho1 h2
    have hkeep : ∀ d ∈ c :: cs, g1.node d = g.node d := fun d hd => concatThreshold_kept h1 (ho d hd)
    have hgets : ∀ p t, Gets g1 cs p t ↔ Gets g cs p t := by
      intro p t
      unfold Gets OnlyFeeds
      rw [(n1 p).1, e1]
      constructor
      · rintro ⟨a, d, hd, b, e⟩
        rw [hkeep d (List.mem_cons_of_mem _ hd)] at e
        exact ⟨a, d, hd, b, e⟩
      · rintro ⟨a, d, hd, b, e⟩
        rw [← hkeep d (List.mem_cons_of_mem _ hd)] at e
        exact ⟨a, d, hd, b, e⟩
    refine ⟨e2.trans e1, fun p => ⟨((n2 p).1).trans (n1 p).1, fun hno => ?_, fun t ht => ?_⟩⟩
    · rw [(n2 p).2.1 (fun t hx => ?_), (n1 p).2.1 (fun t hx => ?_)]
      · exact hno t ⟨hx.1, c, List.mem_cons_self, hx.2.1, hasThreshold_iff.mpr hx.2.2⟩
      · obtain ⟨a, d, hd, b⟩ := (hgets p t).mp hx
        exact hno t ⟨a, d, List.mem_cons_of_mem _ hd, b⟩
    · have hall : ∀ t', Gets g cs p t' → t' = t := by
        rintro t' ⟨-, d, -, hd1, hd2⟩
        obtain ⟨-, d', -, hd1', hd2'⟩ := ht
        rw [onlyFeeds_iff] at hd1 hd1'
        rw [hasThreshold_iff] at hd2 hd2'
        rw [hd1] at hd1'
        cases hd1'
        rw [hd2] at hd2'
        cases hd2'
        rfl
      have hfirst : (g1.node p).cands = (g.node p).cands ∨ (g1.node p).cands = firstWith t (g.node p).cands := by
        by_cases hf : OnlyFeeds g p c
        · refine Or.inr ((n1 p).2.2 t ht.1 hf ?_)
          obtain ⟨-, d', -, hd1', hd2'⟩ := ht
          rw [onlyFeeds_iff] at hf hd1'
          rw [hf] at hd1'
          cases hd1'
          exact hasThreshold_iff.mp hd2'
        · exact Or.inl ((n1 p).2.1 (fun t hx => hf hx.2.1))
      by_cases hg : Gets g cs p t
      · rw [(n2 p).2.2 t ((hgets p t).mpr hg)]
        rcases hfirst with hf | hf
        · rw [hf]
        · rw [hf, firstWith_twice]
      · rw [(n2 p).2.1 (fun t' hx => by
          have := (hgets p t').mp hx
          rw [hall t' this] at this
          exact hg this)]
        obtain ⟨a, d, hd, b, e⟩ := ht
        rcases List.mem_cons.mp hd with rfl | hd
        · exact (n1 p).2.2 t a b (hasThreshold_iff.mp e)
        · exact absurd ⟨a, d, hd, b, e⟩ hg

theorem visit_isSome {t : K} {g : Graph K} {p : ℕ} (h : (g.node p).cands ≠ []) : (visit t g p).isSome := by
  unfold visit
  split
  · cases hc : (g.node p).cands with
    | nil => exact absurd hc h
    | cons a as => simp [setFirst]
  · rfl

theorem visit_nonempty {t : K} {g g' : Graph K} {p : ℕ} (h : visit t g p = some g')
    (hg : ∀ q, (g.node q).cands ≠ []) (q : ℕ) : (g'.node q).cands ≠ [] := by
  rw [(visit_node h q).2]
  split
  · cases hc : (g.node q).cands with
    | nil => exact absurd hc (hg q)
    | cons a as => simp
  · exact hg q

theorem loop_isSome {t : K} : ∀ (ps : List ℕ) {g : Graph K}, (∀ q, (g.node q).cands ≠ []) →
    ∃ g', ps.foldlM (visit t) g = some g' ∧ ∀ q, (g'.node q).cands ≠ []
  | [], g, hg => ⟨g, rfl, hg⟩
  | p :: ps, g, hg => by
    obtain ⟨g1, h1⟩ := Option.isSome_iff_exists.mp (visit_isSome (t := t) (hg p))
    obtain ⟨g', h2, h3⟩ := loop_isSome (t := t) ps (visit_nonempty h1 hg)
    refine ⟨g', ?_, h3⟩
    rw [List.foldlM_cons, h1]
    exact h2

/-- **C140 (no errors).**  When every node has a candidate the substitution succeeds. -/
theorem C140_success {g : Graph K} (hg : ∀ q, (g.node q).cands ≠ []) (order : List ℕ) :
    ∃ g', substituteAll g order = some g' := by
  unfold substituteAll
  induction order generalizing g with
  | nil => exact ⟨g, rfl⟩
  | cons c cs ih =>
    have : ∃ g1, substitute g c = some g1 ∧ ∀ q, (g1.node q).cands ≠ [] := by
      unfold substitute
      split
      · exact loop_isSome _ hg
      · exact ⟨g, rfl, hg⟩
    obtain ⟨g1, h1, h2⟩ := this
    obtain ⟨g', h3⟩ := ih h2
    refine ⟨g', ?_⟩
    rw [List.foldlM_cons, h1]
    exact h3

/-- **C140 (order).**  The order in which the concatenations are visited does not matter. -/
theorem C140_order {g g1 g2 : Graph K} {o1 o2 : List ℕ} (hperm : ∀ c, c ∈ o1 ↔ c ∈ o2)
    (ho : ∀ c ∈ o1, (g.node c).isConcat = true) (hc : ∀ q, (g.node q).cands ≠ [])
    (h1 : substituteAll g o1 = some g1) (h2 : substituteAll g o2 = some g2) : g1 = g2 := by
  obtain ⟨a1, a2⟩ := C140_exact ho h1
  obtain ⟨b1, b2⟩ := C140_exact (fun c hc => ho c ((hperm c).mpr hc)) h2
  have hget : ∀ p t, Gets g o1 p t ↔ Gets g o2 p t := by
    intro p t
    unfold Gets
    simp only [hperm]
  have hn : ∀ q, g1.node q = g2.node q := by
    intro q
    have hi : (g1.node q).isConcat = (g2.node q).isConcat := (a2 q).1.trans (b2 q).1.symm
    have hcs : (g1.node q).cands = (g2.node q).cands := by
      by_cases hg : ∃ t, Gets g o1 q t
      · obtain ⟨t, ht⟩ := hg
        cases hx : (g.node q).cands with
        | nil => exact absurd hx (hc q)
        | cons x xs => rw [(a2 q).2.2 t ht x xs hx, (b2 q).2.2 t ((hget q t).mp ht) x xs hx]
      · rw [(a2 q).2.1 (fun t ht => hg ⟨t, ht⟩), (b2 q).2.1 (fun t ht => hg ⟨t, (hget q t).mpr ht⟩)]
    cases hA : g1.node q
    cases hB : g2.node q
    rw [hA, hB] at hi hcs
    simp only at hi hcs
    rw [hi, hcs]
  cases g1
  cases g2
  simp only [Graph.mk.injEq]
  exact ⟨a1.trans b1.symm, funext hn⟩

/-- **C140 (violated: mixed precision).**  "No change in case of multiple quantization candidates": a previous node with
several candidates is changed, in its first candidate only, so that its candidates have different thresholds. -/
theorem C140_candidates_violated {g g' : Graph K} {order : List ℕ} (ho : ∀ c ∈ order, (g.node c).isConcat = true)
    (h : substituteAll g order = some g') {p : ℕ} {t : K} (hg : Gets g order p t) {x y : Cand K} {xs : List (Cand K)}
    (hx : (g.node p).cands = x :: y :: xs) (hdiff : y.params.threshold ≠ some t) :
    ∃ x' y' rest, (g'.node p).cands = x' :: y' :: rest ∧ x'.params.threshold = some t ∧
      y'.params.threshold = y.params.threshold ∧ x'.params.threshold ≠ y'.params.threshold :=
  ⟨withThreshold t x, y, xs, ((C140_exact ho h).2 p).2.2 t hg x _ hx, rfl, rfl, fun he => hdiff he.symm⟩

section Values

variable [Field K] [LinearOrder K] [IsStrictOrderedRing K] [FloorRing K]

theorem nearest_self {G : Set K} {y z : K} (hy : y ∈ G) (h : Nearest G y z) : z = y := by
  have := h.2 y hy
  rw [sub_self, abs_zero] at this
  exact sub_eq_zero.mp (abs_eq_zero.mp (le_antisymm this (abs_nonneg _)))

/-- **C140 (quantized once).**  After the substitution the quantizer of the concatenation leaves an input that was
quantized with the same signedness and number of bits as it is: the values are rounded once. -/
theorem C140_quantized_once {g g' : Graph K} {order : List ℕ} (ho : ∀ c ∈ order, (g.node c).isConcat = true)
    (h : substituteAll g order = some g') {p c : ℕ} (hc : c ∈ order) (hp : (g.node p).isConcat = false)
    (hf : OnlyFeeds g p c) {x y : Cand K} (hx : (g.node p).cands = [x]) (hy : (g.node c).cands = [y]) {t : K}
    (ht : 0 < t) (hyt : y.params.threshold = some t) {s : Bool} (hxs : x.params.signed = some s)
    (hys : y.params.signed = some s) (hb : x.bits = y.bits) (hn : 1 ≤ y.bits) :
    ∃ x' y', (g'.node p).cands = [x'] ∧ (g'.node c).cands = [y'] ∧
      ∀ v, ∃ w, torchSymmetric x'.bits x'.params v = some w ∧ torchSymmetric y'.bits y'.params w = some w ∧
        (2 ≤ y.bits → y.bits ≤ 16 → ∃ w, kerasSymmetric x'.bits x'.params v = some w ∧
          kerasSymmetric y'.bits y'.params w = some w) := by
  obtain ⟨-, hh⟩ := C140_exact ho h
  have hct : HasThreshold (g.node c) t := ⟨y, hy, hyt⟩
  have h1 := (hh p).2.2 t ⟨hp, c, hc, hf, hct⟩ x [] hx
  have h2 := (hh c).2.1 (fun t' hg => by
    have := ho c hc
    rw [hg.1] at this
    cases this)
  refine ⟨_, _, h1, h2.trans hy, fun v => ?_⟩
  obtain ⟨w, hw, hnear⟩ := C115_torch_symmetric (withThreshold t x).params t ht s rfl hxs x.bits (hb ▸ hn) v
  refine ⟨w, hw, ?_, fun h2 h16 => ?_⟩
  · obtain ⟨z, hz, hnz⟩ := C115_torch_symmetric y.params t ht s hyt hys y.bits hn w
    rw [hz, nearest_self (hb ▸ hnear.1) hnz]
  · obtain ⟨w, hw, hnear⟩ := C115_keras_symmetric_partial (withThreshold t x).params t ht s rfl hxs x.bits
      (hb ▸ h2) (hb ▸ h16) v
    refine ⟨w, hw, ?_⟩
    obtain ⟨z, hz, hnz⟩ := C115_keras_symmetric_partial y.params t ht s hyt hys y.bits h2 h16 w
    rw [hz, nearest_self (hb ▸ hnear.1) hnz]

/-- **C140 (uniform).**  A uniform quantizer is not changed by the threshold written beside its range. -/
theorem C140_uniform_unchanged (t : K) (x : Cand K) (v : K) :
    torchUniform x.bits (withThreshold t x).params v = torchUniform x.bits x.params v ∧
    kerasUniform x.bits (withThreshold t x).params v = kerasUniform x.bits x.params v := ⟨rfl, rfl⟩

/-- **C140 (violated: powers of two).**  A previous node with power of two thresholds gets the threshold of the
concatenation although this is no power of two: its quantizer worked before and is rejected afterwards. -/
theorem C140_power_of_two_violated {g g' : Graph K} {order : List ℕ} (ho : ∀ c ∈ order, (g.node c).isConcat = true)
    (h : substituteAll g order = some g') {p : ℕ} {t : K} (hg : Gets g order p t) {x : Cand K}
    (hx : (g.node p).cands = [x]) {s : Bool} (hs : x.params.signed = some s) (ht : 0 < t) (hpow : ¬ IsPow2 t)
    (hn : 1 ≤ x.bits) {t0 : K} (h0 : x.params.threshold = some t0) (hp0 : IsPow2 t0) :
    ∃ x', (g'.node p).cands = [x'] ∧ ∀ v, (torchPot x.bits x.params v).isSome ∧ torchPot x'.bits x'.params v = none := by
  refine ⟨_, ((C140_exact ho h).2 p).2.2 t hg x [] hx, fun v => ⟨?_, ?_⟩⟩
  · have hpos : 0 < t0 := by
      obtain ⟨k, rfl⟩ := hp0
      exact zpow_pos (by norm_num) k
    obtain ⟨y, hy, -⟩ := (C115_torch_power_of_two x.params t0 hpos s h0 hs x.bits hn v).1 hp0
    rw [hy]; rfl
  · exact (C115_torch_power_of_two (withThreshold t x).params t ht s rfl hs x.bits hn v).2 hpow

end Values

/-- **C140 (violated: a tensor given twice).**  A node all of whose uses are inputs of one concatenation, but two of
them, is not changed. -/
theorem C140_twice_violated {g g' : Graph K} {order : List ℕ} (ho : ∀ c ∈ order, (g.node c).isConcat = true)
    (h : substituteAll g order = some g') {p c : ℕ} (hn : 2 ≤ g.edges.count (p, c)) :
    (g'.node p).cands = (g.node p).cands := by
  refine ((C140_exact ho h).2 p).2.1 ?_
  rintro t ⟨-, d, -, hd, -⟩
  unfold OnlyFeeds at hd
  have h1 : (g.edges.filter fun e => e.1 = p).count (p, c) = g.edges.count (p, c) := List.count_filter (by simp)
  rw [hd] at h1
  have h2 := List.count_le_length (a := (p, c)) (l := [(p, d)])
  rw [List.length_singleton] at h2
  omega

/-! ### The hypotheses can be met -/

/-- `concat(conv, concat(a, b))` with `a` also used elsewhere: 0 conv, 1 `a`, 2 `b`, 3 inner and 4 outer concatenation, 5 a
second use of `a`. -/
def exampleGraph : Graph ℚ where
  edges := [(0, 4), (1, 3), (2, 3), (3, 4), (1, 5)]
  node n := ⟨n = 3 ∨ n = 4, [⟨0, 8, ⟨some ((n : ℚ) + 1), some true, none, none, none⟩⟩]⟩

example : ∃ g', substituteAll exampleGraph [3, 4] = some g' ∧
    ((g'.node 0).cands.map (·.params.threshold)) = [some 5] ∧ ((g'.node 1).cands.map (·.params.threshold)) = [some 2] ∧
    ((g'.node 2).cands.map (·.params.threshold)) = [some 4] ∧ ((g'.node 3).cands.map (·.params.threshold)) = [some 4] := by
  obtain ⟨g', hg⟩ := C140_success (g := exampleGraph) (fun q => by simp [exampleGraph]) [3, 4]
  have ho : ∀ c ∈ [3, 4], (exampleGraph.node c).isConcat = true := by
    intro c hc
    fin_cases hc <;> rfl
  obtain ⟨-, h⟩ := C140_exact ho hg
  refine ⟨g', hg, ?_, ?_, ?_, ?_⟩
  · rw [(h 0).2.2 5 ⟨rfl, 4, by simp, rfl, _, rfl, by simp; norm_num⟩ _ _ rfl]; rfl
  · rw [(h 1).2.1 (by rintro t ⟨-, c, -, hc, -⟩; revert hc; simp [OnlyFeeds, exampleGraph])]
    simp [exampleGraph]; norm_num
  · rw [(h 2).2.2 4 ⟨rfl, 3, by simp, rfl, _, rfl, by simp; norm_num⟩ _ _ rfl]; rfl
  · rw [(h 3).2.1 (by rintro t ⟨hc, -⟩; revert hc; simp [exampleGraph])]
    simp [exampleGraph]; norm_num

end MCT.Concat
