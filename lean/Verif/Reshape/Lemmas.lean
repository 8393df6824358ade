import Verif.Reshape.Spec
import Mathlib.Tactic.Linarith

/-! # Lemmas about the changes of the graph -/

namespace MCT.Reshape

theorem eraseLast_some {p : Edge → Bool} {l : List Edge} (h : l.any p = true) :
    ∃ x a y, p a = true ∧ l = x ++ a :: y ∧ eraseLast p l = some (x ++ y) := by
  obtain ⟨b, hb, hpb⟩ := List.any_eq_true.mp h
  obtain ⟨a, l1, l2, _, hpa, hl, he⟩ := List.exists_of_eraseP (List.mem_reverse.mpr hb) hpb
  refine ⟨l2.reverse, a, l1.reverse, hpa, ?_, ?_⟩
  · have := congrArg List.reverse hl
    simpa using this
  · unfold eraseLast
    rw [if_pos h, he, List.reverse_append]

theorem removeEdges_eq (n : Nat) (q : Edge → Bool) (hq : ∀ e, q e = true → e.dst = n) (es : List Edge) :
    ∀ (g : G),
      (∀ u, es.countP (fun e => e.src = u) = g.edges.countP (fun e => q e && decide (e.src = u))) →
      (∀ e ∈ g.edges, e.dst = n → (∃ e' ∈ es, e'.src = e.src) → q e = true) →
      g.removeEdges n es = some { g with edges := g.edges.filter fun e => !q e } := by
  induction es with
  | nil =>
    intro g hcount _
    simp only [G.removeEdges, Option.some.injEq]
    have : g.edges.filter (fun e => !q e) = g.edges := by
      rw [List.filter_eq_self]
      intro e he
      by_contra hne
      have hqe : q e = true := by simpa using hne
      have h0 := hcount e.src
      simp only [List.countP_nil] at h0
      have := (List.countP_eq_zero.mp h0.symm) e he
      simp [hqe] at this
    rw [this]
  | cons e es ih =>
    intro g hcount hkey
    have hany : g.edges.any (fun e' => decide (e'.src = e.src) && decide (e'.dst = n)) = true := by
      have h1 := hcount e.src
      rw [List.countP_cons] at h1
      simp only [decide_true, if_true] at h1
      have h2 : 0 < g.edges.countP (fun e' => q e' && decide (e'.src = e.src)) := by omega
      obtain ⟨a, ha, hpa⟩ := List.countP_pos_iff.mp h2
      simp only [Bool.and_eq_true, decide_eq_true_eq] at hpa
      rw [List.any_eq_true]
      exact ⟨a, ha, by simp [hpa.2, hq a hpa.1]⟩
    obtain ⟨x, a, y, hpa, hl, her⟩ := eraseLast_some hany
    simp only [Bool.and_eq_true, decide_eq_true_eq] at hpa
    have hae : a ∈ g.edges := by rw [hl]; simp
    have hqa : q a = true := hkey a hae hpa.2 ⟨e, by simp, hpa.1.symm⟩
    simp only [G.removeEdges, G.removeEdge, her, Option.map_some, Option.bind_some]
    have hkey' : ∀ e' ∈ x ++ y, e'.dst = n → (∃ e'' ∈ es, e''.src = e'.src) → q e' = true := by
      intro e' he' hd ⟨e'', h1, h2⟩
      refine hkey e' ?_ hd ⟨e'', List.mem_cons_of_mem _ h1, h2⟩
      rw [hl]
      rcases List.mem_append.mp he' with h | h
      · exact List.mem_append_left _ h
      · exact List.mem_append_right _ (List.mem_cons_of_mem _ h)
    rw [ih { g with edges := x ++ y } ?_ hkey']
    · simp [hl, hqa]
    · intro u
      have h1 := hcount u
      rw [hl, List.countP_cons, List.countP_append, List.countP_cons] at h1
      simp only [hqa, hpa.1, Bool.true_and] at h1
      show _ = (x ++ y).countP _
      rw [List.countP_append]
      omega

/-- What one call of the cleaning function does. -/
theorem cleanOne_iff {g g' : G} {n : Nat} {l : List Nat} : g.cleanOne n = some (g', l) ↔
    n ∈ g.nodes ∧
    ((g.outs n = [] ∧ n ∉ g.outputs ∧ n ∉ g.inputs ∧
        g' = { g with nodes := g.nodes.filter (· ≠ n), edges := g.edges.filter (fun e => !decide (e.dst = n)) } ∧
        l = (g.ins n).map (·.src)) ∨
      (¬ (g.outs n = [] ∧ n ∉ g.outputs) ∧ g' = g ∧ l = [])) := by
  unfold G.cleanOne
  by_cases hn : n ∈ g.nodes
  · rw [if_pos hn]
    by_cases hd : g.outs n = [] ∧ n ∉ g.outputs
    · have hc : ((g.outs n).isEmpty && !(g.outputs.contains n)) = true := by
        simp [hd.1, hd.2]
      rw [if_pos hc]
      have hrem := removeEdges_eq n (fun e => decide (e.dst = n)) (by simp) (g.ins n) g
        (by
          intro u
          simp only [G.ins, List.countP_filter]
          congr 1
          funext e
          rw [Bool.and_comm])
        (by intro e _ h _; simpa using h)
      rw [hrem]
      simp only [Option.bind_some, G.removeNode]
      rw [if_neg hd.2]
      by_cases hi : n ∈ g.inputs
      · rw [if_pos hi]
        simp [hi, hd]
      · rw [if_neg hi]
        have hin : (G.ins { g with edges := g.edges.filter fun e => !decide (e.dst = n) } n) = [] := by
          simp [G.ins, List.filter_filter]
        have hout : (G.outs { g with edges := g.edges.filter fun e => !decide (e.dst = n) } n) = [] := by
          have := hd.1
          simp only [G.outs, List.filter_eq_nil_iff, List.mem_filter] at this ⊢
          intro e he
          exact this e he.1
        rw [hin, hout]
        simp only [List.isEmpty_nil, Bool.and_self, if_true, Option.map_some, Option.some.injEq, Prod.mk.injEq]
        constructor
        · rintro ⟨h1, h2⟩
          exact ⟨hn, .inl ⟨hd.1, hd.2, hi, h1.symm, h2.symm⟩⟩
        · rintro ⟨_, ⟨_, _, _, h1, h2⟩ | ⟨h, _⟩⟩
          · exact ⟨h1.symm, h2.symm⟩
          · exact absurd hd h
    · have hc : ¬ ((g.outs n).isEmpty && !(g.outputs.contains n)) = true := by
        intro h
        apply hd
        simpa [List.isEmpty_iff] using h
      rw [if_neg hc]
      simp only [Option.some.injEq, Prod.mk.injEq]
      constructor
      · rintro ⟨h1, h2⟩; exact ⟨hn, .inr ⟨hd, h1.symm, h2.symm⟩⟩
      · rintro ⟨_, ⟨h1, h2, _⟩ | ⟨_, h1, h2⟩⟩
        · exact absurd ⟨h1, h2⟩ hd
        · exact ⟨h1.symm, h2.symm⟩
  · rw [if_neg hn]
    simp [hn]

theorem clean_nil (g : G) : g.clean [] = some g := by rw [G.clean]

theorem clean_cons (g : G) (n : Nat) (ns : List Nat) :
    g.clean (n :: ns) = (g.cleanOne n).bind fun p => p.1.clean (p.2 ++ ns) := by
  rw [G.clean]
  split <;> rename_i h <;> simp [h]

/-- An invariant of the cleaning. -/
theorem clean_inv (P : G → List Nat → Prop)
    (step : ∀ g n ns g' l, P g (n :: ns) → g.cleanOne n = some (g', l) → P g' (l ++ ns)) :
    ∀ (g : G) (st : List Nat), P g st → ∀ g', g.clean st = some g' → P g' [] := by
  intro g st
  induction g, st using G.clean.induct with
  | case1 g => intro h g' hg; rw [clean_nil] at hg; cases hg; exact h
  | case2 g n ns h0 => intro _ g' hg; rw [clean_cons, h0] at hg; cases hg
  | case3 g n ns g1 l h0 ih =>
    intro h g' hg
    rw [clean_cons, h0] at hg
    exact ih (step g n ns g1 l h h0) g' hg

/-- An invariant under which the cleaning raises no error. -/
theorem clean_ok (P : G → List Nat → Prop)
    (step : ∀ g n ns, P g (n :: ns) → ∃ g' l, g.cleanOne n = some (g', l) ∧ P g' (l ++ ns)) :
    ∀ (g : G) (st : List Nat), P g st → ∃ g', g.clean st = some g' := by
  intro g st
  induction g, st using G.clean.induct with
  | case1 g => intro _; exact ⟨g, clean_nil g⟩
  | case2 g n ns h0 =>
    intro h
    obtain ⟨g', l, h1, _⟩ := step g n ns h
    rw [h0] at h1; cases h1
  | case3 g n ns g1 l h0 ih =>
    intro h
    obtain ⟨g', l', h1, h2⟩ := step g n ns h
    rw [h0] at h1
    simp only [Option.some.injEq, Prod.mk.injEq] at h1
    obtain ⟨rfl, rfl⟩ := h1
    rw [clean_cons, h0]
    exact ih h2

/-- Checking a node that has left the graph is an error. -/
theorem clean_missing : ∀ (g : G) (st : List Nat) (n : Nat), n ∉ g.nodes → n ∈ st → g.clean st = none := by
  intro g st
  induction g, st using G.clean.induct with
  | case1 g => intro n _ h; simp at h
  | case2 g n ns h0 => intro m _ _; rw [clean_cons, h0]; rfl
  | case3 g n ns g1 l h0 ih =>
    intro m hm hmem
    rw [clean_cons, h0]
    obtain ⟨hn, hcase⟩ := cleanOne_iff.mp h0
    have hne : m ≠ n := fun h => hm (h ▸ hn)
    have hm' : m ∈ ns := by
      rcases List.mem_cons.mp hmem with h | h
      · exact absurd h hne
      · exact h
    refine ih m ?_ (List.mem_append_right _ hm')
    rcases hcase with ⟨_, _, _, rfl, _⟩ | ⟨_, rfl, _⟩
    · intro h; exact hm (List.mem_filter.mp h).1
    · exact hm

/-- A node without consumers that is to be checked twice: an error. -/
theorem clean_twice : ∀ (g : G) (st : List Nat) (n : Nat), g.outs n = [] → n ∉ g.outputs → 2 ≤ st.count n →
    g.clean st = none := by
  intro g st
  induction g, st using G.clean.induct with
  | case1 g => intro n _ _ h; simp at h
  | case2 g n ns h0 => intro m _ _ _; rw [clean_cons, h0]; rfl
  | case3 g n ns g1 l h0 ih =>
    intro m hout hm hcnt
    rw [clean_cons, h0]
    obtain ⟨hn, hcase⟩ := cleanOne_iff.mp h0
    by_cases hmn : m = n
    · subst hmn
      rw [List.count_cons_self] at hcnt
      have hmem : m ∈ ns := List.count_pos_iff.mp (by omega)
      rcases hcase with ⟨_, _, _, rfl, _⟩ | ⟨h, _⟩
      · exact clean_missing _ _ m (by simp) (List.mem_append_right _ hmem)
      · exact absurd ⟨hout, hm⟩ h
    · rw [List.count_cons_of_ne (Ne.symm hmn)] at hcnt
      refine ih m ?_ ?_ (by rw [List.count_append]; omega)
      · rcases hcase with ⟨_, _, _, rfl, _⟩ | ⟨_, rfl, _⟩
        · simp only [G.outs, List.filter_eq_nil_iff, List.mem_filter] at hout ⊢
          intro e he; exact hout e he.1
        · exact hout
      · rcases hcase with ⟨_, _, _, rfl, _⟩ | ⟨_, rfl, _⟩ <;> exact hm

/-- The edges after the sizes of the reshape are cut off. -/
theorem cut_eq {g : G} {r : Nat}
    (hd : ∀ e ∈ g.edges, ∀ e' ∈ g.edges, e.dst = r → e'.dst = r → e.sink = 0 → 0 < e'.sink → e.src ≠ e'.src) :
    g.removeEdges r (g.sizeEdges r) =
      some { g with edges := g.edges.filter fun e => !(decide (e.dst = r) && decide (0 < e.sink)) } := by
  refine removeEdges_eq r (fun e => decide (e.dst = r) && decide (0 < e.sink)) ?_ _ g ?_ ?_
  · intro e h; simp only [Bool.and_eq_true, decide_eq_true_eq] at h; exact h.1
  · intro u
    simp only [G.sizeEdges, G.ins, List.countP_filter]
    congr 1
    funext e
    cases decide (e.dst = r) <;> cases decide (0 < e.sink) <;> cases decide (e.src = u) <;> rfl
  · intro e he hde ⟨e', he', hs⟩
    simp only [G.sizeEdges, G.ins, List.mem_filter, decide_eq_true_eq] at he'
    simp only [Bool.and_eq_true, decide_eq_true_eq]
    refine ⟨hde, ?_⟩
    by_contra h
    exact hd e he e' he'.1.1 hde he'.1.2 (by omega) he'.2 hs.symm

end MCT.Reshape
