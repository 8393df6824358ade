/-
C81: after fusing, the graph is the original one with every fused operation contracted to one node.
-/
import Verif.Fusing.Fuser
import Verif.Fusing.Generate

namespace MCT.Fusing
open MCT.Graph MCT.GraphSpec MCT.FusingSpec

set_option linter.unusedSectionVars false
set_option linter.unusedVariables false
set_option linter.unusedSimpArgs false

variable {N P C : Type} [DecidableEq N] [DecidableEq C]

theorem becomes_nil (n : N) : becomes ([] : List (N × List N)) n = n := rfl

theorem becomes_cons (f : N) (w : List N) (ops : List (N × List N)) (n : N) :
    becomes ((f, w) :: ops) n = if n ∈ w then f else becomes ops n := by
  simp only [becomes, List.find?_cons]
  by_cases h : n ∈ w <;> simp [h]

theorem becomes_out {ops : List (N × List N)} {n : N} (h : ∀ p ∈ ops, n ∉ p.2) : becomes ops n = n := by
  rw [becomes, List.find?_eq_none.2]
  intro p hp
  simpa using h p hp

theorem becomes_in : ∀ {ops : List (N × List N)}, ops.Pairwise (fun a b => ∀ n ∈ a.2, n ∉ b.2) →
    ∀ {p : N × List N}, p ∈ ops → ∀ {n : N}, n ∈ p.2 → becomes ops n = p.1
  | [], _, p, hp, n, hn => by simp at hp
  | (f, w) :: ops, h, p, hp, n, hn => by
      rw [becomes_cons]
      rw [List.pairwise_cons] at h
      rcases List.mem_cons.1 hp with rfl | hp
      · rw [if_pos hn]
      · rw [if_neg (fun hw => h.1 p hp n hw hn)]
        exact becomes_in h.2 hp hn

/-- All the operations are replaced, one after the other. -/
theorem replaceAll_result : ∀ (ops : List (N × List N)) (g : Gr N), Sound g →
    (ops.map Prod.fst).Nodup → ops.Pairwise (fun a b => ∀ n ∈ a.2, n ∉ b.2) →
    (∀ p ∈ ops, p.2 ≠ [] ∧ p.2.Nodup ∧ (∀ n ∈ p.2, n ∈ g.nodes) ∧ Leads g p.2 ∧ p.1 ∉ g.nodes ∧
      (∀ n ∈ p.2, n ∉ g.inputs) ∧ ∀ n ∈ p.2, (g.outputs.map Prod.fst).count n ≤ 1) →
    ∃ g', ops.foldlM (fun g p => replaceFused g p.1 p.2) g = some g' ∧ Sound g' ∧
      (links g').Perm (((links g).filter (fun p => decide (¬ Inside ops p.2))).map
        (fun p => (becomes ops p.1, becomes ops p.2))) ∧
      (∀ m, m ∈ g'.nodes ↔ (∃ p ∈ ops, m = p.1) ∨ m ∈ g.nodes ∧ ∀ p ∈ ops, m ∉ p.2) ∧
      g'.outputs = g.outputs.map (fun o => (becomes ops o.1, o.2)) ∧ g'.inputs = g.inputs
  | [], g, hg, _, _, _ => by
      refine ⟨g, rfl, hg, ?_, by simp, by simp [becomes_nil], rfl⟩
      simp [Inside, becomes_nil]
  | (f, w) :: ops, g, hg, hk, ha, hops => by
      obtain ⟨h1, h2, h3, h4, h5, h6, h7⟩ := hops (f, w) (by simp)
      simp only at h1 h2 h3 h4 h5 h6 h7
      obtain ⟨g1, e1, S1, l1, n1, o1, i1⟩ := replaceFused_result hg h1 h2 h3 h4 h5 h6 h7
      rw [List.map_cons, List.nodup_cons] at hk
      rw [List.pairwise_cons] at ha
      have hfw : f ∉ w := fun h => h5 (h3 f h)
      have hfo : ∀ p ∈ ops, f ∉ p.2 := fun p hp h => h5 ((hops p (by simp [hp])).2.2.1 f h)
      have hinto : ∀ n, (∃ p ∈ ops, n ∈ p.2) → into f w n = n := by
        rintro n ⟨p, hp, hn⟩
        rw [into, if_neg (fun h => ha.1 p hp n h hn)]
      have hnew : ∀ p ∈ ops, p.2 ≠ [] ∧ p.2.Nodup ∧ (∀ n ∈ p.2, n ∈ g1.nodes) ∧ Leads g1 p.2 ∧
          p.1 ∉ g1.nodes ∧ (∀ n ∈ p.2, n ∉ g1.inputs) ∧
          ∀ n ∈ p.2, (g1.outputs.map Prod.fst).count n ≤ 1 := by
        intro p hp
        obtain ⟨k1, k2, k3, k4, k5, k6, k7⟩ := hops p (by simp [hp])
        have hnw : ∀ n ∈ p.2, n ∉ w := fun n hn hw => ha.1 p hp n hw hn
        refine ⟨k1, k2, fun n hn => (n1 n).2 (Or.inr ⟨k3 n hn, hnw n hn⟩), ?_, ?_, by rw [i1]; exact k6, ?_⟩
        · intro i hi
          have hx : p.2[i]'(by omega) ∉ w := hnw _ (List.getElem_mem _)
          have hy : p.2[i + 1] ∉ w := hnw _ (List.getElem_mem _)
          have hxf : p.2[i]'(by omega) ≠ f := fun h => hfo p hp (h ▸ List.getElem_mem _)
          have hnx := k4 i hi
          rw [nextNodes_links] at hnx ⊢
          have hperm := (l1.filter (fun q : N × N => decide (q.1 = p.2[i]'(by omega)))).map Prod.snd
          rw [List.filter_map, List.map_map, List.filter_filter] at hperm
          have hcong : (links g).filter (fun q => ((fun q : N × N => decide (q.1 = p.2[i]'(by omega))) ∘
              (fun q : N × N => (into f w q.1, into f w q.2))) q && decide (q.2 ∉ w.tail)) =
              (links g).filter (fun q => decide (q.1 = p.2[i]'(by omega))) := by
            apply List.filter_congr
            rintro ⟨x, y⟩ hxy
            simp only [Function.comp_apply]
            by_cases hxi : x = p.2[i]'(by omega)
            · have hyi : y ∈ ((links g).filter (fun q => decide (q.1 = p.2[i]'(by omega)))).map Prod.snd :=
                List.mem_map.2 ⟨(x, y), List.mem_filter.2 ⟨hxy, by simp [hxi]⟩, rfl⟩
              rw [hnx] at hyi
              have hyi' : y = p.2[i + 1] := by simpa using hyi
              have : y ∉ w.tail := fun h => hy (hyi' ▸ List.mem_of_mem_tail h)
              have hxw : x ∉ w := by rw [hxi]; exact hx
              simp only [into, if_neg hxw]
              simp [this]
            · have : into f w x ≠ p.2[i]'(by omega) := by
                rw [into]
                split
                · exact Ne.symm hxf
                · exact hxi
              simp [this, hxi]
          rw [hcong] at hperm
          have hmap : ((links g).filter (fun q => decide (q.1 = p.2[i]'(by omega)))).map
              (Prod.snd ∘ (fun q : N × N => (into f w q.1, into f w q.2))) = [p.2[i + 1]] := by
            have : ((links g).filter (fun q => decide (q.1 = p.2[i]'(by omega)))).map
                (Prod.snd ∘ (fun q : N × N => (into f w q.1, into f w q.2))) =
                (((links g).filter (fun q => decide (q.1 = p.2[i]'(by omega)))).map Prod.snd).map (into f w) := by
              rw [List.map_map]; rfl
            rw [this, hnx]
            simp [into, hy]
          rw [hmap] at hperm
          exact List.perm_singleton.1 hperm
        · intro h
          rcases (n1 p.1).1 h with h | h
          · exact hk.1 (List.mem_map.2 ⟨p, hp, h⟩)
          · exact k5 h.1
        · intro n hn
          refine le_trans (le_of_eq ?_) (k7 n hn)
          rw [o1, List.map_map, List.count_eq_countP, List.count_eq_countP, List.countP_map, List.countP_map]
          apply List.countP_congr
          rintro ⟨x, k⟩ _
          simp only [Function.comp_apply, beq_iff_eq]
          rw [into]
          split
          · rename_i hx
            constructor
            · rintro rfl; exact absurd hn (hfo p hp)
            · rintro rfl; exact absurd hx (hnw _ hn)
          · exact Iff.rfl
      obtain ⟨g', e2, S2, l2, n2, o2, i2⟩ := replaceAll_result ops g1 S1 hk.2 ha.2 hnew
      have hcomp : ∀ n, becomes ops (into f w n) = becomes ((f, w) :: ops) n := by
        intro n
        rw [becomes_cons, into]
        split
        · exact becomes_out hfo
        · rfl
      have hinside : ∀ n, Inside ((f, w) :: ops) n ↔ n ∈ w.tail ∨ Inside ops (into f w n) := by
        intro n
        simp only [Inside, List.mem_cons, exists_eq_or_imp]
        refine or_congr Iff.rfl ?_
        constructor
        · rintro ⟨p, hp, hn⟩
          exact ⟨p, hp, by rw [hinto n ⟨p, hp, List.mem_of_mem_tail hn⟩]; exact hn⟩
        · rintro ⟨p, hp, hn⟩
          rw [into] at hn
          split at hn
          · exact absurd (List.mem_of_mem_tail hn) (hfo p hp)
          · exact ⟨p, hp, hn⟩
      refine ⟨g', ?_, S2, ?_, ?_, ?_, i2.trans i1⟩
      · rw [List.foldlM_cons, e1]; exact e2
      · refine l2.trans (((l1.filter _).map _).trans (List.Perm.of_eq ?_))
        rw [List.filter_map, List.map_map, List.filter_filter]
        have : (links g).filter (fun q => ((fun p : N × N => decide (¬ Inside ops p.2)) ∘
            (fun p : N × N => (into f w p.1, into f w p.2))) q && decide (q.2 ∉ w.tail)) =
            (links g).filter (fun p => decide (¬ Inside ((f, w) :: ops) p.2)) := by
          apply List.filter_congr
          rintro ⟨x, y⟩ _
          simp only [Function.comp_apply]
          rw [Bool.eq_iff_iff]
          simp only [Bool.and_eq_true, decide_eq_true_eq, hinside, not_or]
          exact and_comm
        rw [this]
        apply List.map_congr_left
        rintro ⟨x, y⟩ _
        simp only [Function.comp_apply, hcomp]
      · intro m
        rw [n2, n1]
        simp only [List.mem_cons, exists_eq_or_imp, forall_eq_or_imp]
        constructor
        · rintro (h | ⟨h | ⟨h1, h2⟩, h3⟩)
          · exact Or.inl (Or.inr h)
          · exact Or.inl (Or.inl h)
          · exact Or.inr ⟨h1, h2, h3⟩
        · rintro ((rfl | h) | ⟨h1, h2, h3⟩)
          · exact Or.inr ⟨Or.inl rfl, hfo⟩
          · exact Or.inl h
          · exact Or.inr ⟨Or.inr ⟨h1, h2⟩, h3⟩
      · rw [o2, o1, List.map_map]
        apply List.map_congr_left
        rintro ⟨x, k⟩ _
        simp only [Function.comp_apply, hcomp]

end MCT.Fusing

namespace MCT.FusingSpec
open MCT.Graph MCT.GraphSpec MCT.Fusing

variable {N P C : Type} [DecidableEq N] [DecidableEq C]

/-- The graph in which every operation is one node: its nodes are the images of the nodes, its
connections are the images of the connections between nodes with different images, and the outputs are
the images of the outputs. -/
structure Contracted (ops : List (N × List N)) (g g' : Gr N) : Prop where
  nodes : ∀ m, m ∈ g'.nodes ↔ ∃ n ∈ g.nodes, becomes ops n = m
  once : g'.nodes.Nodup
  links : (links g').Perm (((links g).filter (fun p => decide (becomes ops p.1 ≠ becomes ops p.2))).map
    (fun p => (becomes ops p.1, becomes ops p.2)))
  outputs : g'.outputs = g.outputs.map (fun o => (becomes ops o.1, o.2))
  inputs : g'.inputs = g.inputs
  acyclic : ∃ rank : N → Nat, ∀ e ∈ g'.edges, rank e.src < rank e.dst

/-- The operations with the node that stands for each. -/
def named (mk : Name → N) (info : Info N P C) : List (N × List N) := info.data.map (fun p => (mk p.1, p.2))

end MCT.FusingSpec

namespace MCT.Fusing
open MCT.Graph MCT.GraphSpec MCT.FusingSpec

set_option linter.unusedSectionVars false
set_option linter.unusedVariables false
set_option linter.unusedSimpArgs false

variable {N P C : Type} [DecidableEq N] [DecidableEq C]

theorem leads_nodup {g : Gr N} {rank : N → Nat} (hr : ∀ p ∈ links g, rank p.1 < rank p.2) {w : List N}
    (ho : Leads g w) : w.Nodup := by
  rw [List.Nodup, List.pairwise_iff_getElem]
  intro i j hi hj hij e
  have := onlyWay_rank hr ho hij hj
  rw [e] at this
  omega

/-- C81 (partial): replacing the fused operations contracts each of them to one node and keeps every
other connection, output and input, when the operations are accepted by the graph, none contains a model
input, no layer is listed twice among the outputs, and the layers of an operation after its first one
take one input. -/
theorem C81_contract_partial {S : Setup N P} {g : Gr N} {order : List N} {info : Info N P C}
    {mk : Name → N} (ht : TopoOrder g order) (hnd : g.nodes.Nodup)
    (he : ∀ e ∈ g.edges, e.src ∈ g.nodes ∧ e.dst ∈ g.nodes)
    (hacc : Accepted S g info)
    (hlen : ∀ id w, (id, w) ∈ info.data → w ≠ [])
    (hmk : (info.data.map (fun p => mk p.1)).Nodup)
    (hfresh : ∀ id w, (id, w) ∈ info.data → mk id ∉ g.nodes)
    (hin : ∀ id w, (id, w) ∈ info.data → ∀ n ∈ w, n ∉ g.inputs)
    (hout : (g.outputs.map Prod.fst).Nodup)
    (hone : ∀ id w, (id, w) ∈ info.data → ∀ n ∈ w.tail, (edgesInto g n).length ≤ 1) :
    ∃ g', info.data.foldlM (fun g p => replaceFused g (mk p.1) p.2) g = some g' ∧
      Contracted (named mk info) g g' := by
  have hS : Sound g := by
    refine ⟨hnd, ?_, order.idxOf, ?_⟩
    · intro p hp
      obtain ⟨e, h1, rfl⟩ := List.mem_map.1 hp
      exact he e h1
    · intro p hp
      obtain ⟨e, h1, rfl⟩ := List.mem_map.1 hp
      exact ht.forward e h1
  obtain ⟨rank, hrank⟩ := hS.acyclic
  have hmem : ∀ p ∈ named mk info, ∃ id w, (id, w) ∈ info.data ∧ p = (mk id, w) := by
    intro p hp
    obtain ⟨⟨id, w⟩, h1, rfl⟩ := List.mem_map.1 hp
    exact ⟨id, w, h1, rfl⟩
  have hpair : (named mk info).Pairwise (fun a b => ∀ n ∈ a.2, n ∉ b.2) := by
    rw [named, List.pairwise_map]
    exact hacc.1
  have hkey' : ((named mk info).map Prod.fst).Nodup := by
    rw [named, List.map_map]
    exact hmk
  have hops : ∀ p ∈ named mk info, p.2 ≠ [] ∧ p.2.Nodup ∧ (∀ n ∈ p.2, n ∈ g.nodes) ∧ Leads g p.2 ∧
      p.1 ∉ g.nodes ∧ (∀ n ∈ p.2, n ∉ g.inputs) ∧
      ∀ n ∈ p.2, (g.outputs.map Prod.fst).count n ≤ 1 := by
    intro p hp
    obtain ⟨id, w, hw, rfl⟩ := hmem p hp
    obtain ⟨h1, h2, -⟩ := hacc.2 id w hw
    have hl := leads_of_onlyWay h2
    exact ⟨hlen id w hw, leads_nodup hrank hl, h1, hl, hfresh id w hw, hin id w hw,
      fun n _ => List.nodup_iff_count_le_one.1 hout n⟩
  obtain ⟨g', e1, S1, l1, n1, o1, i1⟩ := replaceAll_result (named mk info) g hS hkey' hpair hops
  refine ⟨g', ?_, ?_, S1.nodes, ?_, o1, i1, ?_⟩
  · rw [← e1, named, List.foldlM_map]
  · intro m
    rw [n1]
    constructor
    · rintro (⟨p, hp, rfl⟩ | ⟨h1, h2⟩)
      · obtain ⟨k1, -, k3, -⟩ := hops p hp
        obtain ⟨n, hn⟩ := List.exists_mem_of_ne_nil _ k1
        exact ⟨n, k3 n hn, becomes_in hpair hp hn⟩
      · exact ⟨m, h1, becomes_out h2⟩
    · rintro ⟨n, hn, rfl⟩
      by_cases h : ∃ p ∈ named mk info, n ∈ p.2
      · obtain ⟨p, hp, hnp⟩ := h
        exact Or.inl ⟨p, hp, becomes_in hpair hp hnp⟩
      · push Not at h
        rw [becomes_out h]
        exact Or.inr ⟨hn, h⟩
  · refine l1.trans (List.Perm.of_eq ?_)
    congr 1
    apply List.filter_congr
    rintro ⟨x, y⟩ hxy
    obtain ⟨hx', hy'⟩ := hS.ends _ hxy
    have hlt := hrank _ hxy
    simp only at hx' hy' hlt
    rw [decide_eq_decide]
    refine not_congr ?_
    constructor
    · rintro ⟨p, hp, hy⟩
      obtain ⟨id, w, hw, rfl⟩ := hmem p hp
      simp only at hy
      obtain ⟨-, h2, -⟩ := hacc.2 id w hw
      have hl := leads_of_onlyWay h2
      obtain ⟨a, t, rfl⟩ : ∃ a t, w = a :: t := by
        cases w with
        | nil => simp at hy
        | cons a t => exact ⟨a, t, rfl⟩
      simp only [List.tail_cons] at hy
      obtain ⟨j, hj, hyj⟩ := List.mem_iff_getElem.1 hy
      have hlink := leads_mem hl j (by simpa using hj)
      simp only [List.getElem_cons_succ, hyj] at hlink
      have h1 := hone id (a :: t) hw y (by simpa using hy)
      obtain ⟨e₁, he₁, q₁⟩ := List.mem_map.1 hxy
      obtain ⟨e₂, he₂, q₂⟩ := List.mem_map.1 hlink
      simp only [Prod.mk.injEq] at q₁ q₂
      have m1 : e₁ ∈ edgesInto g y := List.mem_filter.2 ⟨he₁, by simp [q₁.2]⟩
      have m2 : e₂ ∈ edgesInto g y := List.mem_filter.2 ⟨he₂, by simp [q₂.2]⟩
      have hee : e₁ = e₂ := by
        rcases hL : edgesInto g y with _ | ⟨c, _ | ⟨d, l⟩⟩
        · rw [hL] at m1; simp at m1
        · rw [hL] at m1 m2
          simp at m1 m2
          rw [m1, m2]
        · rw [hL] at h1; simp at h1
      have hx : x = (a :: t)[j]'(by simp; omega) := by rw [← q₁.1, hee, q₂.1]
      rw [becomes_in hpair hp (n := x) (by simp only [hx]; exact List.getElem_mem _),
        becomes_in hpair hp (n := y) (by simp [hy])]
    · intro hb
      by_cases hX : ∃ p ∈ named mk info, x ∈ p.2
      · obtain ⟨p, hp, hxp⟩ := hX
        rw [becomes_in hpair hp hxp] at hb
        by_cases hY : ∃ q ∈ named mk info, y ∈ q.2
        · obtain ⟨q, hq, hyq⟩ := hY
          rw [becomes_in hpair hq hyq] at hb
          have hpq : p = q := List.inj_on_of_nodup_map hkey' hp hq hb
          subst hpq
          refine ⟨p, hp, ?_⟩
          obtain ⟨-, -, -, hl, -⟩ := hops p hp
          obtain ⟨i, hi, hxi⟩ := List.mem_iff_getElem.1 hxp
          obtain ⟨j, hj, hyj⟩ := List.mem_iff_getElem.1 hyq
          rcases Nat.eq_zero_or_pos j with rfl | hpos
          · exfalso
            rcases Nat.eq_zero_or_pos i with rfl | hi'
            · rw [← hxi, ← hyj] at hlt; omega
            · have := onlyWay_rank hrank hl hi' hi
              rw [hxi, hyj] at this
              omega
          · rw [← hyj]
            have : j - 1 < p.2.tail.length := by simp; omega
            have h2 : p.2.tail[j - 1] = p.2[j] := by
              rw [List.getElem_tail]
              congr 1
              omega
            rw [← h2]
            exact List.getElem_mem _
        · push Not at hY
          rw [becomes_out hY] at hb
          exact absurd (hb ▸ hy') (hops p hp).2.2.2.2.1
      · push Not at hX
        rw [becomes_out hX] at hb
        by_cases hY : ∃ q ∈ named mk info, y ∈ q.2
        · obtain ⟨q, hq, hyq⟩ := hY
          rw [becomes_in hpair hq hyq] at hb
          exact absurd (hb ▸ hx') (hops q hq).2.2.2.2.1
        · push Not at hY
          rw [becomes_out hY] at hb
          rw [hb] at hlt
          omega
  · obtain ⟨r, hr⟩ := S1.acyclic
    exact ⟨r, fun e h => hr (e.src, e.dst) (List.mem_map.2 ⟨e, h, rfl⟩)⟩

theorem generate_keeps {S : Setup N P} {g : Gr N} {order : List N} {ps : List (Pattern P C)}
    {manual : List (List Name)} {info : Info N P C} (h : generate S g order ps manual = some info) :
    info.patterns = ps ∧ info.manual = manual := by
  rw [generate] at h
  split at h
  · exact ⟨(mkInfo_data h).2.1, (mkInfo_data h).2.2.1⟩
  · obtain ⟨st, h1, h2⟩ := Option.bind_eq_some_iff.1 h
    obtain ⟨d, h3, h4⟩ := Option.bind_eq_some_iff.1 h2
    exact ⟨(mkInfo_data h4).2.1, (mkInfo_data h4).2.2.1⟩

theorem isPerm_self {α : Type} [BEq α] [LawfulBEq α] (l : List α) : l.isPerm l = true :=
  List.isPerm_iff.2 (List.Perm.refl l)

/-- C81 (partial): fusing a graph whose operations were generated from patterns alone succeeds and
contracts each of them to one node, when the layers a pattern puts after its first one take one input,
no operation contains a model input and no layer is listed twice among the outputs. -/
theorem C81_apply_partial [DecidableEq P] {S : Setup N P} {g : Gr N} {order : List N}
    {ps : List (Pattern P C)} {info : Info N P C} {mk : Name → N} (ht : TopoOrder g order)
    (hnd : g.nodes.Nodup) (he : ∀ e ∈ g.edges, e.src ∈ g.nodes ∧ e.dst ∈ g.nodes)
    (hone : ∀ p ∈ ps, ∀ l ∈ p.layers.tail, ∀ m, S.fits l m = true → (edgesInto g m).length ≤ 1)
    (h : generate S g order ps [] = some info)
    (hmk : (info.data.map (fun p => mk p.1)).Nodup)
    (hfresh : ∀ id w, (id, w) ∈ info.data → mk id ∉ g.nodes)
    (hin : ∀ id w, (id, w) ∈ info.data → ∀ n ∈ w, n ∉ g.inputs)
    (hout : (g.outputs.map Prod.fst).Nodup) :
    ∃ g', applyFusion S mk g order info = some g' ∧ Contracted (named mk info) g g' := by
  obtain ⟨hk, hc⟩ := C39_chains_partial ht (fun e h => (he e h).2) h
  have hap := C39_disjoint_partial ht hone h
  obtain ⟨hp, hm⟩ := generate_keeps h
  have hacc : Accepted S g info := by
    refine ⟨hap, fun id w hw => ?_⟩
    obtain ⟨h1, h2, h3, h4⟩ := hc id w hw
    exact ⟨h2, h3, Or.inr ⟨h1, by rw [hp]; exact h4⟩⟩
  obtain ⟨g', e1, C1⟩ := C81_contract_partial (mk := mk) ht hnd he hacc
    (fun id w hw => by
      have := (hc id w hw).1
      rintro rfl
      simp at this)
    hmk hfresh hin hout
    (fun id w hw n hn => by
      obtain ⟨h1, h2, h3, p, hpp, hf⟩ := hc id w hw
      obtain ⟨i, hi, rfl⟩ := List.mem_iff_getElem.1 hn
      have hlen := hf.length_eq
      have hi' : i + 1 < w.length := by simp at hi; omega
      have := forall₂_getElem hf (i + 1) (by omega) hi'
      rw [List.getElem_tail]
      refine hone p hpp _ ?_ _ this
      have hm : p.layers.tail[i]'(by simp; omega) = p.layers[i + 1]'(by omega) := List.getElem_tail _
      rw [← hm]
      exact List.getElem_mem _)
  refine ⟨g', ?_, C1⟩
  rw [applyFusion, hp, hm, h]
  simp only [Option.bind_eq_bind, Option.bind_some, isPerm_self, Bool.and_self, if_true]
  exact e1

/-- **C81**: the graph is fused only when the recorded operations are, up to their order, those the patterns and
the manual operations give on this graph. -/
theorem C81_checked [DecidableEq P] {S : Setup N P} {g g' : Gr N} {order : List N} {info : Info N P C}
    {mk : Name → N} (h : applyFusion S mk g order info = some g') :
    ∃ want, generate S g order info.patterns info.manual = some want ∧ want.data.Perm info.data ∧
      want.map.Perm info.map ∧ want.cfgs.Perm info.cfgs := by
  rw [applyFusion] at h
  simp only [Option.bind_eq_bind] at h
  cases hg : generate S g order info.patterns info.manual with
  | none => rw [hg] at h; simp at h
  | some want =>
    rw [hg] at h
    simp only [Option.bind_some] at h
    split at h
    · rename_i hc
      simp only [Bool.and_eq_true] at hc
      exact ⟨want, rfl, List.isPerm_iff.mp hc.1.1, List.isPerm_iff.mp hc.1.2, List.isPerm_iff.mp hc.2⟩
    · simp at h

/-- The hypotheses are met: two operations in sequence are contracted to two connected nodes. -/
example : ∃ info : Info Nat Nat Unit,
    generate joinSetup clashGraph [0, 1, 2, 3, 4] [⟨[1, 1], none⟩, ⟨[2, 3], some ()⟩] [] = some info ∧
    (info.data.map (fun p => 100 + p.1.length + p.1.getLast?.elim 0 Char.toNat)).Nodup ∧
    (∀ p ∈ info.data, 100 + p.1.length + p.1.getLast?.elim 0 Char.toNat ∉ clashGraph.nodes ∧
      ∀ n ∈ p.2, n ∉ clashGraph.inputs) ∧
    (clashGraph.outputs.map Prod.fst).Nodup ∧
    (applyFusion joinSetup (fun i => 100 + i.length + i.getLast?.elim 0 Char.toNat) clashGraph
      [0, 1, 2, 3, 4] info).map (fun g => (g.nodes.length, (links g).length)) = some (3, 2) := by
  refine ⟨_, rfl, by decide +kernel, by decide +kernel, by decide +kernel, by decide +kernel⟩

/-- Node 5 feeds the second layer of the operation 1, 2, 3. -/
def sideGraph : Gr Nat :=
  ⟨[0, 1, 5, 2, 3], [⟨0, 1, 0, 0⟩, ⟨0, 5, 0, 0⟩, ⟨1, 2, 0, 0⟩, ⟨5, 2, 0, 1⟩, ⟨2, 3, 0, 0⟩], [0], [(3, 0)]⟩

def sideSetup : Setup Nat Nat where
  name := fun n => (toString n).toList
  fits := fun l n => decide (l = n)

/-- **C81** fails of the code when a later layer of an operation has an input from outside the operation:
the connection is dropped, so that node 5 no longer feeds anything. The graph accepts the operation. -/
theorem C81_inner_input_violated :
    TopoOrder sideGraph [0, 1, 5, 2, 3] ∧
    (generate sideSetup sideGraph [0, 1, 5, 2, 3] [⟨[1, 2, 3], (none : Option Unit)⟩] []).map
      (fun i => (validate sideSetup sideGraph i, i.data.map Prod.snd)) = some (true, [[1, 2, 3]]) ∧
    (5, 2) ∈ links sideGraph ∧
    ((generate sideSetup sideGraph [0, 1, 5, 2, 3] [⟨[1, 2, 3], (none : Option Unit)⟩] []).bind
      (applyFusion sideSetup (fun _ => 9) sideGraph [0, 1, 5, 2, 3])).map links = some [(0, 5), (0, 9)] := by
  refine ⟨⟨by decide, fun n => Iff.rfl, by decide⟩, by decide +kernel, by decide +kernel, by decide +kernel⟩

/-- Both layers of the operation are outputs of the model. -/
def twoOutGraph : Gr Nat := ⟨[0, 1, 2], [⟨0, 1, 0, 0⟩, ⟨1, 2, 0, 0⟩], [0], [(1, 0), (2, 0)]⟩

/-- **C81** fails of the code when an inner layer is an output of the model: after fusing, both outputs are
the same tensor of the fused node, which is the output of the last layer. -/
theorem C81_inner_output_violated :
    (generate sideSetup twoOutGraph [0, 1, 2] [⟨[1, 2], (none : Option Unit)⟩] []).map
      (fun i => validate sideSetup twoOutGraph i) = some true ∧
    ((generate sideSetup twoOutGraph [0, 1, 2] [⟨[1, 2], (none : Option Unit)⟩] []).bind
      (applyFusion sideSetup (fun _ => 9) twoOutGraph [0, 1, 2])).map Gr.outputs = some [(9, 0), (9, 0)] := by
  refine ⟨by decide +kernel, by decide +kernel⟩

/-- Layer 1 takes the output of layer 0 twice. -/
def twiceGraph : Gr Nat := ⟨[0, 1, 2], [⟨0, 1, 0, 0⟩, ⟨0, 1, 0, 1⟩, ⟨1, 2, 0, 0⟩], [0], [(2, 0)]⟩

/-- **C81** fails of the code on the positions of inputs: when the first layer of an operation takes the
same tensor at positions 0 and 1, the fused node has two connections at position 0. -/
theorem C81_repeated_input_violated :
    ((generate sideSetup twiceGraph [0, 1, 2] [⟨[1, 2], (none : Option Unit)⟩] []).bind
      (applyFusion sideSetup (fun _ => 9) twiceGraph [0, 1, 2])).map Gr.edges =
      some [⟨0, 9, 0, 0⟩, ⟨0, 9, 0, 0⟩] := by
  decide +kernel

/-- A layer that is listed twice among the outputs. -/
def dupOutGraph : Gr Nat := ⟨[0, 1, 2], [⟨0, 1, 0, 0⟩, ⟨1, 2, 0, 0⟩], [0], [(2, 0), (2, 1)]⟩

/-- **C81** fails of the code when the last layer is listed twice among the outputs: the second listing
still names the removed layer. -/
theorem C81_repeated_output_violated :
    ((generate sideSetup dupOutGraph [0, 1, 2] [⟨[1, 2], (none : Option Unit)⟩] []).bind
      (applyFusion sideSetup (fun _ => 9) dupOutGraph [0, 1, 2])).map
        (fun g => (g.nodes, g.outputs)) = some ([0, 9], [(9, 0), (2, 1)]) := by
  decide +kernel

end MCT.Fusing
