/-
C39: the fused operations a user lists by name (/repo/model_compression_toolkit/core/common/fusion/fusing_info.py
439-455).
-/
import Verif.Fusing.Generate

namespace MCT.Fusing
open MCT.Graph MCT.GraphSpec MCT.FusingSpec

variable {N P C : Type} [DecidableEq N] [DecidableEq C]

/-- The layers are those with the names, and no other layer of the graph has one of the names. -/
def Named (S : Setup N P) (g : Gr N) (names : List Name) (nodes : List N) : Prop :=
  List.Forall₂ (fun nm n => n ∈ g.nodes ∧ S.name n = nm ∧ ∀ m ∈ g.nodes, S.name m = nm → m = n) names nodes

theorem Dict.has_true {α : Type} (k : Name) (d : Dict α) : d.has k = true ↔ ∃ p ∈ d, p.1 = k := by
  rw [Dict.has, Option.isSome_iff_ne_none, Ne, Dict.get_none, not_not, List.mem_map]

omit [DecidableEq N] in
theorem filter_one {l : List N} (hn : l.Nodup) (p : N → Bool) (n : N) :
    l.filter p = [n] ↔ n ∈ l ∧ p n = true ∧ ∀ m ∈ l, p m = true → m = n := by
  constructor
  · intro h
    have h1 : n ∈ l.filter p := by rw [h]; exact List.mem_singleton.mpr rfl
    refine ⟨(List.mem_filter.mp h1).1, (List.mem_filter.mp h1).2, fun m hm hp => ?_⟩
    have : m ∈ l.filter p := List.mem_filter.mpr ⟨hm, hp⟩
    rw [h] at this
    exact List.mem_singleton.mp this
  · rintro ⟨h1, h2, h3⟩
    have hmem : n ∈ l.filter p := List.mem_filter.mpr ⟨h1, h2⟩
    have hnd : (l.filter p).Nodup := hn.filter p
    have hall : ∀ m ∈ l.filter p, m = n := fun m hm => h3 m (List.mem_filter.mp hm).1 (List.mem_filter.mp hm).2
    revert hmem hnd hall
    generalize l.filter p = f
    intro hmem hnd hall
    match f with
    | [] => cases hmem
    | [a] => rw [hall a List.mem_cons_self]
    | a :: b :: f =>
      have e1 := hall a (by simp)
      have e2 := hall b (by simp)
      rw [e1, e2] at hnd
      exact absurd hnd (by simp)

theorem manualNodes_iff {S : Setup N P} {g : Gr N} (hn : g.nodes.Nodup) :
    ∀ (names : List Name) (nodes : List N), manualNodes S g names = some nodes ↔ Named S g names nodes
  | [], nodes => by
    rw [manualNodes, List.mapM_nil, Named]
    cases nodes <;> simp
  | nm :: names, nodes => by
    have ih := manualNodes_iff (S := S) hn names
    rw [manualNodes] at ih ⊢
    rw [List.mapM_cons]
    have one : ∀ n, (match g.nodes.filter (fun n => decide (S.name n = nm)) with
        | [n] => some n
        | _ => none) = some n ↔ n ∈ g.nodes ∧ S.name n = nm ∧ ∀ m ∈ g.nodes, S.name m = nm → m = n := by
      intro n
      have := filter_one hn (fun n => decide (S.name n = nm)) n
      simp only [decide_eq_true_eq] at this
      rw [← this]
      split
      · rename_i m hm
        rw [hm]; simp
      · rename_i hne
        constructor
        · intro h; cases h
        · intro h; exact absurd h (hne n)
    simp only [Option.bind_eq_bind, Option.pure_def, Option.bind_eq_some_iff, Option.some.injEq]
    constructor
    · rintro ⟨n, h1, ns, h2, rfl⟩
      exact .cons ((one n).mp (by
        rw [← h1]
        rcases g.nodes.filter (fun n => decide (S.name n = nm)) with _ | ⟨a, _ | ⟨b, t⟩⟩ <;> rfl)) ((ih ns).mp h2)
    · intro h
      cases h with
      | cons h1 h2 => exact ⟨_, (by
        rw [← (one _).mpr h1]
        rcases g.nodes.filter (fun n => decide (S.name n = nm)) with _ | ⟨a, _ | ⟨b, t⟩⟩ <;> rfl), _, (ih _).mpr h2, rfl⟩

omit [DecidableEq N] in
theorem prefix_fusedId (S : Setup N P) (w : List N) : fusedId (N := N) S [] <+: fusedId S w := by
  unfold fusedId
  simp only [List.map_nil]
  exact (List.prefix_append_right_inj _).mpr (by simp [List.intercalate])

omit [DecidableEq N] [DecidableEq C] in
theorem mkInfo_isSome {S : Setup N P} {ps : List (Pattern P C)} {manual : List (List Name)} {d : Dict (List N)} :
    (∃ i, mkInfo S ps manual d = some i) ↔ ∀ p ∈ d, fusedId (N := N) S [] <+: p.1 ∧ 1 < p.2.length := by
  rw [mkInfo]
  have key : d.all (fun p => decide (fusedId (N := N) S [] <+: p.1) && decide (1 < p.2.length)) = true ↔
      ∀ p ∈ d, fusedId (N := N) S [] <+: p.1 ∧ 1 < p.2.length := by
    rw [List.all_eq_true]
    refine forall₂_congr fun p _ => ?_
    rw [Bool.and_eq_true, decide_eq_true_eq, decide_eq_true_eq]
  split
  · rename_i h; exact ⟨fun _ => key.mp h, fun _ => ⟨_, rfl⟩⟩
  · rename_i h
    exact ⟨fun ⟨_, e⟩ => (by cases e), fun e => absurd (key.mpr e) h⟩

/-- **C39** (operations listed by the user).  One more operation is accepted exactly when each of its names is that of
exactly one layer, there are two names at least, and no remaining operation has its identifier.  Then all operations
that share a layer with it are given up, the others stay as they were and it is added at the end. -/
theorem C39_manual {S : Setup N P} {g : Gr N} (hn : g.nodes.Nodup) {order : List N} {ps : List (Pattern P C)}
    (hps : ps ≠ []) (ms : List (List Name)) (names : List Name) (info₀ : Info N P C)
    (h₀ : generate S g order ps ms = some info₀) :
    ((∃ info, generate S g order ps (ms ++ [names]) = some info) ↔ ∃ nodes, Named S g names nodes ∧
      2 ≤ nodes.length ∧ ∀ p ∈ info₀.data, (∀ n ∈ nodes, n ∉ p.2) → p.1 ≠ fusedId S nodes) ∧
    ∀ info, generate S g order ps (ms ++ [names]) = some info → ∃ nodes kept, Named S g names nodes ∧
      info.data = kept ++ [(fusedId S nodes, nodes)] ∧ kept.Sublist info₀.data ∧
      ∀ p ∈ info₀.data, p ∈ kept ↔ ∀ n ∈ nodes, n ∉ p.2 := by
  have hlen : ¬ ps.length = 0 := by
    intro h
    exact hps (List.length_eq_zero_iff.mp h)
  rw [generate, if_neg hlen] at h₀
  obtain ⟨st, hst, h₀⟩ := Option.bind_eq_some_iff.1 h₀
  obtain ⟨d, hd, h₀⟩ := Option.bind_eq_some_iff.1 h₀
  have hd0 : info₀.data = d := (mkInfo_data h₀).1
  have hok := mkInfo_isSome.mp ⟨_, h₀⟩
  have hgen : generate S g order ps (ms ++ [names]) =
      (manualStep S g d names).bind fun d' => mkInfo S ps (ms ++ [names]) d' := by
    rw [generate, if_neg hlen]
    simp only [Option.bind_eq_bind]
    rw [hst]
    simp only [Option.bind_some]
    rw [List.foldlM_append, hd]
    simp only [Option.bind_eq_bind, Option.bind_some, List.foldlM_cons, List.foldlM_nil]
    cases manualStep S g d names <;> rfl
  have kept : ∀ (nodes : List N) (p : Name × List N),
      (!(nodes.any (fun n => decide (n ∈ p.2)))) = true ↔ ∀ n ∈ nodes, n ∉ p.2 := by
    intro nodes p
    simp [List.any_eq_true]
  have hstep : ∀ d', manualStep S g d names = some d' ↔ ∃ nodes, Named S g names nodes ∧
      (∀ p ∈ d, (∀ n ∈ nodes, n ∉ p.2) → p.1 ≠ fusedId S nodes) ∧
      d' = d.filter (fun p => !(nodes.any (fun n => decide (n ∈ p.2)))) ++ [(fusedId S nodes, nodes)] := by
    intro d'
    rw [manualStep]
    simp only [Option.bind_eq_bind, Option.bind_eq_some_iff, manualNodes_iff hn]
    refine exists_congr fun nodes => and_congr_right fun _ => ?_
    have hhas : Dict.has (d.filter (fun p => !(nodes.any (fun n => decide (n ∈ p.2))))) (fusedId S nodes) = true ↔
        ¬ ∀ p ∈ d, (∀ n ∈ nodes, n ∉ p.2) → p.1 ≠ fusedId S nodes := by
      rw [Dict.has_true]
      push Not
      constructor
      · rintro ⟨p, hp, he⟩
        rw [List.mem_filter] at hp
        exact ⟨p, hp.1, (kept nodes p).mp hp.2, he⟩
      · rintro ⟨p, hp, hk, he⟩
        exact ⟨p, List.mem_filter.mpr ⟨hp, (kept nodes p).mpr hk⟩, he⟩
    split
    · rename_i h
      constructor
      · intro e; cases e
      · rintro ⟨e, _⟩; exact absurd e (hhas.mp h)
    · rename_i h
      rw [hhas, not_not] at h
      rw [Option.some.injEq]
      exact ⟨fun e => ⟨h, e.symm⟩, fun e => e.2.symm⟩
  constructor
  · constructor
    · rintro ⟨info, h⟩
      rw [hgen] at h
      obtain ⟨d', h1, h2⟩ := Option.bind_eq_some_iff.mp h
      obtain ⟨nodes, a, b, c⟩ := (hstep d').mp h1
      have := mkInfo_isSome.mp ⟨_, h2⟩ (fusedId S nodes, nodes) (by rw [c]; simp)
      exact ⟨nodes, a, this.2, by rw [hd0]; exact b⟩
    · rintro ⟨nodes, a, b, c⟩
      rw [hd0] at c
      have h1 := (hstep _).mpr ⟨nodes, a, c, rfl⟩
      rw [hgen, h1]
      simp only [Option.bind_some]
      refine mkInfo_isSome.mpr fun p hp => ?_
      rcases List.mem_append.mp hp with hp | hp
      · exact hok p (List.mem_filter.mp hp).1
      · rw [List.mem_singleton] at hp
        subst hp
        exact ⟨prefix_fusedId S nodes, b⟩
  · intro info h
    rw [hgen] at h
    obtain ⟨d', h1, h2⟩ := Option.bind_eq_some_iff.mp h
    obtain ⟨nodes, a, b, c⟩ := (hstep d').mp h1
    refine ⟨nodes, d.filter (fun p => !(nodes.any (fun n => decide (n ∈ p.2)))), a, ?_, ?_, ?_⟩
    · rw [(mkInfo_data h2).1, c]
    · rw [hd0]; exact List.filter_sublist
    · intro p hp
      rw [hd0] at hp
      rw [List.mem_filter, kept]
      exact ⟨fun e => e.2, fun e => ⟨hp, e⟩⟩

/-- In the graph with a join, the user may fuse the layers 3 and 4, named by their numbers. -/
example : Named joinSetup joinGraph [['3'], ['4']] [3, 4] := by
  refine .cons ?_ (.cons ?_ .nil) <;> exact ⟨by decide, by decide, by decide⟩

example : (generate joinSetup joinGraph [0, 1, 2, 3, 4] [(⟨[0, 1], none⟩ : Pattern Nat Unit), ⟨[2, 3], none⟩] []).map
    Info.data = some [("FusedNode_3_4".toList, [3, 4])] ∧
    (generate joinSetup joinGraph [0, 1, 2, 3, 4] [(⟨[0, 1], none⟩ : Pattern Nat Unit), ⟨[2, 3], none⟩]
      [[['1'], ['3']]]).map Info.data = some [("FusedNode_1_3".toList, [1, 3])] := by decide

end MCT.Fusing
